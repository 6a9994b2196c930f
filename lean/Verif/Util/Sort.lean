/-!
# A stable sort

The code sorts with `std::sort`, `std::stable_sort` and `std::set`. The models use the insertion sort
below for all of them: it is stable, and it reduces in the kernel, so that examples can be evaluated.
Where the C++ sort is unstable the theorems are about orders in which equal elements are
indistinguishable (no two elements compare equal), or say so.
-/

namespace Verif.Util

/-- Insert before the first element that is not smaller. -/
def insertBy {α : Type} (le : α → α → Bool) (a : α) : List α → List α
  | [] => [a]
  | b :: l => if le a b then a :: b :: l else b :: insertBy le a l

/-- Stable insertion sort. -/
def isort {α : Type} (le : α → α → Bool) : List α → List α
  | [] => []
  | a :: l => insertBy le a (isort le l)

variable {α : Type} {le : α → α → Bool}

theorem insertBy_perm (a : α) (l : List α) : (insertBy le a l).Perm (a :: l) := by
  induction l with
  | nil => exact .refl _
  | cons b l ih =>
    unfold insertBy
    split
    · exact .refl _
    · exact (List.Perm.cons b ih).trans (List.Perm.swap a b l)

theorem isort_perm (l : List α) : (isort le l).Perm l := by
  induction l with
  | nil => exact .refl _
  | cons a l ih => exact (insertBy_perm a _).trans (List.Perm.cons a ih)

@[simp] theorem isort_nil : isort le ([] : List α) = [] := rfl

theorem mem_isort {a : α} {l : List α} : a ∈ isort le l ↔ a ∈ l := (isort_perm l).mem_iff

theorem length_isort (l : List α) : (isort le l).length = l.length := (isort_perm l).length_eq

theorem insertBy_pairwise (trans : ∀ a b c, le a b → le b c → le a c)
    (total : ∀ a b, le a b ∨ le b a) (a : α) {l : List α} (h : l.Pairwise (fun a b => le a b)) :
    (insertBy le a l).Pairwise (fun a b => le a b) := by
  induction l with
  | nil => simp [insertBy]
  | cons b l ih =>
    rw [List.pairwise_cons] at h
    unfold insertBy
    split
    · rename_i hab
      refine List.pairwise_cons.mpr ⟨?_, List.pairwise_cons.mpr h⟩
      intro c hc
      rcases List.mem_cons.mp hc with rfl | hc
      · exact hab
      · exact trans a b c hab (h.1 c hc)
    · rename_i hab
      have hba : le b a := by
        rcases total a b with h | h
        · exact absurd h hab
        · exact h
      refine List.pairwise_cons.mpr ⟨?_, ih h.2⟩
      intro c hc
      rcases List.mem_cons.mp ((insertBy_perm a l).mem_iff.mp hc) with rfl | hc
      · exact hba
      · exact h.1 c hc

theorem isort_pairwise (trans : ∀ a b c, le a b → le b c → le a c)
    (total : ∀ a b, le a b ∨ le b a) (l : List α) : (isort le l).Pairwise (fun a b => le a b) := by
  induction l with
  | nil => exact .nil
  | cons a l ih => exact insertBy_pairwise trans total a ih

theorem insertBy_filter (p : α → Bool) (a : α) (l : List α)
    (h : ∀ b ∈ l, p a → p b → le a b) :
    (insertBy le a l).filter p = (a :: l).filter p := by
  induction l with
  | nil => rfl
  | cons b l ih =>
    unfold insertBy
    split
    · rfl
    · rename_i hab
      rw [List.filter_cons, ih (fun c hc => h c (List.mem_cons_of_mem _ hc))]
      by_cases hb : p b
      · have ha : p a = false := by
          cases ha : p a with
          | false => rfl
          | true => exact absurd (h b (List.mem_cons_self ..) ha hb) hab
        simp [hb, ha]
      · simp [List.filter_cons, hb]

/-- Stability: among elements pairwise `le` in both directions the order is kept. -/
theorem isort_filter (p : α → Bool) (l : List α) (h : ∀ a ∈ l, ∀ b ∈ l, p a → p b → le a b) :
    (isort le l).filter p = l.filter p := by
  induction l with
  | nil => rfl
  | cons a l ih =>
    show (insertBy le a (isort le l)).filter p = _
    rw [insertBy_filter p a _ (fun b hb ha hb' => h a (List.mem_cons_self ..) b
      (List.mem_cons_of_mem _ (mem_isort.mp hb)) ha hb'), List.filter_cons, List.filter_cons,
      ih (fun a ha b hb => h a (List.mem_cons_of_mem _ ha) b (List.mem_cons_of_mem _ hb))]

/-- Two sorted permutations of each other are equal, if distinct members never compare both ways. -/
theorem eq_of_perm_of_pairwise {l₁ l₂ : List α} (hp : l₁.Perm l₂)
    (anti : ∀ a ∈ l₁, ∀ b ∈ l₁, le a b → le b a → a = b)
    (h₁ : l₁.Pairwise (fun a b => le a b)) (h₂ : l₂.Pairwise (fun a b => le a b)) : l₁ = l₂ := by
  induction l₁ generalizing l₂ with
  | nil => exact (List.nil_perm.mp hp).symm
  | cons a l₁ ih =>
    cases l₂ with
    | nil => exact absurd hp.symm (by simp)
    | cons b l₂ =>
      rw [List.pairwise_cons] at h₁ h₂
      have ha : a ∈ b :: l₂ := hp.mem_iff.mp (List.mem_cons_self ..)
      have hb : b ∈ a :: l₁ := hp.mem_iff.mpr (List.mem_cons_self ..)
      have hab : a = b := by
        rcases List.mem_cons.mp ha with h | h
        · exact h
        · rcases List.mem_cons.mp hb with h' | h'
          · exact h'.symm
          · exact anti a (List.mem_cons_self ..) b hb (h₁.1 b h') (h₂.1 a h)
      subst hab
      rw [ih hp.cons_inv (fun x hx y hy => anti x (List.mem_cons_of_mem _ hx) y (List.mem_cons_of_mem _ hy))
        h₁.2 h₂.2]

end Verif.Util
