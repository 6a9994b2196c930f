import Verif.Indexer.Spec

/-! The indexer: sizes of chunks (C138, C139, C140). -/
namespace Verif.Indexer
open Verif
set_option linter.unusedSectionVars false

section
variable (c : Cfg) (hs : 0 < c.step)

def nextB (b : Nat) : Nat := if b < c.minSize then 2 * b else b + c.step

/-- The buckets, counted. -/
def bk : Nat → Nat
  | 0 => 1024
  | k + 1 => nextB c (bk k)

theorem bk_pos (k : Nat) : 1024 ≤ bk c k := by
  induction k with
  | zero => exact Nat.le_refl _
  | succ k ih => unfold bk nextB; split <;> omega

theorem isBucket_iff (b : Nat) : IsBucket c b ↔ ∃ k, b = bk c k := by
  constructor
  · intro h
    induction h with
    | first => exact ⟨0, rfl⟩
    | double h hlt ih =>
      obtain ⟨k, rfl⟩ := ih
      exact ⟨k + 1, by rw [bk, nextB, if_pos hlt]⟩
    | step h hle ih =>
      obtain ⟨k, rfl⟩ := ih
      exact ⟨k + 1, by rw [bk, nextB, if_neg (by omega)]⟩
  · rintro ⟨k, rfl⟩
    induction k with
    | zero => exact .first
    | succ k ih =>
      unfold bk nextB
      split
      · next h => exact .double ih h
      · next h => exact .step ih (by omega)

include hs

theorem bk_lt_succ (k : Nat) : bk c k < bk c (k + 1) := by
  have := bk_pos c k
  rw [bk, nextB]
  split <;> omega

theorem bk_mono {i j : Nat} (h : i < j) : bk c i < bk c j := by
  induction j with
  | zero => omega
  | succ j ih =>
    have := bk_lt_succ c hs j
    by_cases hi : i = j
    · subst hi; exact this
    · have := ih (by omega); omega

theorem bk_le {i j : Nat} (h : bk c i ≤ bk c j) : i ≤ j := by
  by_cases hij : j < i
  · have := bk_mono c hs hij; omega
  · omega

theorem doubling_spec (size : Nat) (hsz : size ≤ 2 ^ 63) : ∀ (f k : Nat), size ≤ f + bk c k →
    ∃ k', k ≤ k' ∧ doubling c.minSize size f (bk c k) = bk c k' ∧ (size ≤ bk c k' ∨ c.minSize ≤ bk c k') ∧ ∀ i, k ≤ i → i < k' → bk c i < size
  | 0, k, h => ⟨k, Nat.le_refl _, rfl, .inl (by omega), fun i h1 h2 => by omega⟩
  | f + 1, k, h => by
    rw [doubling]
    split
    · next hc =>
      have hn : bk c (k + 1) = 2 * bk c k := by rw [bk, nextB, if_pos hc.2.1]
      have := bk_lt_succ c hs k
      obtain ⟨k', h1, h2, h3, h4⟩ := doubling_spec size hsz f (k + 1) (by omega)
      rw [← hn]
      refine ⟨k', by omega, h2, h3, fun i hi hi' => ?_⟩
      by_cases hik : i = k
      · rw [hik]; exact hc.1
      · exact h4 i (by omega) hi'
    · next hc => exact ⟨k, Nat.le_refl _, rfl, by omega, fun i h1 h2 => by omega⟩

theorem stepping_spec (size : Nat) (hsz : size ≤ 2 ^ 63) : ∀ (f k : Nat), size ≤ f + bk c k → (size ≤ bk c k ∨ c.minSize ≤ bk c k) →
    ∃ k', k ≤ k' ∧ stepping c.step size f (bk c k) = bk c k' ∧ size ≤ bk c k' ∧ ∀ i, k ≤ i → i < k' → bk c i < size
  | 0, k, h, _ => ⟨k, Nat.le_refl _, rfl, by omega, fun i h1 h2 => by omega⟩
  | f + 1, k, h, hm => by
    rw [stepping]
    split
    · next hc =>
      have hn : bk c (k + 1) = bk c k + c.step := by rw [bk, nextB, if_neg (by omega)]
      obtain ⟨k', h1, h2, h3, h4⟩ := stepping_spec size hsz f (k + 1) (by omega) (.inr (by omega))
      rw [← hn]
      refine ⟨k', by omega, h2, h3, fun i hi hi' => ?_⟩
      by_cases hik : i = k
      · rw [hik]; exact hc.1
      · exact h4 i (by omega) hi'
    · next hc => exact ⟨k, Nat.le_refl _, rfl, by omega, fun i h1 h2 => by omega⟩

/-- C138: a chunk is counted in the smallest bucket it fits in. -/
theorem C138_bucket (n : Nat) (hn : n ≤ 2 ^ 63) : BucketOf c n (sizeBucket c n) := by
  obtain ⟨k, h1, h2, h3, h4⟩ := doubling_spec c hs n hn n 0 (by omega)
  obtain ⟨k', g1, g2, g3, g4⟩ := stepping_spec c hs n hn n k (by omega) h3
  have e : sizeBucket c n = bk c k' := by
    unfold sizeBucket
    have h2 : doubling c.minSize n n 1024 = bk c k := h2
    dsimp only
    rw [h2, g2, if_pos g3]
  rw [e]
  refine ⟨(isBucket_iff c _).mpr ⟨k', rfl⟩, g3, fun b' hb' hle => ?_⟩
  obtain ⟨i, rfl⟩ := (isBucket_iff c _).mp hb'
  by_cases hi : i < k'
  · have : bk c i < n := by
      by_cases hik : i < k
      · exact h4 i (Nat.zero_le _) hik
      · exact g4 i (by omega) hi
    omega
  · by_cases hk : k' = i
    · rw [hk]; exact Nat.le_refl _
    · exact Nat.le_of_lt (bk_mono c hs (by omega))

theorem powers_spec (stop : Nat) (hst : stop ≤ c.minSize) : ∀ (f k : Nat), stop ≤ f + bk c k →
    ∃ m, k ≤ m ∧ powers stop f (bk c k) = ((List.range' k (m - k)).map (bk c), bk c m) ∧ stop ≤ bk c m ∧ ∀ i, k ≤ i → i < m → bk c i < stop
  | 0, k, h => ⟨k, Nat.le_refl _, by rw [Nat.sub_self]; rfl, by omega, fun i h1 h2 => by omega⟩
  | f + 1, k, h => by
    rw [powers]
    split
    · next hc =>
      have hn : bk c (k + 1) = 2 * bk c k := by rw [bk, nextB, if_pos (by omega)]
      have := bk_lt_succ c hs k
      obtain ⟨m, h1, h2, h3, h4⟩ := powers_spec stop hst f (k + 1) (by omega)
      rw [← hn, h2]
      refine ⟨m, by omega, ?_, h3, fun i hi hi' => ?_⟩
      · rw [show m - k = (m - (k + 1)) + 1 by omega, List.range'_succ]; rfl
      · by_cases hik : i = k
        · rw [hik]; exact hc
        · exact h4 i (by omega) hi'
    · next hc => exact ⟨k, Nat.le_refl _, by rw [Nat.sub_self]; rfl, by omega, fun i h1 h2 => by omega⟩

theorem steps_spec (last : Nat) : ∀ (f k : Nat), last < f + bk c k → c.minSize ≤ bk c k →
    ∃ m, k ≤ m ∧ steps c.step last f (bk c k) = (List.range' k (m - k)).map (bk c) ∧ last < bk c m ∧ ∀ i, k ≤ i → i < m → bk c i ≤ last
  | 0, k, h, _ => ⟨k, Nat.le_refl _, by rw [Nat.sub_self]; rfl, by omega, fun i h1 h2 => by omega⟩
  | f + 1, k, h, hm => by
    rw [steps]
    split
    · next hc =>
      have hn : bk c (k + 1) = bk c k + c.step := by rw [bk, nextB, if_neg (by omega)]
      obtain ⟨m, h1, h2, h3, h4⟩ := steps_spec last f (k + 1) (by omega) (by omega)
      rw [← hn, h2]
      refine ⟨m, by omega, ?_, h3, fun i hi hi' => ?_⟩
      · rw [show m - k = (m - (k + 1)) + 1 by omega, List.range'_succ]; rfl
      · by_cases hik : i = k
        · rw [hik]; exact hc
        · exact h4 i (by omega) hi'
    · next hc => exact ⟨k, Nat.le_refl _, by rw [Nat.sub_self]; rfl, by omega, fun i h1 h2 => by omega⟩

/-- The list of buckets from a bucket on up to `last`. -/
theorem list_spec (k stop last : Nat) (hst : stop ≤ c.minSize) (hl : stop ≤ last)
    (hb : stop = c.minSize ∨ (stop = last ∧ ((∃ j, last = bk c j) ∨ last = 0))) :
    ∃ m, (powers stop stop (bk c k)).1 ++ steps c.step last (last + 1) (powers stop stop (bk c k)).2 = (List.range' k (m - k)).map (bk c) ∧
      last < bk c m ∧ ∀ i, k ≤ i → i < m → bk c i ≤ last := by
  obtain ⟨m, h1, h2, h3, h4⟩ := powers_spec c hs stop hst stop k (by omega)
  rw [h2]
  by_cases hm : c.minSize ≤ bk c m
  · obtain ⟨m', g1, g2, g3, g4⟩ := steps_spec c hs last (last + 1) m (by omega) hm
    refine ⟨m', ?_, g3, fun i hi hi' => ?_⟩
    · show _ ++ steps c.step last (last + 1) (bk c m) = _
      rw [g2, ← List.map_append]
      congr 1
      have := List.range'_append (s := k) (m := m - k) (n := m' - m) (step := 1)
      rw [Nat.one_mul, show k + (m - k) = m by omega] at this
      rw [this]
      congr 1
      omega
    · by_cases him : i < m
      · have := h4 i hi him; omega
      · exact g4 i (by omega) hi'
  · rcases hb with hb | ⟨hb, ⟨j, hj⟩ | h0⟩
    · omega
    · by_cases hlt : last < bk c m
      · refine ⟨m, ?_, hlt, fun i hi hi' => by have := h4 i hi hi'; omega⟩
        show _ ++ steps c.step last (last + 1) (bk c m) = _
        rw [steps, if_neg (by omega), List.append_nil]
      · have e : last = bk c m := by omega
        have hn := bk_lt_succ c hs m
        refine ⟨m + 1, ?_, by omega, fun i hi hi' => ?_⟩
        · show _ ++ steps c.step last (last + 1) (bk c m) = _
          have : steps c.step last (last + 1) (bk c m) = [bk c m] := by
            rw [steps, if_pos (by omega)]
            have := bk_pos c m
            obtain ⟨l', hl'⟩ : ∃ l', last = l' + 1 := ⟨last - 1, by omega⟩
            rw [hl', steps, if_neg (by omega)]
          rw [this, show m + 1 - k = (m - k) + 1 by omega, List.range'_concat, List.map_append]
          rw [Nat.one_mul, show k + (m - k) = m by omega]; rfl
        · by_cases him : i < m
          · have := h4 i hi him; omega
          · rw [show i = m by omega]; omega
    · have := bk_pos c m
      refine ⟨m, ?_, by omega, fun i hi hi' => by have := h4 i hi hi'; omega⟩
      show _ ++ steps c.step last (last + 1) (bk c m) = _
      rw [steps, if_neg (by omega), List.append_nil]

theorem range_mem (k m last b : Nat) (h1 : last < bk c m) (h2 : ∀ i, k ≤ i → i < m → bk c i ≤ last) :
    b ∈ (List.range' k (m - k)).map (bk c) ↔ IsBucket c b ∧ bk c k ≤ b ∧ b ≤ last := by
  rw [List.mem_map]
  constructor
  · rintro ⟨i, hi, rfl⟩
    rw [List.mem_range'_1] at hi
    refine ⟨(isBucket_iff c _).mpr ⟨i, rfl⟩, ?_, h2 i hi.1 (by omega)⟩
    by_cases h : k = i
    · rw [h]; exact Nat.le_refl _
    · exact Nat.le_of_lt (bk_mono c hs (by omega))
  · rintro ⟨hb, hk, hl⟩
    obtain ⟨i, rfl⟩ := (isBucket_iff c _).mp hb
    refine ⟨i, List.mem_range'_1.mpr ⟨bk_le c hs hk, ?_⟩, rfl⟩
    have : i < m := by
      by_cases h : m ≤ i
      · have : bk c m ≤ bk c i := by
          by_cases h' : m = i
          · rw [h']; exact Nat.le_refl _
          · exact Nat.le_of_lt (bk_mono c hs (by omega))
        omega
      · omega
    have := bk_le c hs hk
    omega

theorem range_sorted (k n : Nat) : ((List.range' k n).map (bk c)).Pairwise (· < ·) := by
  rw [List.pairwise_map]
  exact (List.pairwise_lt_range' (s := k) (n := n) (step := 1)).imp fun h => bk_mono c hs h

omit hs in
theorem least_spec (l : List (Nat × Nat)) : ∀ m, (∀ x ∈ l, l.foldl (fun m x => if x.1 < m then x.1 else m) m ≤ x.1) ∧ l.foldl (fun m x => if x.1 < m then x.1 else m) m ≤ m ∧
    (l.foldl (fun m x => if x.1 < m then x.1 else m) m = m ∨ ∃ x ∈ l, l.foldl (fun m x => if x.1 < m then x.1 else m) m = x.1) := by
  induction l with
  | nil => exact fun m => ⟨(fun x h => nomatch h), Nat.le_refl _, .inl rfl⟩
  | cons y l ih =>
    intro m
    rw [List.foldl_cons]
    obtain ⟨h1, h2, h3⟩ := ih (if y.1 < m then y.1 else m)
    have : (if y.1 < m then y.1 else m) ≤ y.1 ∧ (if y.1 < m then y.1 else m) ≤ m := by split <;> omega
    refine ⟨fun x hx => ?_, by omega, ?_⟩
    · rcases List.mem_cons.mp hx with rfl | hx
      · omega
      · exact h1 x hx
    · rcases h3 with h3 | ⟨x, hx, h3⟩
      · by_cases hc : y.1 < m
        · exact .inr ⟨y, List.mem_cons_self, by rw [h3, if_pos hc]⟩
        · exact .inl (by rw [h3, if_neg hc])
      · exact .inr ⟨x, List.mem_cons_of_mem _ hx, h3⟩

omit hs in
theorem most_spec (l : List (Nat × Nat)) : ∀ m, (∀ x ∈ l, x.1 ≤ l.foldl (fun m x => if x.1 > m then x.1 else m) m) ∧ m ≤ l.foldl (fun m x => if x.1 > m then x.1 else m) m ∧
    (l.foldl (fun m x => if x.1 > m then x.1 else m) m = m ∨ ∃ x ∈ l, l.foldl (fun m x => if x.1 > m then x.1 else m) m = x.1) := by
  induction l with
  | nil => exact fun m => ⟨(fun x h => nomatch h), Nat.le_refl _, .inl rfl⟩
  | cons y l ih =>
    intro m
    rw [List.foldl_cons]
    obtain ⟨h1, h2, h3⟩ := ih (if y.1 > m then y.1 else m)
    have : y.1 ≤ (if y.1 > m then y.1 else m) ∧ m ≤ (if y.1 > m then y.1 else m) := by split <;> omega
    refine ⟨fun x hx => ?_, by omega, ?_⟩
    · rcases List.mem_cons.mp hx with rfl | hx
      · omega
      · exact h1 x hx
    · rcases h3 with h3 | ⟨x, hx, h3⟩
      · by_cases hc : y.1 > m
        · exact .inr ⟨y, List.mem_cons_self, by rw [h3, if_pos hc]⟩
        · exact .inl (by rw [h3, if_neg hc])
      · exact .inr ⟨x, List.mem_cons_of_mem _ hx, h3⟩

omit hs in
theorem count_mem {sizes : List (Nat × Nat)} (hnd : (sizes.map (·.1)).Nodup) {x : Nat × Nat} (hx : x ∈ sizes) : count sizes x.1 = x.2 := by
  induction sizes with
  | nil => cases hx
  | cons y l ih =>
    rw [List.map_cons, List.nodup_cons] at hnd
    unfold count
    rcases List.mem_cons.mp hx with rfl | hx
    · rw [List.find?_cons_of_pos (by simp)]
    · have : y.1 ≠ x.1 := fun h => hnd.1 (h ▸ List.mem_map.mpr ⟨x, hx, rfl⟩)
      rw [List.find?_cons_of_neg (by simpa using this)]
      exact ih hnd.2 hx

omit hs in
theorem count_cons (y : Nat × Nat) (l : List (Nat × Nat)) (b : Nat) : count (y :: l) b = if y.1 = b then y.2 else count l b := by
  unfold count
  by_cases h : y.1 = b
  · rw [if_pos h, List.find?_cons_of_pos (by simpa using h)]
  · rw [if_neg h, List.find?_cons_of_neg (by simpa using h)]

omit hs in
theorem count_none {l : List (Nat × Nat)} {b : Nat} (h : b ∉ l.map (·.1)) : count l b = 0 := by
  induction l with
  | nil => rfl
  | cons y l ih =>
    rw [List.map_cons, List.mem_cons, not_or] at h
    rw [count_cons, if_neg (fun e => h.1 e.symm), ih h.2]

omit hs in
theorem sum_count (bs : List Nat) (hb : bs.Nodup) : ∀ (sizes : List (Nat × Nat)), (sizes.map (·.1)).Nodup →
    (bs.map (count sizes)).sum = ((sizes.filter fun x => decide (x.1 ∈ bs)).map (·.2)).sum := by
  intro sizes
  induction sizes with
  | nil =>
    intro _
    clear hb
    induction bs with
    | nil => rfl
    | cons b bs ih => rw [List.map_cons, List.sum_cons, ih]; rfl
  | cons y l ih =>
    intro hnd
    rw [List.map_cons, List.nodup_cons] at hnd
    have key : ∀ bs : List Nat, bs.Nodup → (bs.map (count (y :: l))).sum = (if y.1 ∈ bs then y.2 else 0) + (bs.map (count l)).sum := by
      intro bs
      induction bs with
      | nil => exact fun _ => rfl
      | cons b bs ihb =>
        intro hb
        rw [List.nodup_cons] at hb
        rw [List.map_cons, List.sum_cons, List.map_cons, List.sum_cons, ihb hb.2, count_cons]
        by_cases h : y.1 = b
        · subst h
          rw [if_pos rfl, if_neg hb.1, if_pos List.mem_cons_self, count_none hnd.1, Nat.zero_add]
        · rw [if_neg h]
          by_cases h' : y.1 ∈ bs
          · rw [if_pos h', if_pos (List.mem_cons_of_mem _ h')]; omega
          · rw [if_neg h', if_neg (fun hm => (List.mem_cons.mp hm).elim h h')]; omega
    rw [key bs hb, ih hnd.2]
    by_cases h : y.1 ∈ bs
    · rw [if_pos h, List.filter_cons_of_pos (by simpa using h), List.map_cons, List.sum_cons]
    · rw [if_neg h, List.filter_cons_of_neg (by simpa using h), Nat.zero_add]

/-- C139: the table at the end has a line for every bucket with chunks, each once and in ascending order, so the numbers in it add up to the number of different chunks. -/
theorem C139_table (sizes : List (Nat × Nat)) (hnd : (sizes.map (·.1)).Nodup) (hb : ∀ x ∈ sizes, IsBucket c x.1) (hle : ∀ x ∈ sizes, x.1 ≤ 2 ^ 31) :
    (∀ x ∈ sizes, x ∈ shown c sizes) ∧ ((shown c sizes).map (·.1)).Pairwise (· < ·) ∧ ((shown c sizes).map (·.2)).sum = (sizes.map (·.2)).sum ∧
    ∀ x ∈ shown c sizes, x ∉ sizes → x.2 = 0 := by
  cases sizes with
  | nil =>
    have h : shown c [] = [] := by
      unfold shown buckets
      show List.map _ ((powers (min c.minSize 0) (min c.minSize 0) (2 ^ 31)).1 ++ steps c.step 0 (0 + 1) (powers (min c.minSize 0) (min c.minSize 0) (2 ^ 31)).2) = _
      rw [Nat.min_zero]
      show List.map _ ([] ++ steps c.step 0 (0 + 1) (2 ^ 31)) = _
      rw [steps, if_neg (by decide)]; rfl
    rw [h]
    exact ⟨(fun x h => nomatch h), .nil, rfl, (fun x h => nomatch h)⟩
  | cons y l =>
    generalize hsz : y :: l = sizes at *
    have hy : y ∈ sizes := by rw [← hsz]; exact List.mem_cons_self
    obtain ⟨a1, a2, a3⟩ := least_spec sizes (2 ^ 31)
    obtain ⟨b1, b2, b3⟩ := most_spec sizes 0
    generalize hL : sizes.foldl (fun m x => if x.1 < m then x.1 else m) (2 ^ 31) = L at a1 a2 a3
    generalize hM : sizes.foldl (fun m x => if x.1 > m then x.1 else m) 0 = M at b1 b2 b3
    have hLb : ∃ k, L = bk c k := by
      rcases a3 with h | ⟨x, hx, h⟩
      · have h1 := a1 y hy
        have h2 := hle y hy
        have h3 : L = y.1 := by omega
        obtain ⟨k, hk⟩ := (isBucket_iff c _).mp (hb y hy)
        exact ⟨k, by rw [h3, hk]⟩
      · obtain ⟨k, hk⟩ := (isBucket_iff c _).mp (hb x hx)
        exact ⟨k, by rw [h, hk]⟩
    have hMb : ∃ k, M = bk c k := by
      rcases b3 with h | ⟨x, hx, h⟩
      · have h1 := b1 y hy
        obtain ⟨k, hk⟩ := (isBucket_iff c _).mp (hb y hy)
        have := bk_pos c k
        omega
      · obtain ⟨k, hk⟩ := (isBucket_iff c _).mp (hb x hx)
        exact ⟨k, by rw [h, hk]⟩
    obtain ⟨k, hk⟩ := hLb
    obtain ⟨m, h1, h2, h3⟩ := list_spec c hs k (min c.minSize M) M (Nat.min_le_left _ _) (Nat.min_le_right _ _) (by
      by_cases h : c.minSize ≤ M
      · exact .inl (Nat.min_eq_left h)
      · exact .inr ⟨Nat.min_eq_right (by omega), .inl hMb⟩)
    have hbs : buckets c sizes 0 0 = (List.range' k (m - k)).map (bk c) := by
      unfold buckets
      dsimp only
      rw [hL, hM, if_neg (by omega), if_neg (by omega), hk]
      exact h1
    have hmem : ∀ b, b ∈ buckets c sizes 0 0 ↔ IsBucket c b ∧ bk c k ≤ b ∧ b ≤ M := by
      intro b; rw [hbs]; exact range_mem c hs k m M b h2 h3
    have hsort : (buckets c sizes 0 0).Pairwise (· < ·) := by rw [hbs]; exact range_sorted c hs _ _
    have hin : ∀ x ∈ sizes, x.1 ∈ buckets c sizes 0 0 := fun x hx => (hmem _).mpr ⟨hb x hx, hk ▸ a1 x hx, b1 x hx⟩
    have hfst : (shown c sizes).map (·.1) = buckets c sizes 0 0 := by
      unfold shown; rw [List.map_map]; exact List.map_id _
    refine ⟨fun x hx => ?_, by rw [hfst]; exact hsort, ?_, fun x hx hn => ?_⟩
    · exact List.mem_map.mpr ⟨x.1, hin x hx, by rw [count_mem hnd hx]⟩
    · have : (shown c sizes).map (·.2) = (buckets c sizes 0 0).map (count sizes) := by
        unfold shown; rw [List.map_map]; rfl
      rw [this, sum_count _ (hsort.imp fun h => Nat.ne_of_lt h) sizes hnd]
      congr 2
      exact List.filter_eq_self.mpr fun x hx => by simpa using hin x hx
    · obtain ⟨b, -, rfl⟩ := List.mem_map.mp hx
      refine count_none fun hm => hn ?_
      obtain ⟨z, hz, rfl⟩ := List.mem_map.mp hm
      rw [count_mem hnd hz]
      exact hz

/-- C140: the numbers in a row of the results file add up to the number of different chunks, if the minimum and the maximum chunk size are sizes of buckets and there are chunks. -/
theorem C140_row_partial (sizes : List (Nat × Nat)) (hnd : (sizes.map (·.1)).Nodup) (hb : ∀ x ∈ sizes, IsBucket c x.1) (hle : ∀ x ∈ sizes, x.1 ≤ c.maxSize)
    (hmin : IsBucket c c.minSize) (hmax : IsBucket c c.maxSize) (hmm : c.minSize ≤ c.maxSize) (n : Nat) (hn : 0 < n) :
    ∃ bs row, results c n sizes = some (bs, row) ∧ (∀ b, b ∈ bs ↔ IsBucket c b ∧ c.minSize ≤ b ∧ b ≤ c.maxSize) ∧ row.length = bs.length ∧ row.sum = (sizes.map (·.2)).sum := by
  obtain ⟨k, hk⟩ := (isBucket_iff c _).mp hmin
  obtain ⟨b1, b2, b3⟩ := most_spec sizes 0
  generalize hM : sizes.foldl (fun m x => if x.1 > m then x.1 else m) 0 = M at b1 b2 b3
  have hMle : M ≤ c.maxSize := by
    rcases b3 with h | ⟨x, hx, h⟩
    · omega
    · have := hle x hx; omega
  have hpos := bk_pos c k
  have hlast : (if c.maxSize > M then c.maxSize else M) = c.maxSize := by split <;> omega
  have hpow : ∀ f, powers (min c.minSize M) f (bk c k) = ([], bk c k) := by
    intro f
    cases f with
    | zero => rfl
    | succ f => rw [powers, if_neg (by omega)]
  obtain ⟨m, -, h1, h2, h3⟩ := steps_spec c hs c.maxSize (c.maxSize + 1) k (by omega) (by omega)
  have hbs : buckets c sizes c.minSize c.maxSize = (List.range' k (m - k)).map (bk c) := by
    unfold buckets
    dsimp only
    rw [hM, if_pos (by omega : c.minSize > 0), hlast]
    generalize hq : min c.minSize M = q
    rw [hk, ← hq, hpow]
    exact h1
  have hmem : ∀ b, b ∈ buckets c sizes c.minSize c.maxSize ↔ IsBucket c b ∧ c.minSize ≤ b ∧ b ≤ c.maxSize := by
    intro b; rw [hbs, range_mem c hs k m c.maxSize b h2 h3, ← hk]
  have hsort : (buckets c sizes c.minSize c.maxSize).Pairwise (· < ·) := by rw [hbs]; exact range_sorted c hs _ _
  refine ⟨buckets c sizes c.minSize c.maxSize, (List.range (buckets c sizes c.minSize c.maxSize).length).map (column c sizes (buckets c sizes c.minSize c.maxSize)), ?_, hmem, ?_, ?_⟩
  · unfold results
    dsimp only
    rw [if_neg (by omega)]
  · rw [List.length_map, List.length_range]
  · generalize hB : buckets c sizes c.minSize c.maxSize = bs at *
    have hne : bs ≠ [] := fun h => by
      have := (hmem c.minSize).mpr ⟨hmin, Nat.le_refl _, hmm⟩
      rw [h] at this; cases this
    have habove : ((sizes.filter fun x => x.1 > c.maxSize).map (·.2)).sum = 0 := by
      rw [List.filter_eq_nil_iff.mpr fun x hx => by simpa using hle x hx]; rfl
    have hcol : ∀ bs i, column c sizes bs i = count sizes (bs.getD i 0) + if i = 0 then ((sizes.filter fun x => x.1 < c.minSize).map (·.2)).sum else 0 := by
      intro bs i
      unfold column
      dsimp only
      rw [habove]
      congr 1
      split
      · rfl
      · split <;> rfl
    have hsum : ((List.range bs.length).map (column c sizes bs)).sum = (bs.map (count sizes)).sum + ((sizes.filter fun x => x.1 < c.minSize).map (·.2)).sum := by
      match bs, hne with
      | b :: bs, _ =>
        rw [List.length_cons, List.range_succ_eq_map, List.map_cons, List.sum_cons, List.map_map, hcol, if_pos rfl, List.map_cons, List.sum_cons]
        have : (List.range bs.length).map (column c sizes (b :: bs) ∘ Nat.succ) = bs.map (count sizes) := by
          apply List.ext_getElem
          · simp
          · intro i h1 h2
            rw [List.getElem_map, List.getElem_map, List.getElem_range, Function.comp, hcol, if_neg (Nat.succ_ne_zero _), Nat.add_zero]
            have : i < bs.length := by simpa using h2
            rw [List.getD_cons_succ, List.getD_eq_getElem?_getD, List.getElem?_eq_getElem this]; rfl
        rw [this, List.getD_cons_zero]
        omega
    rw [hsum, sum_count bs (hsort.imp fun h => Nat.ne_of_lt h) sizes hnd]
    have hf : sizes.filter (fun x => decide (x.1 ∈ bs)) = sizes.filter (fun x => !decide (x.1 < c.minSize)) := by
      refine List.filter_congr fun x hx => ?_
      by_cases h : x.1 < c.minSize
      · have : x.1 ∉ bs := fun hm => by have := ((hmem _).mp hm).2.1; omega
        simp [h, this]
      · have : x.1 ∈ bs := (hmem _).mpr ⟨hb x hx, by omega, hle x hx⟩
        simp [h, this]
    rw [hf]
    clear hf hcol hsum habove hle hb hnd hM b1 b3 hB hmem
    induction sizes with
    | nil => rfl
    | cons y l ih =>
      by_cases h : y.1 < c.minSize
      · rw [List.filter_cons_of_neg (by simpa using h), List.filter_cons_of_pos (by simpa using h), List.map_cons, List.map_cons, List.sum_cons, List.sum_cons]
        omega
      · rw [List.filter_cons_of_pos (by simpa using h), List.filter_cons_of_neg (by simpa using h), List.map_cons, List.map_cons, List.sum_cons, List.sum_cons]
        omega

omit hs in
/-- C140 does not hold if the minimum chunk size is not the size of a bucket. With `--avg_chunk_size 200K` (so 100K to 400K) and five chunks of 110K, counted in the bucket of 128K, all columns are 0. -/
theorem C140_minimum_violated : ∃ c : Cfg, c.minSize = 100 * 1024 ∧ c.avgSize = 200 * 1024 ∧ c.maxSize = 400 * 1024 ∧ c.step = 25 * 1024 ∧ sizeBucket c (110 * 1024) = 128 * 1024 ∧
    ∃ bs, results c 5 [(128 * 1024, 5)] = some (bs, [0, 0, 0, 0, 0, 0, 0, 0, 0, 0, 0, 0, 0]) := by
  refine ⟨⟨1, 4096, 100 * 1024, 200 * 1024, 400 * 1024, 25 * 1024⟩, rfl, rfl, rfl, rfl, ?_, ?_⟩
  · decide +kernel
  · exact ⟨(List.range 13).map fun i => 102400 + 25600 * i, by decide +kernel⟩

omit hs in
/-- C140 does not hold if the maximum chunk size is not the size of a bucket: five chunks of 500K with `--max_chunk_size 500K` are counted twice, in their column and as larger than the maximum. -/
theorem C140_maximum_violated : ∃ c : Cfg, c.minSize = 128 * 1024 ∧ c.avgSize = 256 * 1024 ∧ c.maxSize = 500 * 1024 ∧ c.step = 32 * 1024 ∧ sizeBucket c (500 * 1024) = 512 * 1024 ∧
    ∃ bs, results c 5 [(512 * 1024, 5)] = some (bs, [0, 0, 0, 0, 0, 0, 0, 0, 0, 0, 0, 0, 10]) := by
  refine ⟨⟨1, 4096, 128 * 1024, 256 * 1024, 500 * 1024, 32 * 1024⟩, rfl, rfl, rfl, rfl, ?_, ?_⟩
  · decide +kernel
  · exact ⟨(List.range 13).map fun i => 131072 + 32768 * i, by decide +kernel⟩

omit hs in
/-- C140 does not hold if there are no chunks, as in an empty directory: a division by 0 ends the program. -/
theorem C140_empty_violated (c : Cfg) : results c 0 [] = none := rfl

end
end Verif.Indexer
