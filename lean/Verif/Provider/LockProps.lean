import Verif.Provider.Locks

/-! # C21: the provider's locks cannot deadlock -/
namespace Verif.Provider

/-- Thread `i` waits for thread `j`: it wants a mutex that `j` holds (in whatever mode, so that readers
queueing behind waiting writers are included), or it joins the cleanup thread, which has not ended. -/
def Sys.WaitsFor (s : Sys) (i j : Nat) : Prop :=
  (∃ l m rest m', (s i).todo = .lock l m :: rest ∧ (l, m') ∈ (s j).held) ∨
  (∃ rest, (s i).todo = .join :: rest ∧ j = 0 ∧ (s 0).todo ≠ [])

/-- Thread `i` is inside a call and can go on, waiting for nobody. -/
def Sys.CanGo (s : Sys) (i : Nat) : Prop := (s i).todo ≠ [] ∧ ∀ j, ¬ s.WaitsFor i j

/-! ### The order of mutexes -/

def rank : Lock → Nat
  | .shutdown => 0
  | .content i => i + 1
  | .cleaned => 257

/-- The rest of a call takes mutexes in increasing order only, and in the end releases all. -/
def Good : List Lock → List Act → Prop
  | held, [] => held = []
  | held, .lock l _ :: r => (∀ h ∈ held, rank h < rank l) ∧ rank l ≤ 257 ∧ Good (l :: held) r
  | held, .unlock l :: r => l ∈ held ∧ Good (held.filter (fun e => e ≠ l)) r
  | held, .join :: r => held = [] ∧ Good held r

theorem mutexOf_lt (id : Id) : mutexOf id < 256 := (id.headD 0).toNat_lt

theorem good_append {a b : List Act} : ∀ {held : List Lock}, Good held a → Good [] b → Good held (a ++ b) := by
  induction a with
  | nil => intro held h hb; unfold Good at h; subst h; exact hb
  | cons x a ih =>
    intro held h hb
    cases x with
    | lock l m => exact ⟨h.1, h.2.1, ih h.2.2 hb⟩
    | unlock l => exact ⟨h.1, ih h.2 hb⟩
    | join => exact ⟨h.1, ih h.2 hb⟩

theorem good_guarded (id : Id) (m : Mode) : Good [] (guarded id m) := by
  have := mutexOf_lt id
  refine ⟨by simp, by simp only [rank]; omega, by simp, ?_⟩
  simp [Good]

theorem good_flatten {ls : List (List Act)} (h : ∀ a ∈ ls, Good [] a) : Good [] ls.flatten := by
  induction ls with
  | nil => rfl
  | cons a ls ih =>
    rw [List.flatten_cons]
    exact good_append (h a (List.mem_cons_self ..)) (ih fun a ha => h a (List.mem_cons_of_mem _ ha))

/-- Unlocking what is held. -/
theorem good_unlocks {base : List Lock} {rest : List Act} : ∀ (ms : List Nat) (held : List Lock),
    (∀ m ∈ ms, Lock.content m ∈ held) → ms.Nodup →
    held.filter (fun l => decide (∀ m ∈ ms, l ≠ .content m)) = base → Good base rest →
    Good held ((ms.map fun m => Act.unlock (.content m)) ++ rest) := by
  intro ms
  induction ms with
  | nil =>
    intro held _ _ hb hr
    have : held = base := by rw [← hb]; exact (List.filter_eq_self.mpr (by simp)).symm
    rw [this]; exact hr
  | cons m ms ih =>
    intro held h hn hb hr
    rw [List.nodup_cons] at hn
    refine ⟨h m (List.mem_cons_self ..), ih _ ?_ hn.2 ?_ hr⟩
    · intro x hx
      refine List.mem_filter.mpr ⟨h x (List.mem_cons_of_mem _ hx), ?_⟩
      have : x ≠ m := fun e => hn.1 (e ▸ hx)
      simp [this]
    · rw [List.filter_filter, ← hb]
      apply List.filter_congr
      intro l _
      simp only [List.mem_cons, forall_eq_or_imp, Bool.decide_and]
      rw [Bool.and_comm]

/-- Locking increasing mutexes above everything held. -/
theorem good_locks {rest : List Act} : ∀ (ms : List Nat) (held : List Lock),
    (∀ h ∈ held, ∀ m ∈ ms, rank h < m + 1) → ms.Pairwise (· < ·) → (∀ m ∈ ms, m < 256) →
    Good ((ms.map Lock.content).reverse ++ held) rest →
    Good held ((ms.map fun m => Act.lock (.content m) .write) ++ rest) := by
  intro ms
  induction ms with
  | nil => intro held _ _ _ hr; exact hr
  | cons m ms ih =>
    intro held h hp hl hr
    rw [List.pairwise_cons] at hp
    refine ⟨fun x hx => h x hx m (List.mem_cons_self ..), ?_, ih _ ?_ hp.2 (fun x hx => hl x (List.mem_cons_of_mem _ hx)) ?_⟩
    · have := hl m (List.mem_cons_self ..)
      simp only [rank]; omega
    · intro x hx y hy
      rcases List.mem_cons.mp hx with rfl | hx
      · have := hp.1 y hy; simp only [rank]; omega
      · exact h x hx y (List.mem_cons_of_mem _ hy)
    · simpa using hr

theorem good_lockThenUnlock (ms : List Nat) (inside rest : List Act) (base : List Lock)
    (hb : ∀ h ∈ base, h = .shutdown) (hp : ms.Pairwise (· < ·)) (hl : ∀ m ∈ ms, m < 256)
    (hin : ∀ rest, Good ((ms.map Lock.content).reverse ++ base) rest →
      Good ((ms.map Lock.content).reverse ++ base) (inside ++ rest))
    (hr : Good base rest) : Good base (lockThenUnlock ms inside ++ rest) := by
  unfold lockThenUnlock
  rw [List.append_assoc, List.append_assoc]
  refine good_locks ms base ?_ hp hl (hin _ ?_)
  · intro h hh m _
    rw [hb h hh]; simp [rank]
  · refine good_unlocks ms _ ?_ ?_ ?_ hr
    · intro m hm
      exact List.mem_append_left _ (List.mem_reverse.mpr (List.mem_map_of_mem hm))
    · exact hp.imp (fun h => Nat.ne_of_lt h)
    · rw [List.filter_append]
      have h1 : ((ms.map Lock.content).reverse).filter (fun l => decide (∀ m ∈ ms, l ≠ .content m)) = [] := by
        rw [List.filter_eq_nil_iff]
        intro l hl
        obtain ⟨m, hm, rfl⟩ := List.mem_map.mp (List.mem_reverse.mp hl)
        simp only [decide_eq_true_eq, ne_eq]
        exact fun h => h m hm rfl
      have h2 : base.filter (fun l => decide (∀ m ∈ ms, l ≠ .content m)) = base := by
        rw [List.filter_eq_self]
        intro l hl
        rw [hb l hl]; simp
      rw [h1, h2, List.nil_append]

/-! ### `WriteLockAll` -/

theorem idLe_total : ∀ a b : Id, idLe a b = true ∨ idLe b a = true
  | [], _ => .inl rfl
  | _ :: _, [] => .inr rfl
  | a :: as, b :: bs => by
    unfold idLe
    by_cases h : a = b
    · rw [if_pos h, if_pos h.symm]; exact idLe_total as bs
    · rw [if_neg h, if_neg (fun e => h e.symm)]
      have : a.toNat ≠ b.toNat := fun e => h (UInt8.toNat_inj.mp e)
      simp only [decide_eq_true_eq]; omega

theorem idLe_trans : ∀ a b c : Id, idLe a b = true → idLe b c = true → idLe a c = true
  | [], _, _ => fun _ _ => rfl
  | _ :: _, [], _ => fun h => by cases h
  | _ :: _, _ :: _, [] => fun _ h => by cases h
  | a :: as, b :: bs, c :: cs => by
    unfold idLe
    intro h1 h2
    by_cases e1 : a = b
    · subst e1
      rw [if_pos rfl] at h1
      by_cases e2 : a = c
      · rw [if_pos e2] at h2 ⊢; exact idLe_trans as bs cs h1 h2
      · rw [if_neg e2] at h2 ⊢; exact h2
    · rw [if_neg e1] at h1
      simp only [decide_eq_true_eq] at h1
      by_cases e2 : b = c
      · subst e2; rw [if_neg e1]; simpa using h1
      · rw [if_neg e2] at h2
        simp only [decide_eq_true_eq] at h2
        have : a ≠ c := by rintro rfl; omega
        rw [if_neg this]; simp only [decide_eq_true_eq]; omega

theorem mutexOf_mono {a b : Id} (h : idLe a b = true) : mutexOf a ≤ mutexOf b := by
  cases a with
  | nil => simp [mutexOf]
  | cons x xs =>
    cases b with
    | nil => cases h
    | cons y ys =>
      unfold idLe at h
      show x.toNat ≤ y.toNat
      by_cases e : x = y
      · rw [e]; exact Nat.le_refl _
      · rw [if_neg e] at h; simp only [decide_eq_true_eq] at h; omega

theorem writeLockLoop_spec (ids : List Id) : ∀ (locked : List Nat),
    ids.Pairwise (fun a b => mutexOf a ≤ mutexOf b) →
    (writeLockLoop locked ids).Pairwise (· < ·) ∧
    ∀ m, m ∈ writeLockLoop locked ids ↔ m ∉ locked ∧ m ∈ ids.map mutexOf := by
  induction ids with
  | nil => intro locked _; simp [writeLockLoop]
  | cons id ids ih =>
    intro locked hp
    rw [List.pairwise_cons] at hp
    unfold writeLockLoop
    by_cases hm : mutexOf id ∈ locked
    · rw [if_pos hm]
      obtain ⟨h1, h2⟩ := ih locked hp.2
      refine ⟨h1, fun m => ?_⟩
      rw [h2, List.map_cons, List.mem_cons]
      constructor
      · rintro ⟨a, b⟩; exact ⟨a, .inr b⟩
      · rintro ⟨a, rfl | b⟩
        · exact absurd hm a
        · exact ⟨a, b⟩
    · rw [if_neg hm]
      obtain ⟨h1, h2⟩ := ih (mutexOf id :: locked) hp.2
      constructor
      · refine List.pairwise_cons.mpr ⟨?_, h1⟩
        intro m hmm
        obtain ⟨a, b⟩ := (h2 m).mp hmm
        obtain ⟨x, hx, rfl⟩ := List.mem_map.mp b
        have h3 := hp.1 x hx
        have h4 : mutexOf x ≠ mutexOf id := fun e => a (by rw [e]; exact List.mem_cons_self ..)
        omega
      · intro m
        rw [List.mem_cons, h2, List.map_cons, List.mem_cons, List.mem_cons]
        constructor
        · rintro (rfl | ⟨a, b⟩)
          · exact ⟨hm, .inl rfl⟩
          · exact ⟨fun h => a (.inr h), .inr b⟩
        · rintro ⟨a, rfl | b⟩
          · exact .inl rfl
          · by_cases e : m = mutexOf id
            · exact .inl e
            · exact .inr ⟨fun h => h.elim e a, b⟩

theorem writeLockAll_spec (ids : List Id) :
    (writeLockAll ids).Pairwise (· < ·) ∧ ∀ m, m ∈ writeLockAll ids ↔ m ∈ ids.map mutexOf := by
  have hs : (Util.isort idLe ids).Pairwise (fun a b => mutexOf a ≤ mutexOf b) :=
    (Util.isort_pairwise idLe_trans idLe_total ids).imp mutexOf_mono
  obtain ⟨h1, h2⟩ := writeLockLoop_spec _ [] hs
  refine ⟨h1, fun m => ?_⟩
  unfold writeLockAll
  rw [h2]
  simp only [List.not_mem_nil, not_false_eq_true, true_and, List.mem_map, Util.mem_isort]

/-! ### All calls are ordered -/

theorem good_acts (c : Call) : Good [] (acts c) := by
  cases c with
  | getOne id a b =>
    refine good_append ?_ ?_
    · cases a
      · rfl
      · exact good_guarded _ _
    · cases b
      · rfl
      · exact good_guarded _ _
  | getMany cached missing =>
    refine good_append (good_flatten ?_) ?_
    · intro a ha
      obtain ⟨id, _, rfl⟩ := List.mem_map.mp ha
      exact good_guarded _ _
    · obtain ⟨h1, h2⟩ := writeLockAll_spec missing
      have := good_lockThenUnlock (writeLockAll missing) [] [] [] (by simp) h1 (by
        intro m hm
        obtain ⟨id, _, rfl⟩ := List.mem_map.mp ((h2 m).mp hm)
        exact mutexOf_lt id) (fun rest h => h) rfl
      simpa using this
  | shutdown => simp [acts, Good, rank]
  | waitCleaned n =>
    refine ⟨by simp, by simp [rank], ?_⟩
    induction n with
    | zero => simp [Good]
    | succ n ih =>
      rw [List.replicate_succ, List.flatten_cons]
      refine ⟨by simp, ?_⟩
      simpa [Good, rank] using ih

theorem good_cleaner (rounds : List Bool) : Good [] (cleanerActs rounds) := by
  refine ⟨by simp, by simp [rank], ?_⟩
  induction rounds with
  | nil => simp [Good]
  | cons b bs ih =>
    rw [List.map_cons, List.flatten_cons, List.append_assoc]
    unfold cleanerRound
    rw [List.append_assoc]
    refine ⟨by simp, by simp, by simp [rank], ?_⟩
    have e : ([Lock.shutdown].filter (fun e => e ≠ Lock.shutdown)) = [] := by decide
    rw [e]
    cases b with
    | false => exact ih
    | true =>
      refine good_lockThenUnlock _ _ _ _ (by simp) List.pairwise_lt_range (fun m hm => List.mem_range.mp hm) ?_ ih
      intro rest hr
      refine ⟨?_, by simp [rank], by simp, ?_⟩
      · intro h hh
        rcases List.mem_append.mp hh with hh | hh
        · obtain ⟨m, hm, rfl⟩ := List.mem_map.mp (List.mem_reverse.mp hh)
          have := List.mem_range.mp hm
          simp only [rank]; omega
        · rw [List.mem_singleton.mp hh]; simp [rank]
      · have e : ((Lock.cleaned :: ((allMutexes.map Lock.content).reverse ++ [Lock.shutdown])).filter
            (fun e => e ≠ Lock.cleaned)) = (allMutexes.map Lock.content).reverse ++ [Lock.shutdown] := by
          rw [List.filter_cons, if_neg (by simp), List.filter_eq_self]
          intro l hl
          rcases List.mem_append.mp hl with hl | hl
          · obtain ⟨m, _, rfl⟩ := List.mem_map.mp (List.mem_reverse.mp hl); simp
          · rw [List.mem_singleton.mp hl]; simp
        rw [e]; exact hr

/-! ### The invariant -/

structure Inv (s : Sys) : Prop where
  good : ∀ i, Good ((s i).held.map Prod.fst) (s i).todo
  /-- the cleanup thread never joins itself -/
  cleaner : Act.join ∉ (s 0).todo

theorem join_not_mem_cleaner (rounds : List Bool) : Act.join ∉ cleanerActs rounds := by
  unfold cleanerActs
  simp only [List.mem_cons, reduceCtorEq, List.mem_append, List.mem_flatten, List.mem_map, List.not_mem_nil,
    or_false, false_or, not_exists, not_and]
  rintro l ⟨b, _, rfl⟩
  cases b <;> simp [cleanerRound, lockThenUnlock]

theorem inv_init (rounds : List Bool) : Inv (Sys.init rounds) := by
  refine ⟨fun i => ?_, join_not_mem_cleaner rounds⟩
  unfold Sys.init
  by_cases h : i = 0
  · rw [if_pos h]; exact good_cleaner rounds
  · rw [if_neg h]; rfl

theorem inv_set {s : Sys} (h : Inv s) (i : Nat) (t : Thread) (ht : Good (t.held.map Prod.fst) t.todo)
    (hc : i = 0 → Act.join ∉ t.todo) : Inv (s.set i t) := by
  refine ⟨fun j => ?_, ?_⟩
  · unfold Sys.set
    split
    · exact ht
    · exact h.good j
  · unfold Sys.set
    split
    · rename_i e; exact hc e.symm
    · exact h.cleaner

theorem inv_step {s s' : Sys} (h : Inv s) (hs : s.Step s') : Inv s' := by
  have hcl : ∀ {i : Nat} {a : Act} {rest : List Act}, (s i).todo = a :: rest → i = 0 → Act.join ∉ rest := by
    rintro i a rest ht rfl hm
    exact h.cleaner (by rw [ht]; exact List.mem_cons_of_mem _ hm)
  cases hs with
  | start i c hi ht =>
    refine inv_set h i _ ?_ (fun e => absurd e hi)
    have := h.good i
    rw [ht] at this
    have e : (s i).held.map Prod.fst = [] := this
    show Good ((s i).held.map Prod.fst) (acts c)
    rw [e]; exact good_acts c
  | lock i l m rest ht _ =>
    refine inv_set h i _ ?_ (hcl ht)
    have := h.good i
    rw [ht] at this
    exact this.2.2
  | unlock i l rest ht =>
    refine inv_set h i _ ?_ (hcl ht)
    have := h.good i
    rw [ht] at this
    have h2 := this.2
    rw [List.filter_map] at h2
    exact h2
  | join i rest ht hd =>
    refine inv_set h i _ ?_ (hcl ht)
    have := h.good i
    rw [ht] at this
    exact this.2

theorem inv_reachable {s : Sys} (h : s.Reachable) : Inv s := by
  obtain ⟨rounds, h⟩ := h
  induction h with
  | refl => exact inv_init rounds
  | tail _ hs ih => exact inv_step ih hs

/-- How far up the thread's next request is; joining counts as the lowest. -/
def level (s : Sys) (i : Nat) : Nat :=
  match (s i).todo with
  | .lock l _ :: _ => rank l + 1
  | .join :: _ => 0
  | _ => 300

theorem level_lt {s : Sys} (h : Inv s) {i j : Nat} (hw : s.WaitsFor i j) : level s i < level s j := by
  rcases hw with ⟨l, m, rest, m', ht, hh⟩ | ⟨rest, ht, rfl, hd⟩
  · have hl : level s i = rank l + 1 := by unfold level; rw [ht]
    have hr : rank l ≤ 257 := by have := h.good i; rw [ht] at this; exact this.2.1
    have hmem : l ∈ (s j).held.map Prod.fst := List.mem_map.mpr ⟨(l, m'), hh, rfl⟩
    have hj := h.good j
    rw [hl]
    unfold level
    cases htj : (s j).todo with
    | nil => show rank l + 1 < 300; omega
    | cons a r =>
      rw [htj] at hj
      cases a with
      | lock l' m'' => have := hj.1 l hmem; show rank l + 1 < rank l' + 1; omega
      | unlock l' => show rank l + 1 < 300; omega
      | join => rw [hj.1] at hmem; cases hmem
  · have hl : level s i = 0 := by unfold level; rw [ht]
    rw [hl]
    unfold level
    cases ht0 : (s 0).todo with
    | nil => exact absurd ht0 hd
    | cons a r =>
      cases a with
      | lock l' m'' => exact Nat.succ_pos _
      | unlock l' => exact Nat.succ_pos _
      | join => exact absurd (by rw [ht0]; exact List.mem_cons_self ..) h.cleaner

theorem level_le {s : Sys} (h : Inv s) (i : Nat) : level s i ≤ 300 := by
  unfold level
  cases ht : (s i).todo with
  | nil => exact Nat.le_refl _
  | cons a r =>
    cases a with
    | lock l m =>
      have := h.good i
      rw [ht] at this
      have := this.2.1
      show rank l + 1 ≤ 300; omega
    | unlock l => exact Nat.le_refl _
    | join => exact Nat.zero_le _

theorem waitsFor_busy {s : Sys} (h : Inv s) {i j : Nat} (hw : s.WaitsFor i j) : (s j).todo ≠ [] := by
  rcases hw with ⟨l, m, rest, m', ht, hh⟩ | ⟨rest, ht, rfl, hd⟩
  · intro e
    have hj := h.good j
    rw [e] at hj
    have hj : (s j).held.map Prod.fst = [] := hj
    have : l ∈ (s j).held.map Prod.fst := List.mem_map.mpr ⟨(l, m'), hh, rfl⟩
    rw [hj] at this; cases this
  · exact hd

theorem exists_canGo {s : Sys} (h : Inv s) (n : Nat) : ∀ i, 300 - level s i ≤ n → (s i).todo ≠ [] →
    ∃ j, Relation.ReflTransGen s.WaitsFor i j ∧ s.CanGo j := by
  induction n with
  | zero =>
    intro i hn hi
    refine ⟨i, .refl, hi, fun j hw => ?_⟩
    have := level_lt h hw
    have := level_le h j
    omega
  | succ n ih =>
    intro i hn hi
    by_cases hb : ∃ j, s.WaitsFor i j
    · obtain ⟨j, hj⟩ := hb
      have h1 := level_lt h hj
      obtain ⟨k, hk, hg⟩ := ih j (by omega) (waitsFor_busy h hj)
      exact ⟨k, .head hj hk, hg⟩
    · exact ⟨i, .refl, hi, fun j hw => hb ⟨j, hw⟩⟩

/-- A thread that waits for nobody can take its next step. -/
theorem canGo_step {s : Sys} {i : Nat} (h : s.CanGo i) : ∃ s', s.Step s' ∧ (s' i).todo = (s i).todo.tail := by
  obtain ⟨hne, hw⟩ := h
  cases ht : (s i).todo with
  | nil => exact absurd ht hne
  | cons a r =>
    have hset : ∀ t : Thread, t.todo = r → (s.set i t i).todo = r := by
      intro t h; unfold Sys.set; rw [if_pos rfl]; exact h
    cases a with
    | lock l m =>
      refine ⟨_, .lock s i l m r ht ?_, hset _ rfl⟩
      intro j m' hm
      exact absurd (.inl ⟨l, m, r, m', ht, hm⟩) (hw j)
    | unlock l => exact ⟨_, .unlock s i l r ht, hset _ rfl⟩
    | join =>
      refine ⟨_, .join s i r ht ?_, hset _ rfl⟩
      by_cases h0 : (s 0).todo = []
      · exact h0
      · exact absurd (.inr ⟨r, ht, rfl, h0⟩) (hw 0)

/-- **C21.** For any number of threads making any calls with any chunk lists, in any schedule: no thread
ever waits, directly or through others, for itself; and every thread that is inside a call either can
go on or waits, directly or through others, for a thread that can. -/
theorem C21_no_deadlock (s : Sys) (h : s.Reachable) :
    (∀ i, ¬ Relation.TransGen s.WaitsFor i i) ∧
    (∀ i, (s i).todo ≠ [] → ∃ j, Relation.ReflTransGen s.WaitsFor i j ∧ s.CanGo j ∧
      ∃ s', s.Step s' ∧ (s' j).todo = (s j).todo.tail) := by
  have hi := inv_reachable h
  refine ⟨fun i hc => ?_, fun i hne => ?_⟩
  · have : ∀ j, Relation.TransGen s.WaitsFor i j → level s i < level s j := by
      intro j hj
      induction hj with
      | single h => exact level_lt hi h
      | tail _ h ih => exact Nat.lt_trans ih (level_lt hi h)
    exact Nat.lt_irrefl _ (this i hc)
  · obtain ⟨j, h1, h2⟩ := exists_canGo hi _ i (Nat.le_refl _) hne
    exact ⟨j, h1, h2, canGo_step h2⟩

/-- **C21, exclusion.** A batch read holds exactly the mutexes of the chunks it is about to fetch and
store, each once. (The model of `Get(chunks)` in C20 relies on this.) -/
theorem C21_batch_locks_missing (ids : List Id) :
    (writeLockAll ids).Nodup ∧
    ∀ m, m ∈ writeLockAll ids ↔ (ids.map mutexOf).contains m = true := by
  obtain ⟨h1, h2⟩ := writeLockAll_spec ids
  exact ⟨h1.imp fun h => Nat.ne_of_lt h, fun m => by rw [h2]; simp⟩

/-- Two threads, both inside a call, one waiting for the other. -/
def demoSys : Sys :=
  (((Sys.init []).set 1 { todo := acts (.getMany [] [[9, 9], [5], [9]]) }).set 1
    { held := [(.content 5, .write)], todo := (acts (.getMany [] [[9, 9], [5], [9]])).tail }).set 2
    { todo := acts (.getOne [5, 1] true true) }

example : demoSys.Reachable ∧ demoSys.WaitsFor 2 1 ∧ demoSys.CanGo 1 := by
  refine ⟨⟨[], ?_⟩, .inl ⟨.content 5, .read, _, .write, rfl, by simp [demoSys, Sys.set]⟩, by simp [demoSys, Sys.set, acts, lockThenUnlock, writeLockAll, Util.isort, Util.insertBy, idLe, writeLockLoop, mutexOf], ?_⟩
  · refine .tail (.tail (.single (.start _ 1 (.getMany [] [[9, 9], [5], [9]]) (by decide) rfl))
      (.lock _ 1 (.content 5) .write _ rfl ?_)) (.start _ 2 (.getOne [5, 1] true true) (by decide) rfl)
    intro j m' hm
    simp only [Sys.set, Sys.init] at hm
    split at hm
    · simp at hm
    · split at hm <;> simp at hm
  · rintro j (⟨l, m, rest, m', ht, hm⟩ | ⟨rest, ht, _⟩)
    · have hl : l = .content 9 := by
        have e : (demoSys 1).todo = .lock (.content 9) .write :: _ := rfl
        rw [e] at ht
        simp only [List.cons.injEq, Act.lock.injEq] at ht
        exact ht.1.1.symm
      subst hl
      simp only [demoSys, Sys.set, Sys.init] at hm
      split at hm
      · simp at hm
      · split at hm
        · simp at hm
        · split at hm
          · simp at hm
          · simp at hm
    · have e : (demoSys 1).todo = .lock (.content 9) .write :: _ := rfl
      rw [e] at ht; cases ht

end Verif.Provider
