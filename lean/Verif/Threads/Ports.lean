/-! # Reserving ports (C130-C133)

common/port_manager_win.cc: several processes reserve ports of a range through shared memory that has a time for each port. -/
namespace Verif.Ports

/-! ### Model -/

/-- Insertion into `std::multimap`: after all elements with the same key. -/
def ins (x : Nat × Nat) : List (Nat × Nat) → List (Nat × Nat)
  | [] => [x]
  | y :: ys => if y.1 ≤ x.1 then y :: ins x ys else x :: y :: ys

/-- `ports_to_index`, port_manager_win.cc:189-194, in the order of iteration: pairs of time and index of the port. -/
def sortPorts (l : List (Nat × Nat)) : List (Nat × Nat) := l.foldl (fun acc x => ins x acc) []

/-- Where a call of `ReservePort` is (port_manager_win.cc:163-232). `loc` and `rem` say which ports were found to be available locally and on the remote device. -/
inductive Call where
  | idle
  /-- 189-194: the times `seen` have been read. -/
  | reading (loc rem : Nat → Bool) (seen : List Nat)
  /-- 200-229: these ports are still to be tried. -/
  | trying (loc rem : Nat → Bool) (now : Nat) (todo : List (Nat × Nat))
  /-- 213-222: port `k` is not available; the second exchange comes next. -/
  | undo (loc rem : Nat → Bool) (now ts k : Nat) (todo : List (Nat × Nat))

/-- `PortManager`: `reserved_ports_` as indexes, and the call that is going on. One call at a time, as there is no lock. -/
structure Mgr where
  held : List Nat := []
  call : Call := .idle

/-- All managers with the same name, in all processes, and the shared memory. -/
structure State where
  mem : Nat → Nat := fun _ => 0
  mgr : Nat → Mgr := fun _ => {}

def set {α : Type} (f : Nat → α) (k : Nat) (v : α) : Nat → α := fun i => if i = k then v else f i

/-- What is seen of a step. -/
inductive Event where
  /-- Manager `i` is asked for a port; netstat shows these ports to be available. -/
  | begin (i : Nat) (loc rem : Nat → Bool)
  /-- A port is returned; `ts` is the time it had. -/
  | returned (i k ts : Nat)
  | failed (i : Nat)
  | released (i k : Nat)
  /-- The process of the manager is killed. -/
  | crashed (i : Nat)
  /-- Other steps of a call. -/
  | intern (i : Nat)
  /-- No process uses the shared memory; it is gone and the next one has zeros. -/
  | unmapped

/-- One step of one of the processes, for `n` ports.

`ReservePort`, port_manager_win.cc:163-232; `ReleasePort`, 234-244 (no effect if the manager does not have the port). The destructor (151-161) releases the ports one by one.
Simplified: shared memory and netstat do not fail (the call would return an error without any effect; see C133 for netstat). Times are not 0. -/
inductive Step (n : Nat) : Event → State → State → Prop where
  | begin (s : State) (i : Nat) (loc rem : Nat → Bool) : (s.mgr i).call = .idle →
      Step n (.begin i loc rem) s { s with mgr := set s.mgr i { s.mgr i with call := .reading loc rem [] } }
  | read (s : State) (i : Nat) (loc rem seen) : (s.mgr i).call = .reading loc rem seen → seen.length < n →
      Step n (.intern i) s { s with mgr := set s.mgr i { s.mgr i with call := .reading loc rem (seen ++ [s.mem seen.length]) } }
  | sort (s : State) (i now : Nat) (loc rem seen) : (s.mgr i).call = .reading loc rem seen → seen.length = n → 0 < now →
      Step n (.intern i) s { s with mgr := set s.mgr i { s.mgr i with call := .trying loc rem now (sortPorts (seen.zip (List.range n))) } }
  | lost (s : State) (i now : Nat) (loc rem ts k todo) : (s.mgr i).call = .trying loc rem now ((ts, k) :: todo) → s.mem k ≠ ts →
      Step n (.intern i) s { s with mgr := set s.mgr i { s.mgr i with call := .trying loc rem now todo } }
  | mark (s : State) (i now : Nat) (loc rem ts k todo) : (s.mgr i).call = .trying loc rem now ((ts, k) :: todo) → s.mem k = ts → (loc k && rem k) = false →
      Step n (.intern i) s { mem := set s.mem k now, mgr := set s.mgr i { s.mgr i with call := .undo loc rem now ts k todo } }
  /-- `InterlockedCompareExchange64(ts_ptr, now, port_timestamp)`: stores `now` if it is `port_timestamp`. -/
  | undo (s : State) (i now : Nat) (loc rem ts k todo) : (s.mgr i).call = .undo loc rem now ts k todo →
      Step n (.intern i) s { mem := if s.mem k = ts then set s.mem k now else s.mem, mgr := set s.mgr i { s.mgr i with call := .trying loc rem now todo } }
  | take (s : State) (i now : Nat) (loc rem ts k todo) : (s.mgr i).call = .trying loc rem now ((ts, k) :: todo) → s.mem k = ts → (loc k && rem k) = true →
      Step n (.returned i k ts) s { mem := set s.mem k now, mgr := set s.mgr i { held := if k ∈ (s.mgr i).held then (s.mgr i).held else k :: (s.mgr i).held, call := .idle } }
  | fail (s : State) (i now : Nat) (loc rem) : (s.mgr i).call = .trying loc rem now [] →
      Step n (.failed i) s { s with mgr := set s.mgr i { s.mgr i with call := .idle } }
  | release (s : State) (i k : Nat) : (s.mgr i).call = .idle → k ∈ (s.mgr i).held →
      Step n (.released i k) s { mem := set s.mem k 0, mgr := set s.mgr i { s.mgr i with held := (s.mgr i).held.filter (· ≠ k) } }
  | crash (s : State) (i : Nat) : Step n (.crashed i) s { s with mgr := set s.mgr i {} }
  | unmap (s : State) : (∀ i, s.mgr i = {}) → Step n .unmapped s { s with mem := fun _ => 0 }

/-- Steps of any processes in any order, with what is seen. -/
inductive Run (n : Nat) : State → List Event → State → Prop where
  | nil (s : State) : Run n s [] s
  | snoc {s s' s'' : State} {t : List Event} {e : Event} : Run n s t s' → Step n e s' s'' → Run n s (t ++ [e]) s''

/-! ### Specification -/

/-- No port is returned that has a time: that is not marked as unused. -/
def NoTakeover (t : List Event) : Prop := ∀ i k ts, Event.returned i k ts ∈ t → ts = 0

/-- Nobody has the port. -/
def Free (s : State) (k : Nat) : Prop := ∀ i, k ∉ (s.mgr i).held

/-- The event is the end of a call with this result. -/
def Event.isResult (i : Nat) (e : Event) : Option Nat → Prop
  | some k => ∃ ts, e = .returned i k ts
  | none => e = .failed i

/-- Manager `i` is asked for a port and does this alone; `r` is what it returns. -/
def Alone (n i : Nat) (loc rem : Nat → Bool) (s : State) (r : Option Nat) (s' : State) : Prop :=
  ∃ t e, Run n s (Event.begin i loc rem :: t ++ [e]) s' ∧ (∀ x ∈ t, x = .intern i) ∧
    e.isResult i r

/-- Ports are reserved and released, one after the other, all ports are found to be available, and there is a port that nobody has for each reservation. -/
inductive OneByOne (n : Nat) : State → Prop where
  | start : OneByOne n {}
  | reserve {s s' : State} (i : Nat) (r : Option Nat) : OneByOne n s → Alone n i (fun _ => true) (fun _ => true) s r s' → (∃ k, k < n ∧ Free s k) → OneByOne n s'
  | release {s s' : State} (i k : Nat) : OneByOne n s → Step n (.released i k) s s' → OneByOne n s'

/-! ### Proofs -/

theorem set_eq {α : Type} (f : Nat → α) (k : Nat) (v : α) : set f k v k = v := if_pos rfl

theorem set_ne {α : Type} (f : Nat → α) {k j : Nat} (v : α) (h : j ≠ k) : set f k v j = f j := if_neg h

/-- In every state: ports that somebody has are marked, and nobody else has them; times are not 0. -/
structure Inv (s : State) : Prop where
  marked : ∀ i k, k ∈ (s.mgr i).held → s.mem k ≠ 0
  once : ∀ i j k, k ∈ (s.mgr i).held → k ∈ (s.mgr j).held → i = j

/-- The time of a call is not 0. -/
def NowPos : Call → Prop
  | .trying _ _ now _ => 0 < now
  | .undo _ _ now _ _ _ => 0 < now
  | _ => True

theorem step_now {n : Nat} {e : Event} {s s' : State} (h : Step n e s s') (hs : ∀ i, NowPos (s.mgr i).call) : ∀ i, NowPos (s'.mgr i).call := by
  have key : ∀ (i : Nat) (m : Mgr), NowPos m.call → ∀ j, NowPos (set s.mgr i m j).call := by
    intro i m hm j
    by_cases hj : j = i
    · subst hj; rw [set_eq]; exact hm
    · rw [set_ne _ _ hj]; exact hs j
  cases h with
  | begin _ i loc rem h => exact key _ _ trivial
  | read _ i loc rem seen h h' => exact key _ _ trivial
  | sort _ i now loc rem seen h h' h'' => exact key _ _ h''
  | lost _ i now loc rem ts k todo h h' => exact key _ _ (by have := hs i; rw [h] at this; exact this)
  | mark _ i now loc rem ts k todo h h' h'' => exact key _ _ (by have := hs i; rw [h] at this; exact this)
  | undo _ i now loc rem ts k todo h => exact key _ _ (by have := hs i; rw [h] at this; exact this)
  | take _ i now loc rem ts k todo h h' h'' => exact key _ _ trivial
  | fail _ i now loc rem h => exact key _ _ trivial
  | release _ i k h h' => exact key _ _ (hs i)
  | crash _ i => exact key _ _ trivial
  | unmap _ h => exact hs

/-- A step that changes no reservation, and marks nothing as unused. -/
theorem Inv.keep {s s' : State} (h : Inv s) (hh : ∀ i, (s'.mgr i).held = (s.mgr i).held) (hm : ∀ k, s.mem k ≠ 0 → s'.mem k ≠ 0) : Inv s' := by
  constructor
  · intro i k hk
    rw [hh] at hk
    exact hm k (h.marked i k hk)
  · intro i j k hi hj
    rw [hh] at hi hj
    exact h.once i j k hi hj

theorem held_set (f : Nat → Mgr) (i : Nat) (c : Call) (j : Nat) : (set f i { f i with call := c } j).held = (f j).held := by
  by_cases hj : j = i
  · subst hj; rw [set_eq]
  · rw [set_ne _ _ hj]

theorem set_pos (m : Nat → Nat) (k now : Nat) (h : 0 < now) : ∀ j, m j ≠ 0 → set m k now j ≠ 0 := by
  intro j hj
  by_cases hk : j = k
  · subst hk; rw [set_eq]; omega
  · rw [set_ne _ _ hk]; exact hj

theorem step_inv {n : Nat} {e : Event} {s s' : State} (h : Step n e s s') (hn : ∀ i, NowPos (s.mgr i).call) (he : ∀ i k ts, e = .returned i k ts → ts = 0) (hs : Inv s) : Inv s' := by
  cases h with
  | begin _ i loc rem h => exact hs.keep (held_set _ _ _) fun _ h => h
  | read _ i loc rem seen h h' => exact hs.keep (held_set _ _ _) fun _ h => h
  | sort _ i now loc rem seen h h' h'' => exact hs.keep (held_set _ _ _) fun _ h => h
  | lost _ i now loc rem ts k todo h h' => exact hs.keep (held_set _ _ _) fun _ h => h
  | mark _ i now loc rem ts k todo h h' h'' => exact hs.keep (held_set _ _ _) (set_pos _ _ _ (by have := hn i; rw [h] at this; exact this))
  | undo _ i now loc rem ts k todo h =>
    refine hs.keep (held_set _ _ _) fun j hj => ?_
    show (if s.mem k = ts then set s.mem k now else s.mem) j ≠ 0
    split
    · exact set_pos _ _ _ (by have := hn i; rw [h] at this; exact this) j hj
    · exact hj
  | take _ i now loc rem ts k todo h h' h'' =>
    have h0 := he i k ts rfl
    subst h0
    have hnow : 0 < now := by have := hn i; rw [h] at this; exact this
    have hfree : ∀ j, k ∉ (s.mgr j).held := fun j hj => hs.marked j k hj h'
    rw [if_neg (hfree i)]
    have hmem : ∀ j x, x ∈ (set s.mgr i ⟨k :: (s.mgr i).held, .idle⟩ j).held ↔ x ∈ (s.mgr j).held ∨ (j = i ∧ x = k) := by
      intro j x
      by_cases hj : j = i
      · subst hj; rw [set_eq]; simp [or_comm]
      · rw [set_ne _ _ hj]; simp [hj]
    constructor
    · intro j x hx
      rcases (hmem j x).mp hx with hx | ⟨-, rfl⟩
      · exact set_pos _ _ _ hnow x (hs.marked j x hx)
      · show set s.mem x now x ≠ 0
        rw [set_eq]; omega
    · intro j j' x hx hx'
      rcases (hmem j x).mp hx with hx | ⟨hj, hxk⟩ <;> rcases (hmem j' x).mp hx' with hx' | ⟨hj', hxk'⟩
      · exact hs.once j j' x hx hx'
      · exact absurd (hxk' ▸ hx : k ∈ (s.mgr j).held) (hfree j)
      · exact absurd (hxk ▸ hx' : k ∈ (s.mgr j').held) (hfree j')
      · rw [hj, hj']
  | fail _ i now loc rem h => exact hs.keep (held_set _ _ _) fun _ h => h
  | release _ i k h h' =>
    have hmem : ∀ j x, x ∈ (set s.mgr i { s.mgr i with held := (s.mgr i).held.filter (· ≠ k) } j).held → x ∈ (s.mgr j).held ∧ x ≠ k := by
      intro j x hx
      by_cases hj : j = i
      · subst hj
        rw [set_eq] at hx
        obtain ⟨h1, h2⟩ := List.mem_filter.mp hx
        exact ⟨h1, of_decide_eq_true h2⟩
      · rw [set_ne _ _ hj] at hx
        exact ⟨hx, fun hxk => hj (hs.once j i k (hxk ▸ hx) h')⟩
    constructor
    · intro j x hx
      obtain ⟨h1, h2⟩ := hmem j x hx
      show set s.mem k 0 x ≠ 0
      rw [set_ne _ _ h2]
      exact hs.marked j x h1
    · intro j j' x hx hx'
      exact hs.once j j' x (hmem j x hx).1 (hmem j' x hx').1
  | crash _ i =>
    have hmem : ∀ j x, x ∈ (set s.mgr i {} j).held → x ∈ (s.mgr j).held := by
      intro j x hx
      by_cases hj : j = i
      · subst hj; rw [set_eq] at hx; exact absurd hx List.not_mem_nil
      · rw [set_ne _ _ hj] at hx; exact hx
    exact ⟨fun j x hx => hs.marked j x (hmem j x hx), fun j j' x hx hx' => hs.once j j' x (hmem j x hx) (hmem j' x hx')⟩
  | unmap _ h =>
    exact ⟨fun j x hx => (by have hx : x ∈ (s.mgr j).held := hx; rw [h] at hx; exact absurd hx List.not_mem_nil), hs.once⟩

theorem inv_start : Inv {} := ⟨fun _ _ h => absurd h List.not_mem_nil, fun _ _ _ h => absurd h List.not_mem_nil⟩

theorem run_inv {n : Nat} {s s' : State} {t : List Event} (h : Run n s t s') (ht : NoTakeover t) (h1 : Inv s) (h2 : ∀ i, NowPos (s.mgr i).call) :
    Inv s' ∧ ∀ i, NowPos (s'.mgr i).call := by
  induction h with
  | nil => exact ⟨h1, h2⟩
  | snoc hr hstep ih =>
    obtain ⟨k1, k2⟩ := ih (fun i k ts h => ht i k ts (List.mem_append_left _ h))
    exact ⟨step_inv hstep k2 (fun i k ts h => ht i k ts (h ▸ List.mem_append_right _ List.mem_cons_self)) k1, step_now hstep k2⟩

/-- **C130** (part): if no port with a time is returned, then a port that is returned is not reserved by anybody, in all interleavings with any crashes. -/
theorem C130_exclusive_partial (n : Nat) (t : List Event) (s s' : State) (i k ts : Nat) (h : Run n {} t s) (ht : NoTakeover t)
    (hstep : Step n (.returned i k ts) s s') (h0 : ts = 0) : Free s k ∧ (∀ j, k ∈ (s'.mgr j).held ↔ j = i) := by
  obtain ⟨k1, k2⟩ := run_inv h ht inv_start (fun _ => trivial)
  cases hstep with
  | take _ _ now loc rem _ _ todo h1 h2 h3 =>
    have hfree : Free s k := fun j hj => k1.marked j k hj (h2.trans h0)
    refine ⟨hfree, fun j => ?_⟩
    by_cases hj : j = i
    · subst hj
      show k ∈ (set s.mgr j _ j).held ↔ _
      rw [set_eq, if_neg (hfree j)]
      simp
    · show k ∈ (set s.mgr i _ j).held ↔ _
      rw [set_ne _ _ hj]
      exact ⟨fun h => absurd h (hfree j), fun h => absurd h hj⟩

/-! ### The order of the ports -/

/-- Unused or used longer ago; the smaller port if it is the same. -/
def Before (x y : Nat × Nat) : Prop := x.1 < y.1 ∨ (x.1 = y.1 ∧ x.2 ≤ y.2)

theorem mem_ins (x y : Nat × Nat) (l : List (Nat × Nat)) : y ∈ ins x l ↔ y = x ∨ y ∈ l := by
  induction l with
  | nil => simp [ins]
  | cons z l ih =>
    rw [ins]
    split
    · rw [List.mem_cons, ih, List.mem_cons, or_left_comm]
    · rw [List.mem_cons]

theorem ins_sorted (x : Nat × Nat) (l : List (Nat × Nat)) (hl : l.Pairwise Before) (hx : ∀ y ∈ l, y.2 ≤ x.2) : (ins x l).Pairwise Before := by
  induction l with
  | nil => exact List.pairwise_singleton _ _
  | cons z l ih =>
    rw [List.pairwise_cons] at hl
    rw [ins]
    split
    · rename_i hz
      refine List.pairwise_cons.mpr ⟨fun y hy => ?_, ih hl.2 fun y hy => hx y (List.mem_cons_of_mem _ hy)⟩
      rcases (mem_ins _ _ _).mp hy with rfl | hy
      · have := hx z List.mem_cons_self
        unfold Before
        omega
      · exact hl.1 y hy
    · rename_i hz
      refine List.pairwise_cons.mpr ⟨fun y hy => ?_, List.pairwise_cons.mpr hl⟩
      rcases List.mem_cons.mp hy with rfl | hy
      · unfold Before; omega
      · have := hl.1 y hy
        unfold Before at *
        omega

theorem ins_perm (x : Nat × Nat) (l : List (Nat × Nat)) : (ins x l).Perm (x :: l) := by
  induction l with
  | nil => exact .refl _
  | cons z l ih =>
    rw [ins]
    split
    · exact (ih.cons z).trans (List.Perm.swap x z l)
    · exact .refl _

theorem sort_fold (l acc : List (Nat × Nat)) (ha : acc.Pairwise Before) (hl : l.Pairwise fun x y => x.2 ≤ y.2) (h : ∀ x ∈ acc, ∀ y ∈ l, x.2 ≤ y.2) :
    (l.foldl (fun acc x => ins x acc) acc).Pairwise Before ∧ (l.foldl (fun acc x => ins x acc) acc).Perm (l ++ acc) := by
  induction l generalizing acc with
  | nil => exact ⟨ha, .refl _⟩
  | cons x l ih =>
    rw [List.pairwise_cons] at hl
    rw [List.foldl_cons]
    obtain ⟨h1, h2⟩ := ih (ins x acc) (ins_sorted x acc ha fun y hy => h y hy x List.mem_cons_self) hl.2 (by
      intro y hy z hz
      rcases (mem_ins _ _ _).mp hy with rfl | hy
      · exact hl.1 z hz
      · exact h y hy z (List.mem_cons_of_mem _ hz))
    exact ⟨h1, h2.trans (((ins_perm x acc).append_left l).trans List.perm_middle)⟩

/-- All ports with these times. -/
def table (n : Nat) (m : Nat → Nat) : List (Nat × Nat) := (List.range n).map fun k => (m k, k)

theorem zip_table (n : Nat) (m : Nat → Nat) : ((List.range n).map m).zip (List.range n) = table n m := by
  have : ∀ l : List Nat, (l.map m).zip l = l.map fun k => (m k, k) := by
    intro l
    induction l with
    | nil => rfl
    | cons x l ih => rw [List.map_cons, List.zip_cons_cons, ih, List.map_cons]
  exact this _

theorem sort_table (n : Nat) (m : Nat → Nat) : (sortPorts (table n m)).Pairwise Before ∧ (sortPorts (table n m)).Perm (table n m) := by
  have h := sort_fold (table n m) [] .nil (by
    unfold table
    rw [List.pairwise_map]
    exact List.pairwise_le_range) (fun x hx => absurd hx List.not_mem_nil)
  rw [List.append_nil] at h
  exact h

theorem mem_sort (n : Nat) (m : Nat → Nat) (x : Nat × Nat) : x ∈ sortPorts (table n m) ↔ x.2 < n ∧ x.1 = m x.2 := by
  rw [(sort_table n m).2.mem_iff]
  unfold table
  rw [List.mem_map]
  constructor
  · rintro ⟨k, hk, rfl⟩
    exact ⟨List.mem_range.mp hk, rfl⟩
  · rintro ⟨h1, h2⟩
    exact ⟨x.2, List.mem_range.mpr h1, by rw [← h2]⟩

theorem sort_nodup (n : Nat) (m : Nat → Nat) : ((sortPorts (table n m)).map (·.2)).Nodup := by
  rw [((sort_table n m).2.map (·.2)).nodup_iff]
  unfold table
  rw [List.map_map]
  have : ((fun x : Nat × Nat => x.2) ∘ fun k => (m k, k)) = id := rfl
  rw [this, List.map_id]
  exact List.nodup_range

/-! ### A call alone -/

/-- A call of manager `i` that started in `s` and has been alone since then. -/
structure Solo (n i : Nat) (loc rem : Nat → Bool) (s s' : State) (c : Call) : Prop where
  mgr : s'.mgr = set s.mgr i { s.mgr i with call := c }
  call : match c with
    | .reading loc' rem' seen => loc' = loc ∧ rem' = rem ∧ seen = (List.range seen.length).map s.mem ∧ seen.length ≤ n ∧ s'.mem = s.mem
    | .trying loc' rem' now todo => loc' = loc ∧ rem' = rem ∧ 0 < now ∧ ∃ pre, sortPorts (table n s.mem) = pre ++ todo ∧ (∀ x ∈ pre, (loc x.2 && rem x.2) = false) ∧
        ∀ j, (∀ x ∈ pre, x.2 ≠ j) → s'.mem j = s.mem j
    | .undo loc' rem' now ts k todo => loc' = loc ∧ rem' = rem ∧ 0 < now ∧ ∃ pre, sortPorts (table n s.mem) = pre ++ (ts, k) :: todo ∧
        (∀ x ∈ pre ++ [(ts, k)], (loc x.2 && rem x.2) = false) ∧ ∀ j, (∀ x ∈ pre ++ [(ts, k)], x.2 ≠ j) → s'.mem j = s.mem j
    | .idle => False

theorem Solo.at {n i : Nat} {loc rem : Nat → Bool} {s s' : State} {c : Call} (h : Solo n i loc rem s s' c) : (s'.mgr i).call = c ∧ (s'.mgr i).held = (s.mgr i).held := by
  rw [h.mgr, set_eq]; exact ⟨rfl, rfl⟩

theorem set_set {α : Type} (f : Nat → α) (k : Nat) (v w : α) : set (set f k v) k w = set f k w := by
  funext j
  by_cases h : j = k
  · subst h; rw [set_eq, set_eq]
  · rw [set_ne _ _ h, set_ne _ _ h, set_ne _ _ h]

theorem Solo.next {n i : Nat} {loc rem : Nat → Bool} {s s' : State} {c : Call} (h : Solo n i loc rem s s' c) (c' : Call) :
    set s'.mgr i { s'.mgr i with call := c' } = set s.mgr i { s.mgr i with call := c' } := by
  rw [h.mgr, set_set, set_eq]

/-- The time of the next port is still the one that was read. -/
theorem solo_head {n i : Nat} {loc rem : Nat → Bool} {s s' : State} {now ts k : Nat} {todo : List (Nat × Nat)} (h : Solo n i loc rem s s' (.trying loc rem now ((ts, k) :: todo))) :
    s'.mem k = ts ∧ s.mem k = ts ∧ k < n := by
  obtain ⟨-, -, -, pre, h1, h2, h3⟩ := h.call
  have hk := (mem_sort n s.mem (ts, k)).mp (by rw [h1]; exact List.mem_append_right _ List.mem_cons_self)
  have hnd := sort_nodup n s.mem
  rw [h1, List.map_append, List.map_cons] at hnd
  have hne : ∀ x ∈ pre, x.2 ≠ k := fun x hx he => (List.nodup_append.mp hnd).2.2 x.2 (List.mem_map.mpr ⟨x, hx, rfl⟩) k List.mem_cons_self he
  exact ⟨(h3 k hne).trans hk.2.symm, hk.2.symm, hk.1⟩

theorem solo_step {n i : Nat} {loc rem : Nat → Bool} {s s' s'' : State} {c : Call} (h : Solo n i loc rem s s' c) (hstep : Step n (.intern i) s' s'') :
    ∃ c', Solo n i loc rem s s'' c' := by
  have hat := h.at.1
  cases hstep with
  | read _ _ loc' rem' seen h1 h2 =>
    rw [hat] at h1
    subst h1
    obtain ⟨rfl, rfl, k1, k2, k3⟩ := h.call
    refine ⟨_, ⟨h.next _, rfl, rfl, ?_, ?_, k3⟩⟩
    · rw [List.length_append, List.length_singleton, List.range_succ, List.map_append, ← k1, List.map_singleton, k3]
    · rw [List.length_append, List.length_singleton]; omega
  | sort _ _ now loc' rem' seen h1 h2 h3 =>
    rw [hat] at h1
    subst h1
    obtain ⟨rfl, rfl, k1, k2, k3⟩ := h.call
    refine ⟨_, ⟨h.next _, rfl, rfl, h3, [], ?_, fun x hx => absurd hx List.not_mem_nil, fun j _ => by rw [← k3]⟩⟩
    rw [k1, h2, zip_table]; rfl
  | lost _ _ now loc' rem' ts k todo h1 h2 =>
    rw [hat] at h1
    subst h1
    obtain ⟨rfl, rfl, -⟩ := h.call
    exact absurd (solo_head h).1 h2
  | mark _ _ now loc' rem' ts k todo h1 h2 h3 =>
    rw [hat] at h1
    subst h1
    obtain ⟨rfl, rfl, k0, pre, k1, k2, k3⟩ := h.call
    refine ⟨_, ⟨h.next _, rfl, rfl, k0, pre, k1, ?_, ?_⟩⟩
    · intro x hx
      rcases List.mem_append.mp hx with hx | hx
      · exact k2 x hx
      · rw [List.mem_singleton] at hx; subst hx; exact h3
    · intro j hj
      show set s'.mem k now j = _
      rw [set_ne _ _ (fun hjk => hj (ts, k) (List.mem_append_right _ List.mem_cons_self) hjk.symm)]
      exact k3 j fun x hx => hj x (List.mem_append_left _ hx)
  | undo _ _ now loc' rem' ts k todo h1 =>
    rw [hat] at h1
    subst h1
    obtain ⟨rfl, rfl, k0, pre, k1, k2, k3⟩ := h.call
    refine ⟨_, ⟨h.next _, rfl, rfl, k0, pre ++ [(ts, k)], ?_, k2, ?_⟩⟩
    · rw [k1, List.append_assoc]; rfl
    · intro j hj
      have hjk : j ≠ k := fun hjk => hj (ts, k) (List.mem_append_right _ List.mem_cons_self) hjk.symm
      show (if s'.mem k = ts then set s'.mem k now else s'.mem) j = _
      split
      · rw [set_ne _ _ hjk]; exact k3 j hj
      · exact k3 j hj

theorem run_nil {n : Nat} {s s' : State} {tr : List Event} (h : Run n s tr s') (ht : tr = []) : s' = s := by
  cases h with
  | nil => rfl
  | snoc hr hstep => simp at ht

theorem solo_run {n i : Nat} {loc rem : Nat → Bool} {s s' : State} {tr : List Event} (h : Run n s tr s') :
    ∀ t, tr = .begin i loc rem :: t → (∀ x ∈ t, x = .intern i) → ∃ c, Solo n i loc rem s s' c := by
  induction h with
  | nil => intro t ht; cases ht
  | snoc hr hstep ih =>
    rename_i s' s'' tr e
    intro t ht hall
    rcases tr with _ | ⟨e', tr⟩
    · obtain ⟨rfl, rfl⟩ := List.cons.inj (show [e] = .begin i loc rem :: t from ht)
      have hs := run_nil hr rfl
      subst hs
      cases hstep with
      | begin _ _ _ _ h1 => exact ⟨_, ⟨rfl, rfl, rfl, rfl, Nat.zero_le _, rfl⟩⟩
    · obtain ⟨rfl, rfl⟩ := List.cons.inj (show e' :: (tr ++ [e]) = .begin i loc rem :: t from ht)
      obtain ⟨c, hc⟩ := ih tr rfl fun x hx => hall x (List.mem_append_left _ hx)
      have he := hall e (List.mem_append_right _ List.mem_cons_self)
      subst he
      exact solo_step hc hstep

theorem run_snoc {n : Nat} {s s' : State} {t : List Event} {e : Event} (h : Run n s (t ++ [e]) s') : ∃ s1, Run n s t s1 ∧ Step n e s1 s' := by
  generalize ht : t ++ [e] = tr at h
  cases h with
  | nil => exact absurd ht (by simp)
  | snoc hr hstep =>
    obtain ⟨rfl, h2⟩ := List.append_inj' ht rfl
    cases h2
    exact ⟨_, hr, hstep⟩

/-- The effect of a call that has been alone. -/
theorem alone_result {n i : Nat} {loc rem : Nat → Bool} {s s' : State} {r : Option Nat} (h : Alone n i loc rem s r s') :
    match r with
    | none => (∀ k, k < n → (loc k && rem k) = false) ∧ s'.mgr = set s.mgr i { s.mgr i with call := .idle }
    | some k => k < n ∧ (loc k && rem k) = true ∧ (∀ j, j < n → (loc j && rem j) = true → Before (s.mem k, k) (s.mem j, j)) ∧
        s'.mgr = set s.mgr i { held := if k ∈ (s.mgr i).held then (s.mgr i).held else k :: (s.mgr i).held, call := .idle } ∧ s'.mem k ≠ 0 ∧
        ∀ j, j ≠ k → (Before (s.mem k, k) (s.mem j, j) ∨ (loc j && rem j) = true) → s'.mem j = s.mem j := by
  obtain ⟨t, e, h1, h2, h3⟩ := h
  obtain ⟨s1, h4, h5⟩ := run_snoc h1
  obtain ⟨c, hc⟩ := solo_run h4 t rfl h2
  have hat := hc.at
  cases r with
  | none =>
    have h3 : e = .failed i := h3
    subst h3
    cases h5 with
    | fail _ _ now loc' rem' k1 =>
      rw [hat.1] at k1
      subst k1
      obtain ⟨rfl, rfl, -, pre, k1, k2, -⟩ := hc.call
      rw [List.append_nil] at k1
      exact ⟨fun k hk => k2 (s.mem k, k) (by rw [← k1]; exact (mem_sort _ _ _).mpr ⟨hk, rfl⟩), hc.next _⟩
  | some k =>
    obtain ⟨ts, rfl⟩ : ∃ ts, e = .returned i k ts := h3
    cases h5 with
    | take _ _ now loc' rem' _ _ todo k1 k2 k3 =>
      rw [hat.1] at k1
      subst k1
      obtain ⟨rfl, rfl, k0, pre, k4, k5, k6⟩ := hc.call
      obtain ⟨q1, q2, q3⟩ := solo_head hc
      have hsort := (sort_table n s.mem).1
      rw [k4] at hsort
      refine ⟨q3, k3, fun j hj hav => ?_, ?_, ?_, fun j hj hor => ?_⟩
      · have hmem := (mem_sort n s.mem (s.mem j, j)).mpr ⟨hj, rfl⟩
        rw [k4] at hmem
        rcases List.mem_append.mp hmem with hmem | hmem
        · exact absurd (k5 _ hmem) (by rw [hav]; decide)
        · rcases List.mem_cons.mp hmem with hmem | hmem
          · have : j = k := congrArg (·.2) hmem
            subst this
            exact .inr ⟨rfl, Nat.le_refl _⟩
          · have := (List.pairwise_cons.mp (List.pairwise_append.mp hsort).2.1).1 _ hmem
            rw [q2]; exact this
      · show set s1.mgr i _ = _
        rw [hat.2, hc.mgr, set_set]
      · show set s1.mem k now k ≠ 0
        rw [set_eq]; omega
      · show set s1.mem k now j = _
        rw [set_ne _ _ hj]
        refine k6 j fun x hx hxj => ?_
        have hx' := (mem_sort n s.mem x).mp (by rw [k4]; exact List.mem_append_left _ hx)
        rcases hor with hor | hor
        · have hb := (List.pairwise_append.mp hsort).2.2 x hx (ts, k) List.mem_cons_self
          have hx1 : x.1 = s.mem j := by rw [hx'.2, hxj]
          unfold Before at hb hor
          dsimp only at hb hor
          omega
        · have := k5 x hx
          rw [hxj, hor] at this
          cases this

/-! ### A call that is not disturbed can run to its end -/

theorem run_append {n : Nat} {s s' s'' : State} {t t' : List Event} (h : Run n s t s') (h' : Run n s' t' s'') : Run n s (t ++ t') s'' := by
  induction h' with
  | nil => rw [List.append_nil]; exact h
  | snoc hr hstep ih => rw [← List.append_assoc]; exact .snoc ih hstep

theorem run_one {n : Nat} {s s' : State} {e : Event} (h : Step n e s s') : Run n s [e] s' := .snoc (.nil s) h

/-- The loop of a call that is alone, port_manager_win.cc:200-232: the result and the times after it. -/
def tryAll (loc rem : Nat → Bool) (now : Nat) : List (Nat × Nat) → (Nat → Nat) → Option Nat × (Nat → Nat)
  | [], m => (none, m)
  | (ts, k) :: todo, m =>
    if m k = ts then
      if (loc k && rem k) = true then (some k, set m k now)
      else tryAll loc rem now todo (if set m k now k = ts then set (set m k now) k now else set m k now)
    else tryAll loc rem now todo m

/-- A call that is alone. -/
def reserve (n : Nat) (loc rem : Nat → Bool) (now : Nat) (m : Nat → Nat) : Option Nat × (Nat → Nat) := tryAll loc rem now (sortPorts (table n m)) m

/-- The manager after a call. -/
def Mgr.after (m : Mgr) : Option Nat → Mgr
  | some k => { held := if k ∈ m.held then m.held else k :: m.held, call := .idle }
  | none => { m with call := .idle }

theorem try_run {n i : Nat} {loc rem : Nat → Bool} {now : Nat} (todo : List (Nat × Nat)) (f : Nat → Mgr) (held : List Nat) (m : Nat → Nat) :
    ∃ t e, Run n ⟨m, set f i ⟨held, .trying loc rem now todo⟩⟩ (t ++ [e]) ⟨(tryAll loc rem now todo m).2, set f i (Mgr.after ⟨held, .idle⟩ (tryAll loc rem now todo m).1)⟩ ∧
      (∀ x ∈ t, x = .intern i) ∧ e.isResult i (tryAll loc rem now todo m).1 := by
  induction todo generalizing m with
  | nil =>
    refine ⟨[], .failed i, ?_, fun x hx => absurd hx List.not_mem_nil, rfl⟩
    have h := Step.fail (n := n) ⟨m, set f i ⟨held, .trying loc rem now []⟩⟩ i now loc rem (congrArg Mgr.call (set_eq _ _ _))
    simp only [set_set, set_eq] at h
    exact run_one h
  | cons x todo ih =>
    obtain ⟨ts, k⟩ := x
    rw [tryAll]
    split
    · rename_i hm
      split
      · rename_i hav
        refine ⟨[], .returned i k ts, ?_, fun x hx => absurd hx List.not_mem_nil, ⟨ts, rfl⟩⟩
        have h := Step.take (n := n) ⟨m, set f i ⟨held, .trying loc rem now ((ts, k) :: todo)⟩⟩ i now loc rem ts k todo (congrArg Mgr.call (set_eq _ _ _)) hm hav
        simp only [set_set, set_eq] at h
        exact run_one h
      · rename_i hav
        have e1 : (if set m k now k = ts then set (set m k now) k now else set m k now) = set m k now := by
          split
          · rw [set_set]
          · rfl
        rw [e1]
        obtain ⟨t, e, h1, h2, h3⟩ := ih (set m k now)
        refine ⟨[.intern i] ++ ([.intern i] ++ t), e, ?_, ?_, h3⟩
        · have ha := Step.mark (n := n) ⟨m, set f i ⟨held, .trying loc rem now ((ts, k) :: todo)⟩⟩ i now loc rem ts k todo (congrArg Mgr.call (set_eq _ _ _)) hm (by simpa using hav)
          simp only [set_set, set_eq] at ha
          have hb := Step.undo (n := n) ⟨set m k now, set f i ⟨held, .undo loc rem now ts k todo⟩⟩ i now loc rem ts k todo (congrArg Mgr.call (set_eq _ _ _))
          simp only [set_set, set_eq, ite_self] at hb
          rw [List.append_assoc, List.append_assoc]
          exact run_append (run_one ha) (run_append (run_one hb) h1)
        · intro x hx
          simp only [List.mem_append, List.mem_singleton] at hx
          rcases hx with hx | hx | hx
          · exact hx
          · exact hx
          · exact h2 x hx
    · rename_i hm
      obtain ⟨t, e, h1, h2, h3⟩ := ih m
      refine ⟨[.intern i] ++ t, e, ?_, ?_, h3⟩
      · have ha := Step.lost (n := n) ⟨m, set f i ⟨held, .trying loc rem now ((ts, k) :: todo)⟩⟩ i now loc rem ts k todo (congrArg Mgr.call (set_eq _ _ _)) hm
        simp only [set_set, set_eq] at ha
        rw [List.append_assoc]
        exact run_append (run_one ha) h1
      · intro x hx
        rcases List.mem_append.mp hx with hx | hx
        · exact List.mem_singleton.mp hx
        · exact h2 x hx

theorem read_run {n i : Nat} {loc rem : Nat → Bool} (f : Nat → Mgr) (held : List Nat) (m : Nat → Nat) (j : Nat) (hj : j ≤ n) :
    ∃ t, Run n ⟨m, set f i ⟨held, .reading loc rem []⟩⟩ t ⟨m, set f i ⟨held, .reading loc rem ((List.range j).map m)⟩⟩ ∧ ∀ x ∈ t, x = .intern i := by
  induction j with
  | zero => exact ⟨[], .nil _, fun x hx => absurd hx List.not_mem_nil⟩
  | succ j ih =>
    obtain ⟨t, h1, h2⟩ := ih (by omega)
    refine ⟨t ++ [.intern i], .snoc h1 ?_, ?_⟩
    · have h := Step.read (n := n) ⟨m, set f i ⟨held, .reading loc rem ((List.range j).map m)⟩⟩ i loc rem ((List.range j).map m) (congrArg Mgr.call (set_eq _ _ _)) (by simp; omega)
      simp only [set_set, set_eq, List.length_map, List.length_range] at h
      rw [List.range_succ, List.map_append]
      exact h
    · intro x hx
      rcases List.mem_append.mp hx with hx | hx
      · exact h2 x hx
      · exact List.mem_singleton.mp hx

/-- A call can always run to its end, with this effect. -/
theorem alone_run (n i : Nat) (loc rem : Nat → Bool) (now : Nat) (hnow : 0 < now) (s : State) (h : (s.mgr i).call = .idle) :
    Alone n i loc rem s (reserve n loc rem now s.mem).1 ⟨(reserve n loc rem now s.mem).2, set s.mgr i ((s.mgr i).after (reserve n loc rem now s.mem).1)⟩ := by
  have h0 := Step.begin (n := n) s i loc rem h
  obtain ⟨t, h1, h2⟩ := read_run (n := n) (i := i) (loc := loc) (rem := rem) s.mgr (s.mgr i).held s.mem n (Nat.le_refl _)
  have h3 := Step.sort (n := n) ⟨s.mem, set s.mgr i ⟨(s.mgr i).held, .reading loc rem ((List.range n).map s.mem)⟩⟩ i now loc rem ((List.range n).map s.mem) (congrArg Mgr.call (set_eq _ _ _)) (by simp) hnow
  simp only [set_set, set_eq, zip_table] at h3
  obtain ⟨t', e, h4, h5, h6⟩ := try_run (n := n) (i := i) (loc := loc) (rem := rem) (now := now) (sortPorts (table n s.mem)) s.mgr (s.mgr i).held s.mem
  refine ⟨t ++ [.intern i] ++ t', e, ?_, ?_, h6⟩
  · have hall := run_append (run_one h0) (run_append h1 (run_append (run_one h3) h4))
    have hm : Mgr.after ⟨(s.mgr i).held, .idle⟩ (tryAll loc rem now (sortPorts (table n s.mem)) s.mem).1 = (s.mgr i).after (reserve n loc rem now s.mem).1 := by
      unfold reserve
      cases (tryAll loc rem now (sortPorts (table n s.mem)) s.mem).1 <;> rfl
    rw [hm] at hall
    simpa [List.append_assoc, reserve] using hall
  · intro x hx
    rcases List.mem_append.mp hx with hx | hx
    · rcases List.mem_append.mp hx with hx | hx
      · exact h2 x hx
      · exact List.mem_singleton.mp hx
    · exact h5 x hx

/-! ### Theorems -/

/-- The ports that were available when manager `i` was asked the last time. -/
def latest (i : Nat) (t : List Event) : Option ((Nat → Bool) × (Nat → Bool)) :=
  t.foldl (fun r e => match e with
    | .begin j loc rem => if j = i then some (loc, rem) else r
    | _ => r) none

theorem latest_snoc (i : Nat) (t : List Event) (e : Event) : latest i (t ++ [e]) = match e with
    | .begin j loc rem => if j = i then some (loc, rem) else latest i t
    | _ => latest i t := by
  unfold latest
  rw [List.foldl_append]
  rfl

/-- What the calls know is what netstat said when they were started. -/
def Knows (n : Nat) (l : Option ((Nat → Bool) × (Nat → Bool))) : Call → Prop
  | .idle => True
  | .reading loc rem _ => l = some (loc, rem)
  | .trying loc rem _ todo => l = some (loc, rem) ∧ ∀ x ∈ todo, x.2 < n
  | .undo loc rem _ _ _ todo => l = some (loc, rem) ∧ ∀ x ∈ todo, x.2 < n

theorem run_knows {n : Nat} {s : State} {t : List Event} (h : Run n {} t s) : ∀ i, Knows n (latest i t) (s.mgr i).call := by
  induction h with
  | nil => exact fun _ => trivial
  | snoc hr hstep ih =>
    rename_i s s' t e
    have key : ∀ (i : Nat) (m : Mgr), Knows n (latest i (t ++ [e])) m.call → (∀ j, j ≠ i → latest j (t ++ [e]) = latest j t) →
        ∀ j, Knows n (latest j (t ++ [e])) (set s.mgr i m j).call := by
      intro i m hm hne j
      by_cases hj : j = i
      · subst hj; rw [set_eq]; exact hm
      · rw [set_ne _ _ hj, hne j hj]; exact ih j
    cases hstep with
    | begin _ i loc rem h => exact key i _ (by rw [latest_snoc]; exact if_pos rfl) (fun j hj => by rw [latest_snoc]; exact if_neg (Ne.symm hj))
    | read _ i loc rem seen h h' => exact key i _ (by have := ih i; rw [h] at this; rw [latest_snoc]; exact this) (fun j hj => by rw [latest_snoc])
    | sort _ i now loc rem seen h h' h'' =>
      refine key i _ ?_ (fun j hj => by rw [latest_snoc])
      have := ih i
      rw [h] at this
      rw [latest_snoc]
      refine ⟨this, fun x hx => ?_⟩
      have hp : (sortPorts (seen.zip (List.range n))).Perm (seen.zip (List.range n) ++ []) := by
        refine (sort_fold (seen.zip (List.range n)) [] .nil ?_ fun x hx => absurd hx List.not_mem_nil).2
        have hz : ((seen.zip (List.range n)).map (·.2)).Pairwise (· ≤ ·) := by
          rw [List.map_snd_zip (by simp; omega)]
          exact List.pairwise_le_range
        rw [List.pairwise_map] at hz
        exact hz
      rw [List.append_nil] at hp
      exact List.mem_range.mp (List.of_mem_zip (hp.mem_iff.mp hx)).2
    | lost _ i now loc rem ts k todo h h' =>
      refine key i _ ?_ (fun j hj => by rw [latest_snoc])
      have := ih i
      rw [h] at this
      rw [latest_snoc]
      exact ⟨this.1, fun x hx => this.2 x (List.mem_cons_of_mem _ hx)⟩
    | mark _ i now loc rem ts k todo h h' h'' =>
      refine key i _ ?_ (fun j hj => by rw [latest_snoc])
      have := ih i
      rw [h] at this
      rw [latest_snoc]
      exact ⟨this.1, fun x hx => this.2 x (List.mem_cons_of_mem _ hx)⟩
    | undo _ i now loc rem ts k todo h =>
      refine key i _ ?_ (fun j hj => by rw [latest_snoc])
      have := ih i
      rw [h] at this
      rw [latest_snoc]
      exact this
    | take _ i now loc rem ts k todo h h' h'' => exact key i _ trivial (fun j hj => by rw [latest_snoc])
    | fail _ i now loc rem h => exact key i _ trivial (fun j hj => by rw [latest_snoc])
    | release _ i k h h' => exact key i _ (by have := ih i; rw [latest_snoc]; exact this) (fun j hj => by rw [latest_snoc])
    | crash _ i => exact key i _ trivial (fun j hj => by rw [latest_snoc])
    | unmap _ h => intro j; rw [latest_snoc]; exact ih j

/-- **C131**: a port that is returned is in the range and was available locally and remotely when the manager was asked for it, in all interleavings. -/
theorem C131_available (n : Nat) (t : List Event) (s s' : State) (i k ts : Nat) (h : Run n {} t s) (hstep : Step n (.returned i k ts) s s') :
    k < n ∧ ∃ loc rem, latest i t = some (loc, rem) ∧ loc k = true ∧ rem k = true := by
  have hk := run_knows h i
  cases hstep with
  | take _ _ now loc rem _ _ todo h1 h2 h3 =>
    rw [h1] at hk
    obtain ⟨h4, h5⟩ := hk
    rw [Bool.and_eq_true] at h3
    exact ⟨h5 _ List.mem_cons_self, loc, rem, h4, h3.1, h3.2⟩

/-- **C132**: whatever happened before, a manager that is not disturbed returns a port if there is an available one: among these the first of those that are marked as unused,
otherwise the one marked the longest time ago. -/
theorem C132_alone (n i : Nat) (loc rem : Nat → Bool) (s s' : State) (r : Option Nat) (h : Alone n i loc rem s r s') :
    (r = none ↔ ∀ k, k < n → ¬ (loc k = true ∧ rem k = true)) ∧
    ∀ k, r = some k → k < n ∧ loc k = true ∧ rem k = true ∧ k ∈ (s'.mgr i).held ∧
      ∀ j, j < n → loc j = true → rem j = true → s.mem k < s.mem j ∨ (s.mem k = s.mem j ∧ k ≤ j) := by
  have hr := alone_result h
  cases r with
  | none =>
    refine ⟨⟨fun _ k hk hav => ?_, fun _ => rfl⟩, fun k hk => nomatch hk⟩
    have := hr.1 k hk
    rw [hav.1, hav.2] at this
    cases this
  | some k =>
    obtain ⟨h1, h2, h3, h4, -⟩ := hr
    rw [Bool.and_eq_true] at h2
    refine ⟨⟨fun h => absurd h (by simp), fun h => absurd h2 (h k h1)⟩, fun k' hk' => ?_⟩
    cases hk'
    refine ⟨h1, h2.1, h2.2, ?_, fun j hj hl hr => h3 j hj (by rw [hl, hr]; rfl)⟩
    rw [h4, set_eq]
    dsimp only
    split
    · assumption
    · exact List.mem_cons_self

/-- **C132**: and it comes to an end. -/
theorem C132_ends (n i : Nat) (loc rem : Nat → Bool) (s : State) (h : (s.mgr i).call = .idle) : ∃ r s', Alone n i loc rem s r s' :=
  ⟨_, _, alone_run n i loc rem 1 (by decide) s h⟩

/-! ### One after the other -/

/-- All ports that are marked are reserved. -/
structure Exact (n : Nat) (s : State) : Prop where
  idle : ∀ i, (s.mgr i).call = .idle
  marked : ∀ k, k < n → (s.mem k ≠ 0 ↔ ∃ i, k ∈ (s.mgr i).held)
  once : ∀ i j k, k ∈ (s.mgr i).held → k ∈ (s.mgr j).held → i = j
  range : ∀ i k, k ∈ (s.mgr i).held → k < n

/-- A reservation takes a free port if there is one. -/
theorem alone_free {n i : Nat} {s s' : State} {r : Option Nat} (hs : ∀ k, k < n → (s.mem k ≠ 0 ↔ ∃ i, k ∈ (s.mgr i).held)) (h : Alone n i (fun _ => true) (fun _ => true) s r s')
    (hf : ∃ k, k < n ∧ Free s k) : ∃ k, r = some k ∧ k < n ∧ Free s k := by
  obtain ⟨k, hk, hfree⟩ := hf
  have hk0 : s.mem k = 0 := Decidable.byContradiction fun h0 => (((hs k hk).mp h0).elim fun i hi => hfree i hi)
  obtain ⟨h1, h2⟩ := C132_alone n i _ _ s s' r h
  cases r with
  | none => exact absurd ⟨rfl, rfl⟩ (h1.mp rfl k hk)
  | some k' =>
    obtain ⟨q1, -, -, -, q2⟩ := h2 k' rfl
    refine ⟨k', rfl, q1, fun j hj => ?_⟩
    have := (hs k' q1).mpr ⟨j, hj⟩
    have := q2 k hk rfl rfl
    omega

theorem exact_reserve {n i : Nat} {s s' : State} {r : Option Nat} (hs : Exact n s) (h : Alone n i (fun _ => true) (fun _ => true) s r s')
    (hf : ∃ k, k < n ∧ Free s k) : Exact n s' ∧ ∃ k, r = some k ∧ Free s k ∧ ∀ j, k ∈ (s'.mgr j).held ↔ j = i := by
  obtain ⟨k, rfl, hk, hfree⟩ := alone_free hs.marked h hf
  obtain ⟨-, -, -, h4, h5, h6⟩ := alone_result h
  rw [if_neg (hfree i)] at h4
  have hmem : ∀ j x, x ∈ (s'.mgr j).held ↔ x ∈ (s.mgr j).held ∨ (j = i ∧ x = k) := by
    intro j x
    rw [h4]
    by_cases hj : j = i
    · subst hj; rw [set_eq]; simp [or_comm]
    · rw [set_ne _ _ hj]; simp [hj]
  refine ⟨⟨fun j => ?_, fun x hx => ?_, fun j j' x hx hx' => ?_, fun j x hx => ?_⟩, k, rfl, hfree, fun j => ?_⟩
  · rw [h4]
    by_cases hj : j = i
    · subst hj; rw [set_eq]
    · rw [set_ne _ _ hj]; exact hs.idle j
  · by_cases hxk : x = k
    · subst hxk
      exact ⟨fun _ => ⟨i, (hmem i x).mpr (.inr ⟨rfl, rfl⟩)⟩, fun _ => h5⟩
    · rw [h6 x hxk (.inr rfl), hs.marked x hx]
      constructor
      · rintro ⟨j, hj⟩; exact ⟨j, (hmem j x).mpr (.inl hj)⟩
      · rintro ⟨j, hj⟩
        rcases (hmem j x).mp hj with hj | ⟨-, h⟩
        · exact ⟨j, hj⟩
        · exact absurd h hxk
  · rcases (hmem j x).mp hx with hx | ⟨hj, hxk⟩ <;> rcases (hmem j' x).mp hx' with hx' | ⟨hj', hxk'⟩
    · exact hs.once j j' x hx hx'
    · exact absurd (hxk' ▸ hx) (hfree j)
    · exact absurd (hxk ▸ hx') (hfree j')
    · rw [hj, hj']
  · rcases (hmem j x).mp hx with hx | ⟨-, hxk⟩
    · exact hs.range j x hx
    · rw [hxk]; exact hk
  · rw [hmem]
    exact ⟨fun h => h.elim (fun h => absurd h (hfree j)) (·.1), fun h => .inr ⟨h, rfl⟩⟩

theorem exact_release {n i k : Nat} {s s' : State} (hs : Exact n s) (h : Step n (.released i k) s s') : Exact n s' := by
  cases h with
  | release _ _ _ h1 h2 =>
    have hmem : ∀ j x, x ∈ (set s.mgr i { s.mgr i with held := (s.mgr i).held.filter (· ≠ k) } j).held ↔ x ∈ (s.mgr j).held ∧ x ≠ k := by
      intro j x
      by_cases hj : j = i
      · subst hj
        rw [set_eq]
        simp [List.mem_filter]
      · rw [set_ne _ _ hj]
        exact ⟨fun hx => ⟨hx, fun hxk => hj (hs.once j i k (hxk ▸ hx) h2)⟩, fun hx => hx.1⟩
    refine ⟨fun j => ?_, fun x hx => ?_, fun j j' x hx hx' => hs.once j j' x ((hmem j x).mp hx).1 ((hmem j' x).mp hx').1, fun j x hx => hs.range j x ((hmem j x).mp hx).1⟩
    · show (set s.mgr i _ j).call = _
      by_cases hj : j = i
      · subst hj; rw [set_eq]; exact hs.idle j
      · rw [set_ne _ _ hj]; exact hs.idle j
    · show set s.mem k 0 x ≠ 0 ↔ ∃ j, x ∈ (set s.mgr i _ j).held
      by_cases hxk : x = k
      · subst hxk
        rw [set_eq]
        exact ⟨fun h => absurd rfl h, fun ⟨j, hj⟩ => absurd rfl ((hmem j x).mp hj).2⟩
      · rw [set_ne _ _ hxk, hs.marked x hx]
        exact ⟨fun ⟨j, hj⟩ => ⟨j, (hmem j x).mpr ⟨hj, hxk⟩⟩, fun ⟨j, hj⟩ => ⟨j, ((hmem j x).mp hj).1⟩⟩

theorem exact_start (n : Nat) : Exact n {} :=
  ⟨fun _ => rfl, fun k _ => ⟨fun h => absurd rfl h, fun ⟨_, h⟩ => absurd h List.not_mem_nil⟩, fun _ _ _ h => absurd h List.not_mem_nil, fun _ _ h => absurd h List.not_mem_nil⟩

/-- **C130** (part): if calls do not overlap, all ports are available and there is a port nobody has for each reservation, then it returns a port nobody has. -/
theorem C130_one_by_one_partial (n : Nat) (s : State) (h : OneByOne n s) (i : Nat) (r : Option Nat) (s' : State) (ha : Alone n i (fun _ => true) (fun _ => true) s r s')
    (hf : ∃ k, k < n ∧ Free s k) : ∃ k, r = some k ∧ Free s k ∧ ∀ j, k ∈ (s'.mgr j).held ↔ j = i := by
  refine (exact_reserve (?_ : Exact n s) ha hf).2
  clear ha hf
  induction h with
  | start => exact exact_start n
  | reserve i r h ha hf ih => exact (exact_reserve ih ha hf).1
  | release i k h hr ih => exact exact_release ih hr

/-- The state after some reservations, each alone, with the ports available and the time of each. -/
def after (n : Nat) : List (Nat × (Nat → Bool) × Nat) → State → State
  | [], s => s
  | (i, loc, now) :: cs, s => after n cs ⟨(reserve n loc (fun _ => true) now s.mem).2, set s.mgr i ((s.mgr i).after (reserve n loc (fun _ => true) now s.mem).1)⟩

/-- **C130** is false: if all ports are reserved, the next manager gets one of them nevertheless, although no port may be in use yet; and the first release marks it as unused. -/
theorem C130_exhausted_violated : ∃ s1 s2, OneByOne 1 s1 ∧ 0 ∈ (s1.mgr 0).held ∧ Alone 1 1 (fun _ => true) (fun _ => true) s1 (some 0) s2 ∧ 0 ∈ (s2.mgr 0).held ∧ 0 ∈ (s2.mgr 1).held := by
  have h1 := alone_run 1 0 (fun _ => true) (fun _ => true) 5 (by decide) {} rfl
  have h2 := alone_run 1 1 (fun _ => true) (fun _ => true) 7 (by decide) (after 1 [(0, fun _ => true, 5)] {}) rfl
  exact ⟨after 1 [(0, fun _ => true, 5)] {}, after 1 [(0, fun _ => true, 5), (1, fun _ => true, 7)] {}, .reserve 0 _ .start h1 ⟨0, by decide, fun i => List.not_mem_nil⟩, by decide, h2, by decide, by decide⟩

/-- The ports that are available but port 1. -/
def not1 (k : Nat) : Bool := k != 1

/-- **C130** is false also if there are other free ports: a port that was not available for a moment is marked as used just now (the arguments of the second exchange are swapped), so that a port
that somebody has reserved before seems to be the best one. -/
theorem C130_unavailable_violated : ∃ s0 s1 s2 s3, s0 = {} ∧
    Alone 3 0 (fun _ => true) (fun _ => true) s0 (some 0) s1 ∧ Alone 3 1 not1 (fun _ => true) s1 (some 2) s2 ∧ Alone 3 2 (fun _ => true) (fun _ => true) s2 (some 0) s3 ∧
    Free s2 1 ∧ 0 ∈ (s3.mgr 0).held ∧ 0 ∈ (s3.mgr 2).held := by
  have h1 := alone_run 3 0 (fun _ => true) (fun _ => true) 3 (by decide) {} rfl
  have h2 := alone_run 3 1 not1 (fun _ => true) 5 (by decide) (after 3 [(0, fun _ => true, 3)] {}) rfl
  have h3 := alone_run 3 2 (fun _ => true) (fun _ => true) 6 (by decide) (after 3 [(0, fun _ => true, 3), (1, not1, 5)] {}) rfl
  refine ⟨{}, _, _, _, rfl, h1, h2, h3, fun i => ?_, by decide, by decide⟩
  match i with
  | 0 => decide
  | 1 => decide
  | _ + 2 => exact List.not_mem_nil

/-- C130 to C132 are about something: three managers reserve three ports and one releases. -/
theorem C130_example : ∃ s1 s2 s3, OneByOne 3 s3 ∧ Alone 3 0 (fun _ => true) (fun _ => true) {} (some 0) s1 ∧ Alone 3 1 (fun _ => true) (fun _ => true) s1 (some 1) s2 ∧
    Step 3 (.released 0 0) s2 s3 ∧ (∃ k, k < 3 ∧ Free s3 k) ∧ 1 ∈ (s3.mgr 1).held := by
  have h1 := alone_run 3 0 (fun _ => true) (fun _ => true) 3 (by decide) {} rfl
  have h2 := alone_run 3 1 (fun _ => true) (fun _ => true) 5 (by decide) (after 3 [(0, fun _ => true, 3)] {}) rfl
  have h3 := Step.release (n := 3) (after 3 [(0, fun _ => true, 3), (1, fun _ => true, 5)] {}) 0 0 rfl (by decide)
  refine ⟨_, _, _, .release 0 0 (.reserve 1 _ (.reserve 0 _ .start h1 ⟨0, by decide, fun i => List.not_mem_nil⟩) h2 ⟨2, by decide, fun i => ?_⟩) h3, h1, h2, h3, ⟨2, by decide, fun i => ?_⟩, by decide⟩
  · match i with
    | 0 => decide
    | _ + 1 => exact List.not_mem_nil
  · match i with
    | 0 => decide
    | 1 => decide
    | _ + 2 => exact List.not_mem_nil

end Verif.Ports
