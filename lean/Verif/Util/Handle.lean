/-!
# Owned handles

Model of `ScopedHandle` (common/scoped_handle_win.cc): a program with any number of such objects, which it creates, moves, assigns,
sets, releases, closes and destroys.
-/

namespace Verif.Util.Handle

/-- A value of type `HANDLE`. -/
inductive H
  | null
  /-- `INVALID_HANDLE_VALUE` -/
  | invalid
  | val (n : Nat)
deriving DecidableEq

/-- `IsHandleValid`, scoped_handle_win.cc:73-75. -/
def H.isValid : H → Bool
  | .val _ => true
  | _ => false

/-- The objects (`none`: there is none with this name), the handles the program has in its hands, all handles it ever got, the
arguments of all calls of `CloseHandle` so far, and `GetLastError`. -/
structure State where
  objs : Nat → Option H := fun _ => none
  raw : List Nat := []
  all : List Nat := []
  closed : List Nat := []
  lastError : Nat := 0

def put (f : Nat → Option H) (x : Nat) (v : Option H) : Nat → Option H := fun y => if y = x then v else f y

/-- `CloseHandle`; it may change the last error to `e`. -/
def sysClose (e : Nat) (n : Nat) (s : State) : State := { s with closed := s.closed ++ [n], lastError := e }

/-- `Close`, scoped_handle_win.cc:66-71, of an object that has `h`. -/
def close (e x : Nat) (h : H) (s : State) : State := match h with
  | .val n => { sysClose e n s with objs := put s.objs x (some .null) }
  | _ => s

/-- `Set`, scoped_handle_win.cc:42-53, of an object that has `old`. -/
def set (e x : Nat) (old new : H) (s : State) : State :=
  if old = new then s
  else
    let s1 := close e x old s
    let s2 := if new.isValid then { s1 with objs := put s1.objs x (some new) } else s1
    { s2 with lastError := s.lastError }

/-- `Release`, scoped_handle_win.cc:60-64. -/
def release (x : Nat) (s : State) : State := { s with objs := put s.objs x (some .null) }

/-- The program takes `h` out of its hands. -/
def give (h : H) (s : State) : State := match h with
  | .val n => { s with raw := s.raw.erase n }
  | _ => s

def take (h : H) (s : State) : State := match h with
  | .val n => { s with raw := n :: s.raw }
  | _ => s

/-- It gives away only what it has. -/
def Has (s : State) (h : H) : Prop := ∀ n, h = .val n → n ∈ s.raw

/-- What the program can do. `e` is the error code that a call of `CloseHandle` leaves. -/
inductive Step : State → State → Prop
  /-- a new handle from the system -/
  | open {s} (n : Nat) : n ∉ s.all → Step s { s with raw := n :: s.raw, all := n :: s.all }
  /-- the default constructor, 25 -/
  | new {s} (x : Nat) : s.objs x = none → Step s { s with objs := put s.objs x (some .null) }
  /-- the constructor from a handle, 27 -/
  | make {s} (e x : Nat) (h : H) : s.objs x = none → Has s h →
      Step s (set e x .null h { give h s with objs := put s.objs x (some .null) })
  /-- the move constructor, 29-31 -/
  | move {s} (e x y : Nat) (h : H) : s.objs x = none → s.objs y = some h →
      Step s (set e x .null h (release y { s with objs := put s.objs x (some .null) }))
  /-- the move assignment, 37-40; `x` may be `y` -/
  | assign {s} (e x y : Nat) (old h : H) : s.objs y = some h → (release y s).objs x = some old →
      Step s (set e x old h (release y s))
  /-- `Set` with a handle that the program has, or with the one the object has -/
  | set {s} (e x : Nat) (old h : H) : s.objs x = some old → Has s h → Step s (set e x old h (give h s))
  | same {s} (e x : Nat) (old : H) : s.objs x = some old → Step s (Handle.set e x old old s)
  | release {s} (x : Nat) (h : H) : s.objs x = some h → Step s (take h (release x s))
  | close {s} (e x : Nat) (h : H) : s.objs x = some h → Step s (close e x h s)
  /-- the destructor, 33 -/
  | destroy {s} (e x : Nat) (h : H) : s.objs x = some h → Step s { Handle.close e x h s with objs := put (Handle.close e x h s).objs x none }

inductive Reach : State → Prop
  | init : Reach {}
  | step {s t} : Reach s → Step s t → Reach t

/-- Every handle is in exactly one place: in the hands of the program, in one object, or closed, once. Objects never have the
invalid handle. -/
structure Inv (s : State) : Prop where
  raw : s.raw.Nodup
  closed : s.closed.Nodup
  rawClosed : ∀ n ∈ s.raw, n ∉ s.closed
  rawObj : ∀ n ∈ s.raw, ∀ x, s.objs x ≠ some (.val n)
  closedObj : ∀ n ∈ s.closed, ∀ x, s.objs x ≠ some (.val n)
  objObj : ∀ n x y, s.objs x = some (.val n) → s.objs y = some (.val n) → x = y
  all : ∀ n, n ∈ s.all ↔ n ∈ s.raw ∨ n ∈ s.closed ∨ ∃ x, s.objs x = some (.val n)
  valid : ∀ x, s.objs x ≠ some .invalid

theorem put_same (f : Nat → Option H) (x : Nat) (v : Option H) : put f x v x = v := if_pos rfl
theorem put_other (f : Nat → Option H) {x y : Nat} (v : Option H) (h : y ≠ x) : put f x v y = f y := if_neg h
theorem put_put (f : Nat → Option H) (x : Nat) (u v : Option H) : put (put f x u) x v = put f x v := by
  funext y; by_cases h : y = x <;> simp [put, h]

/-- An object without a handle appears, disappears or stays. -/
theorem Inv.empty {s : State} (h : Inv s) (x : Nat) (v : Option H) (hx : ∀ n, s.objs x ≠ some (.val n)) (hv : v = none ∨ v = some .null) :
    Inv { s with objs := put s.objs x v } := by
  have hv' : ∀ n, v ≠ some (.val n) := by rcases hv with rfl | rfl <;> simp
  have key : ∀ y n, put s.objs x v y = some (.val n) ↔ s.objs y = some (.val n) := by
    intro y n
    by_cases hy : y = x
    · subst hy; rw [put_same]; exact ⟨fun e => absurd e (hv' n), fun e => absurd e (hx n)⟩
    · rw [put_other _ _ hy]
  refine ⟨h.raw, h.closed, h.rawClosed, fun n hn y e => h.rawObj n hn y ((key y n).1 e), fun n hn y e => h.closedObj n hn y ((key y n).1 e),
    fun n y z e1 e2 => h.objObj n y z ((key y n).1 e1) ((key z n).1 e2), fun n => ?_, fun y e => ?_⟩
  · rw [h.all n]
    simp only [key]
  · change put s.objs x v y = some .invalid at e
    by_cases hy : y = x
    · subst hy; rw [put_same] at e; rcases hv with rfl | rfl <;> cases e
    · rw [put_other _ _ hy] at e; exact h.valid y e

/-- A handle moves from the hands of the program into an object without one. -/
theorem Inv.fill {s : State} (h : Inv s) (x n : Nat) (hn : n ∈ s.raw) (hx : ∀ m, s.objs x ≠ some (.val m)) :
    Inv { s with objs := put s.objs x (some (.val n)), raw := s.raw.erase n } := by
  have hr : ∀ m, m ∈ s.raw.erase n ↔ m ≠ n ∧ m ∈ s.raw := fun m => h.raw.mem_erase_iff
  have key : ∀ y m, put s.objs x (some (.val n)) y = some (.val m) ↔ (y = x ∧ m = n) ∨ (y ≠ x ∧ s.objs y = some (.val m)) := by
    intro y m
    by_cases hy : y = x
    · subst hy; rw [put_same]; simp [eq_comm]
    · rw [put_other _ _ hy]; simp [hy]
  refine ⟨h.raw.erase n, h.closed, fun m hm => h.rawClosed m ((hr m).1 hm).2, fun m hm y e => ?_, fun m hm y e => ?_, fun m y z e1 e2 => ?_,
    fun m => ?_, fun y e => ?_⟩
  · rcases (key y m).1 e with ⟨_, e⟩ | ⟨_, e⟩
    · exact ((hr m).1 hm).1 e
    · exact h.rawObj m ((hr m).1 hm).2 y e
  · rcases (key y m).1 e with ⟨_, e⟩ | ⟨_, e⟩
    · subst e; exact h.rawClosed m hn hm
    · exact h.closedObj m hm y e
  · rcases (key y m).1 e1 with ⟨a1, b1⟩ | ⟨a1, b1⟩ <;> rcases (key z m).1 e2 with ⟨a2, b2⟩ | ⟨a2, b2⟩
    · rw [a1, a2]
    · subst b1; exact absurd b2 (h.rawObj m hn z)
    · subst b2; exact absurd b1 (h.rawObj m hn y)
    · exact h.objObj m y z b1 b2
  · rw [h.all m]
    show _ ↔ m ∈ s.raw.erase n ∨ m ∈ s.closed ∨ ∃ y, put s.objs x (some (.val n)) y = some (.val m)
    simp only [hr, key]
    by_cases hm : m = n
    · subst hm
      exact ⟨fun _ => Or.inr (Or.inr ⟨x, Or.inl ⟨rfl, rfl⟩⟩), fun _ => Or.inl hn⟩
    · constructor
      · rintro (a | a | ⟨y, a⟩)
        · exact Or.inl ⟨hm, a⟩
        · exact Or.inr (Or.inl a)
        · refine Or.inr (Or.inr ⟨y, Or.inr ⟨?_, a⟩⟩)
          rintro rfl; exact hx m a
      · rintro (a | a | ⟨y, a | a⟩)
        · exact Or.inl a.2
        · exact Or.inr (Or.inl a)
        · exact absurd a.2 hm
        · exact Or.inr (Or.inr ⟨y, a.2⟩)
  · change put s.objs x (some (.val n)) y = some .invalid at e
    by_cases hy : y = x
    · subst hy; rw [put_same] at e; cases e
    · rw [put_other _ _ hy] at e; exact h.valid y e

/-- A handle moves from an object to the hands of the program. -/
theorem Inv.empties {s : State} (h : Inv s) (x n : Nat) (hx : s.objs x = some (.val n)) :
    Inv { s with objs := put s.objs x (some .null), raw := n :: s.raw } := by
  have key : ∀ y m, put s.objs x (some .null) y = some (.val m) ↔ (m ≠ n ∧ s.objs y = some (.val m)) := by
    intro y m
    by_cases hy : y = x
    · subst hy; rw [put_same, hx]; simp; intro e; exact fun e' => e e'.symm
    · rw [put_other _ _ hy]
      constructor
      · intro e; exact ⟨fun e' => hy (h.objObj n y x (e' ▸ e) hx), e⟩
      · exact fun e => e.2
  refine ⟨List.nodup_cons.2 ⟨fun hm => h.rawObj n hm x hx, h.raw⟩, h.closed, fun m hm hc => ?_, fun m hm y e => ?_, fun m hm y e => ?_,
    fun m y z e1 e2 => ?_, fun m => ?_, fun y e => ?_⟩
  · rcases List.mem_cons.1 hm with rfl | hm
    · exact h.closedObj m hc x hx
    · exact h.rawClosed m hm hc
  · rcases List.mem_cons.1 hm with rfl | hm
    · exact ((key y m).1 e).1 rfl
    · exact h.rawObj m hm y ((key y m).1 e).2
  · exact h.closedObj m hm y ((key y m).1 e).2
  · exact h.objObj m y z ((key y m).1 e1).2 ((key z m).1 e2).2
  · rw [h.all m]
    show _ ↔ m ∈ n :: s.raw ∨ m ∈ s.closed ∨ ∃ y, put s.objs x (some .null) y = some (.val m)
    simp only [key, List.mem_cons]
    by_cases hm : m = n
    · subst hm; exact ⟨fun _ => Or.inl (Or.inl rfl), fun _ => Or.inr (Or.inr ⟨x, hx⟩)⟩
    · constructor
      · rintro (a | a | ⟨y, a⟩)
        · exact Or.inl (Or.inr a)
        · exact Or.inr (Or.inl a)
        · exact Or.inr (Or.inr ⟨y, hm, a⟩)
      · rintro ((a | a) | a | ⟨y, a⟩)
        · exact absurd a hm
        · exact Or.inl a
        · exact Or.inr (Or.inl a)
        · exact Or.inr (Or.inr ⟨y, a.2⟩)
  · change put s.objs x (some .null) y = some .invalid at e
    by_cases hy : y = x
    · subst hy; rw [put_same] at e; cases e
    · rw [put_other _ _ hy] at e; exact h.valid y e

/-- A handle in the hands of the program is closed. -/
theorem Inv.closes {s : State} (h : Inv s) (n : Nat) (hn : n ∈ s.raw) (e : Nat) :
    Inv { s with raw := s.raw.erase n, closed := s.closed ++ [n], lastError := e } := by
  have hr : ∀ m, m ∈ s.raw.erase n ↔ m ≠ n ∧ m ∈ s.raw := fun m => h.raw.mem_erase_iff
  have hcl : ∀ m, m ∈ s.closed ++ [n] ↔ m ∈ s.closed ∨ m = n := by simp
  refine ⟨h.raw.erase n, ?_, fun m hm hc => ?_, fun m hm => h.rawObj m ((hr m).1 hm).2, fun m hm y e => ?_, h.objObj, fun m => ?_, h.valid⟩
  · show (s.closed ++ [n]).Nodup
    rw [List.nodup_append]
    exact ⟨h.closed, by simp, fun a ha b hb => by rw [List.mem_singleton.1 hb]; rintro rfl; exact h.rawClosed _ hn ha⟩
  · rcases (hcl m).1 hc with hc | rfl
    · exact h.rawClosed m ((hr m).1 hm).2 hc
    · exact ((hr m).1 hm).1 rfl
  · rcases (hcl m).1 hm with hm | rfl
    · exact h.closedObj m hm y e
    · exact h.rawObj m hn y e
  · rw [h.all m]
    show _ ↔ m ∈ s.raw.erase n ∨ m ∈ s.closed ++ [n] ∨ _
    simp only [hr, hcl]
    by_cases hm : m = n
    · subst hm; exact ⟨fun _ => Or.inr (Or.inl (Or.inr rfl)), fun _ => Or.inl hn⟩
    · constructor
      · rintro (a | a | a)
        · exact Or.inl ⟨hm, a⟩
        · exact Or.inr (Or.inl (Or.inl a))
        · exact Or.inr (Or.inr a)
      · rintro (a | (a | a) | a)
        · exact Or.inl a.2
        · exact Or.inr (Or.inl a)
        · exact absurd a hm
        · exact Or.inr (Or.inr a)

theorem Inv.error {s : State} (h : Inv s) (e : Nat) : Inv { s with lastError := e } :=
  ⟨h.raw, h.closed, h.rawClosed, h.rawObj, h.closedObj, h.objObj, h.all, h.valid⟩

theorem Inv.close {s : State} (h : Inv s) (e x : Nat) (v : H) (hx : s.objs x = some v) :
    Inv (close e x v s) ∧ (Handle.close e x v s).objs x = some .null ∧ (Handle.close e x v s).raw = s.raw ∧
    (∀ y, y ≠ x → (Handle.close e x v s).objs y = s.objs y) := by
  cases v with
  | null => exact ⟨h, hx, rfl, fun _ _ => rfl⟩
  | invalid => exact absurd hx (h.valid x)
  | val n =>
    have := (h.empties x n hx).closes n (List.mem_cons_self ..) e
    refine ⟨?_, put_same .., rfl, fun y hy => put_other _ _ hy⟩
    simpa [Handle.close, sysClose] using this

/-- `Set` with a handle that the program had in its hands. -/
theorem Inv.set {s : State} (h : Inv s) (e x : Nat) (old new : H) (hx : s.objs x = some old) (hn : Has s new) (hne : ∀ n, new = .val n → old ≠ new) :
    Inv (set e x old new (give new s)) := by
  unfold Handle.set
  by_cases ho : old = new
  · rw [if_pos ho]
    cases new with
    | val n => exact absurd ho (hne n rfl)
    | null => exact h
    | invalid => exact h
  · rw [if_neg ho]
    simp only
    cases new with
    | null => exact (h.close e x old hx).1.error _
    | invalid => exact (h.close e x old hx).1.error _
    | val n =>
      obtain ⟨h1, h2, h3, _⟩ := h.close e x old hx
      have := (h1.fill x n (by rw [h3]; exact hn n rfl) (by rw [h2]; simp)).error s.lastError
      have e1 : Handle.close e x old (give (.val n) s) = { Handle.close e x old s with raw := s.raw.erase n } := by
        cases old <;> rfl
      rw [h3] at this
      simp only [H.isValid, if_true, e1]
      exact this

theorem Inv.step {s t : State} (h : Inv s) (st : Step s t) : Inv t := by
  cases st with
  | «open» n hn =>
    have h1 : n ∉ s.raw := fun hm => hn ((h.all n).2 (Or.inl hm))
    have h2 : n ∉ s.closed := fun hm => hn ((h.all n).2 (Or.inr (Or.inl hm)))
    have h3 : ∀ x, s.objs x ≠ some (.val n) := fun x hm => hn ((h.all n).2 (Or.inr (Or.inr ⟨x, hm⟩)))
    refine ⟨List.nodup_cons.2 ⟨h1, h.raw⟩, h.closed, fun m hm hc => ?_, fun m hm y e => ?_, h.closedObj, h.objObj, fun m => ?_, h.valid⟩
    · rcases List.mem_cons.1 hm with rfl | hm
      · exact h2 hc
      · exact h.rawClosed m hm hc
    · rcases List.mem_cons.1 hm with rfl | hm
      · exact h3 y e
      · exact h.rawObj m hm y e
    · show m ∈ n :: s.all ↔ m ∈ n :: s.raw ∨ _
      rw [List.mem_cons, List.mem_cons, h.all m, or_assoc]
  | new x hx => exact h.empty x _ (by rw [hx]; simp) (Or.inr rfl)
  | make e x v hx hv =>
    have h1 := h.empty x (some .null) (by rw [hx]; simp) (Or.inr rfl)
    have := h1.set e x .null v (put_same ..) hv (by intro m hm; cases hm; simp)
    cases v <;> exact this
  | move e x y v hx hy =>
    have hxy : y ≠ x := by rintro rfl; rw [hx] at hy; cases hy
    have h1 := h.empty x (some .null) (by rw [hx]; simp) (Or.inr rfl)
    have hy1 : put s.objs x (some .null) y = some v := by rw [put_other _ _ hxy]; exact hy
    cases v with
    | invalid => exact absurd hy (h.valid y)
    | null =>
      have := h1.empty y (some .null) (by intro n; show put s.objs x (some .null) y ≠ _; rw [hy1]; simp) (Or.inr rfl)
      simpa [Handle.set, Handle.release] using this
    | val n =>
      have h2 := h1.empties y n hy1
      have := h2.set e x .null (.val n) (by
        show put (put s.objs x _) y _ x = _
        rw [put_other _ _ (Ne.symm hxy), put_same]) (fun m hm => by cases hm; exact List.mem_cons_self ..) (by intro m hm; cases hm; simp)
      simpa [give, Handle.release] using this
  | assign e x y old v hy hx =>
    cases v with
    | invalid => exact absurd hy (h.valid y)
    | null =>
      have h1 := h.empty y (some .null) (by rw [hy]; simp) (Or.inr rfl)
      exact h1.set e x old .null hx (by intro n hn; cases hn) (by intro n hn; cases hn)
    | val n =>
      have h2 := h.empties y n hy
      have := h2.set e x old (.val n) hx (fun m hm => by cases hm; exact List.mem_cons_self ..) (by
        intro m hm e1
        rw [e1] at hx
        have hx : put s.objs y (some .null) x = some (.val n) := hx
        by_cases hxy : x = y
        · subst hxy; rw [put_same] at hx; cases hx
        · rw [put_other _ _ hxy] at hx; exact hxy (h.objObj n x y hx hy))
      simpa [give, Handle.release] using this
  | set e x old v hx hv =>
    exact h.set e x old v hx hv (by
      rintro n rfl rfl
      exact h.rawObj n (hv n rfl) x hx)
  | same e x old hx => rw [Handle.set, if_pos rfl]; exact h
  | release x v hx =>
    cases v with
    | invalid => exact absurd hx (h.valid x)
    | null => exact h.empty x _ (by rw [hx]; simp) (Or.inr rfl)
    | val n => exact h.empties x n hx
  | close e x v hx => exact (h.close e x v hx).1
  | destroy e x v hx =>
    obtain ⟨h1, h2, _⟩ := h.close e x v hx
    exact h1.empty x none (by rw [h2]; simp) (Or.inl rfl)

theorem Inv.init : Inv {} := ⟨.nil, .nil, by simp, by simp, by simp, by simp, by simp, by simp⟩

theorem Reach.inv {s : State} (h : Reach s) : Inv s := by
  induction h with
  | init => exact .init
  | step _ st ih => exact ih.step st

/-- C180: no handle is closed twice, none is closed while the program or another object has it, and no two objects have the same one;
a handle that an object has is not closed. -/
theorem C180_closed_once {s : State} (h : Reach s) : s.closed.Nodup ∧ (∀ n ∈ s.closed, n ∈ s.all ∧ n ∉ s.raw ∧ ∀ x, s.objs x ≠ some (.val n)) ∧
    ∀ n x y, s.objs x = some (.val n) → s.objs y = some (.val n) → x = y := by
  have hi := h.inv
  exact ⟨hi.closed, fun n hn => ⟨(hi.all n).2 (Or.inr (Or.inl hn)), fun hr => hi.rawClosed n hr hn, hi.closedObj n hn⟩, hi.objObj⟩

/-- C180: once all objects are gone, every handle the program ever got is closed, or in its hands again. -/
theorem C180_no_leak {s : State} (h : Reach s) (hd : ∀ x, s.objs x = none) : ∀ n ∈ s.all, n ∈ s.closed ∨ n ∈ s.raw := by
  intro n hn
  rcases (h.inv.all n).1 hn with h1 | h1 | ⟨x, h1⟩
  · exact Or.inr h1
  · exact Or.inl h1
  · rw [hd x] at h1; cases h1

/-- C180: moving and assigning transfer the handle: the target has it then, also if it is the source, the source, if it is another
object, has none, and what the target had before is closed. -/
theorem C180_assign {s : State} (h : Reach s) (e x y : Nat) (old v : H) (hy : s.objs y = some v) (hx : s.objs x = some old) :
    let t := set e x (if x = y then .null else old) v (release y s)
    t.objs x = some v ∧ (x ≠ y → t.objs y = some .null ∧ ∀ n, old = .val n → n ∈ t.closed) ∧ (∀ z, z ≠ x → z ≠ y → t.objs z = s.objs z) ∧
    t.lastError = s.lastError := by
  intro t
  have hi := h.inv
  have hv : v ≠ .invalid := by rintro rfl; exact hi.valid y hy
  have ho : old ≠ .invalid := by rintro rfl; exact hi.valid x hx
  by_cases hxy : x = y
  · subst hxy
    rw [hy] at hx
    obtain rfl : v = old := Option.some.inj hx
    have ht : t = set e x .null v (release x s) := by simp only [t, if_true]
    rw [ht]
    cases v with
    | invalid => exact absurd rfl hv
    | null =>
      refine ⟨put_same .., fun h => absurd rfl h, fun z hz _ => put_other _ _ hz, rfl⟩
    | val n =>
      refine ⟨put_same .., fun h => absurd rfl h, fun z hz _ => ?_, rfl⟩
      show put (put s.objs x (some .null)) x _ z = _
      rw [put_other _ _ hz, put_other _ _ hz]
  · have ht : t = set e x old v (release y s) := by simp only [t, if_neg hxy]
    rw [ht]
    unfold Handle.set
    by_cases hov : old = v
    · rw [if_pos hov]
      cases v with
      | invalid => exact absurd rfl hv
      | val n => rw [hov] at hx; exact absurd (hi.objObj n x y hx hy) hxy
      | null =>
        refine ⟨?_, fun _ => ⟨put_same .., fun n hn => by rw [hov] at hn; cases hn⟩, fun z hz hz' => put_other _ _ hz', rfl⟩
        show put s.objs y _ x = _
        rw [put_other _ _ hxy, hx, hov]
    · rw [if_neg hov]
      cases old with
      | invalid => exact absurd rfl ho
      | null =>
        cases v with
        | invalid => exact absurd rfl hv
        | null => exact absurd rfl hov
        | val n =>
          refine ⟨put_same .., fun _ => ⟨?_, fun n hn => by cases hn⟩, fun z hz hz' => ?_, rfl⟩
          · show put (put s.objs y _) x _ y = _
            rw [put_other _ _ (Ne.symm hxy), put_same]
          · show put (put s.objs y _) x _ z = _
            rw [put_other _ _ hz, put_other _ _ hz']
      | val m =>
        cases v with
        | invalid => exact absurd rfl hv
        | null =>
          refine ⟨put_same .., fun _ => ⟨?_, fun n hn => ?_⟩, fun z hz hz' => ?_, rfl⟩
          · show put (put s.objs y _) x _ y = _
            rw [put_other _ _ (Ne.symm hxy), put_same]
          · cases hn
            show m ∈ s.closed ++ [m]
            simp
          · show put (put s.objs y _) x _ z = _
            rw [put_other _ _ hz, put_other _ _ hz']
        | val n =>
          refine ⟨put_same .., fun _ => ⟨?_, fun k hk => ?_⟩, fun z hz hz' => ?_, rfl⟩
          · show put (put (put s.objs y _) x _) x _ y = _
            rw [put_put, put_other _ _ (Ne.symm hxy), put_same]
          · cases hk
            show m ∈ s.closed ++ [m]
            simp
          · show put (put (put s.objs y _) x _) x _ z = _
            rw [put_put, put_other _ _ hz, put_other _ _ hz']

/-- C180: `Set` does not change the last error, although it may close a handle. -/
theorem C180_last_error (e x : Nat) (old new : H) (s : State) : (set e x old new s).lastError = s.lastError := by
  unfold set; split <;> rfl

/-- Two objects, a move, an assignment onto a handle, and the end. -/
example : ∃ s, Reach s ∧ s.all = [8, 7] ∧ s.closed = [8, 7] ∧ s.raw = [] ∧ s.objs 0 = none ∧ s.objs 1 = none := by
  refine ⟨_, .step (.step (.step (.step (.step (.step (.step .init (.open 7 (by decide))) (.open 8 (by decide)))
    (.make 0 0 (.val 7) rfl ?_)) (.make 0 1 (.val 8) rfl ?_)) (.assign 0 1 0 (.val 8) (.val 7) rfl rfl)) (.destroy 0 0 .null rfl))
    (.destroy 0 1 (.val 7) rfl), rfl, rfl, rfl, rfl, rfl⟩
  · intro n hn; cases hn; decide
  · intro n hn; cases hn; decide

end Verif.Util.Handle
