/-!
# When changes are picked up

Model of the times in the loop of `MultiSessionRunner::Run` (cdc_stream/multi_session.cc:208-281), of `OnFilesChanged` and `OnDirRecreated`
(cdc_stream/multi_session.cc:372-381) and of `Shutdown` (cdc_stream/multi_session.cc:125-143): which iteration hands collected changes to the updater, and
when the runner sleeps. What is done with the changes is the subject of C72 and of the models of the updater. Times are natural numbers of any unit;
`wait` is `wait_duration_`, `idle` the other time-out (cdc_stream/multi_session.cc:216-217). Time may pass at any place.
`mutex_` is held from the test at the beginning of an iteration to its end, except while the runner sleeps; `AwaitWithTimeout` returns at once if its
condition holds.
-/

namespace Verif.Stream.WatchTimes

/-! ## Model -/

inductive Pc where
  /-- before an iteration -/
  | top
  /-- in `AwaitWithTimeout`, up to this time -/
  | sleeping (deadline : Nat)
  /-- in `UpdateAll` (true) or `Update`, or printing the statistics -/
  | updating (all : Bool)
  | stopped
deriving DecidableEq, Repr

/-- Changes handed to the updater: when the first of them was notified, whether the runner was asleep then, and when they were handed over. -/
structure Pick where
  first : Nat
  asleep : Bool
  time : Nat
deriving DecidableEq, Repr

structure State where
  now : Nat := 0
  /-- `files_changed_` -/
  changed : Bool := false
  /-- `dir_recreated_` -/
  recreated : Bool := false
  /-- `shutdown_` -/
  shutdown : Bool := false
  /-- when `files_changed_timer_` was reset -/
  timer : Nat := 0
  pc : Pc := .updating true
  /-- history: the first notification since changes were handed over, and whether the runner was asleep -/
  first : Option (Nat × Bool) := none
  /-- history: when the runner first looked after that -/
  seen : Option Nat := none
  picks : List Pick := []
  /-- history: how often the runner has looked -/
  looks : Nat := 0
deriving DecidableEq, Repr

/-- The runner has looked, history. -/
def State.look (s : State) : State :=
  { s with looks := s.looks + 1, seen := if s.changed then some (s.seen.getD s.now) else none }

/-- The rest of an iteration after waiting, cdc_stream/multi_session.cc:229-281, with `timer` as it is then: the decision, and where it goes on. -/
def State.decide (s : State) (wait : Nat) (timer : Nat) : State :=
  let s := { s.look with timer := timer }
  if s.shutdown then { s with pc := .stopped }
  else if !s.recreated && s.changed && (s.now - timer > wait : Bool) then
    { s with changed := false, timer := s.now, pc := .updating false, first := none, seen := none,
             picks := s.picks ++ [⟨(s.first.getD (s.now, false)).1, (s.first.getD (s.now, false)).2, s.now⟩] }
  else if s.recreated then { s with recreated := false, pc := .updating true }
  else { s with pc := .top }

/-- The runner makes a step. -/
inductive Runs (wait idle : Nat) : State → State → Prop where
  /-- `while (!shutdown_)`, 208 -/
  | stop {s} : s.pc = .top → s.shutdown = true → Runs wait idle s { s with pc := .stopped }
  /-- an iteration in which the condition to wait for holds already, 212-281. The timer is reset if nothing had changed, 220-222. -/
  | go {s} : s.pc = .top → (s.changed = true ∨ s.recreated = true ∨ s.shutdown = true) →
      Runs wait idle s (s.decide wait (if s.changed then s.timer else s.now))
  /-- otherwise it sleeps, 220-226 -/
  | sleep {s} : s.pc = .top → s.changed = false → s.recreated = false → s.shutdown = false →
      Runs wait idle s { s with timer := s.now, pc := .sleeping (s.now + idle) }
  /-- it wakes up, 226-230: the timer is reset if something has changed meanwhile -/
  | wake {s d} : s.pc = .sleeping d → (s.changed = true ∨ s.recreated = true ∨ s.shutdown = true ∨ d ≤ s.now) →
      Runs wait idle s (s.decide wait (if s.changed then s.now else s.timer))
  | updated {s all} : s.pc = .updating all → Runs wait idle s { s with pc := .top }

def isSleeping : Pc → Bool
  | .sleeping _ => true
  | _ => false

/-- A step of the runner or of the others. -/
inductive Step (wait idle : Nat) : State → State → Prop where
  | run {s t} : Runs wait idle s t → Step wait idle s t
  | time {s} (n : Nat) : Step wait idle s { s with now := s.now + n }
  /-- `OnFilesChanged` -/
  | change {s} : Step wait idle s { s with changed := true, first := some (s.first.getD (s.now, isSleeping s.pc)) }
  /-- `OnDirRecreated` -/
  | recreate {s} : Step wait idle s { s with recreated := true }
  | shutdown {s} : Step wait idle s { s with shutdown := true }

inductive Reachable (wait idle : Nat) : State → Prop where
  /-- the runner has started to watch and updates the manifest for the first time, 176-206 -/
  | init : Reachable wait idle {}
  | step {s t} : Reachable wait idle s → Step wait idle s t → Reachable wait idle t

/-! ## Specification -/

/-- There are changes not handed over, and the runner knows it since `c`. -/
def Waiting (s : State) (c : Nat) : Prop := s.changed = true ∧ s.seen = some c

/-! ## Proof -/

structure Inv (wait : Nat) (s : State) : Prop where
  first : s.changed = true ↔ s.first ≠ none
  firstNow : ∀ f b, s.first = some (f, b) → f ≤ s.now
  timer : s.timer ≤ s.now
  seen : ∀ c, s.seen = some c → s.changed = true ∧ s.timer ≤ c ∧ c ≤ s.now
  /-- a sleeper has not looked; and what came while it slept is measured from later on -/
  asleep : ∀ d, s.pc = .sleeping d → s.seen = none
  settled : ∀ f, s.first = some (f, true) → f ≤ s.timer ∨ isSleeping s.pc = true
  picks : ∀ p ∈ s.picks, p.first ≤ p.time ∧ (p.asleep = true → p.first + wait < p.time)

theorem inv_decide {wait : Nat} {s : State} (h : Inv wait s) (timer : Nat) (h1 : timer ≤ s.now)
    (h2 : ∀ c, s.seen = some c → timer ≤ c) (h3 : ∀ f, s.first = some (f, true) → f ≤ timer) : Inv wait (s.decide wait timer) := by
  obtain ⟨a1, a2, a3, a4, a5, a6, a7⟩ := h
  have hseen : ∀ c, s.look.seen = some c → s.changed = true ∧ timer ≤ c ∧ c ≤ s.now := by
    intro c hc
    unfold State.look at hc
    dsimp only at hc
    split at hc
    · rename_i hch
      cases hs : s.seen with
      | none => rw [hs] at hc; injection hc with hc; dsimp [Option.getD] at hc; exact ⟨hch, by omega, by omega⟩
      | some c' =>
        rw [hs] at hc; injection hc with hc; dsimp [Option.getD] at hc
        subst hc
        exact ⟨hch, h2 _ hs, (a4 _ hs).2.2⟩
    · cases hc
  unfold State.decide
  dsimp only
  split
  · exact ⟨a1, a2, h1, hseen, (by intro d hd; cases hd), fun f hf => .inl (h3 f hf), a7⟩
  · split
    · rename_i hp
      refine ⟨by simp, (by intro f b hf; cases hf), Nat.le_refl _, (by intro c hc; cases hc), (by intro d hd; cases hd), (by intro f hf; cases hf), ?_⟩
      intro p hp'
      rcases List.mem_append.1 hp' with hp' | hp'
      · exact a7 p hp'
      · rw [List.mem_singleton] at hp'
        subst hp'
        have hw : s.now - timer > wait := by
          simp only [Bool.and_eq_true, decide_eq_true_eq] at hp
          exact hp.2
        show ((s.first.getD (s.now, false)).1 ≤ s.now) ∧ ((s.first.getD (s.now, false)).2 = true → (s.first.getD (s.now, false)).1 + wait < s.now)
        rcases hf : s.first with _ | ⟨f, b⟩
        · exact ⟨Nat.le_refl _, fun hb => by cases hb⟩
        · refine ⟨a2 f b hf, fun hb => ?_⟩
          dsimp [Option.getD] at hb ⊢
          subst hb
          have := h3 f hf
          omega
    · split
      · exact ⟨a1, a2, h1, hseen, (by intro d hd; cases hd), fun f hf => .inl (h3 f hf), a7⟩
      · exact ⟨a1, a2, h1, hseen, (by intro d hd; cases hd), fun f hf => .inl (h3 f hf), a7⟩

theorem inv_step {wait idle : Nat} {s t : State} (h : Inv wait s) (hs : Step wait idle s t) : Inv wait t := by
  have h' := h
  obtain ⟨a1, a2, a3, a4, a5, a6, a7⟩ := h
  cases hs with
  | run hr =>
    cases hr with
    | stop hp _ => exact ⟨a1, a2, a3, a4, (by intro d hd; cases hd), fun f hf => .inl ((a6 f hf).elim id fun x => by rw [hp] at x; cases x), a7⟩
    | go hp hc =>
      apply inv_decide h'
      · split <;> omega
      · intro c hc'
        rw [if_pos (a4 c hc').1]
        exact (a4 c hc').2.1
      · intro f hf
        rw [if_pos (a1.2 (by rw [hf]; simp))]
        rcases a6 f hf with x | x
        · exact x
        · rw [hp] at x; cases x
    | sleep hp hc hr hsd =>
      have hfn : s.first = none := by
        rcases hf : s.first with _ | x
        · rfl
        · have := a1.2 (by rw [hf]; simp)
          rw [hc] at this; cases this
      have hsn : s.seen = none := by
        rcases hf : s.seen with _ | x
        · rfl
        · have := (a4 x hf).1
          rw [hc] at this; cases this
      refine ⟨a1, a2, Nat.le_refl _, ?_, ?_, ?_, a7⟩
      · intro c hc'; rw [show ({ s with timer := s.now, pc := Pc.sleeping (s.now + idle) } : State).seen = s.seen from rfl, hsn] at hc'; cases hc'
      · intro d _; exact hsn
      · intro f hf; exact .inr rfl
    | @wake d hp hc =>
      apply inv_decide h'
      · split <;> omega
      · intro c hc'
        rw [a5 d hp] at hc'; cases hc'
      · intro f hf
        rw [if_pos (a1.2 (by rw [hf]; simp))]
        exact a2 f true hf
    | updated hp => exact ⟨a1, a2, a3, a4, (by intro d hd; cases hd), fun f hf => .inl ((a6 f hf).elim id fun x => by rw [hp] at x; cases x), a7⟩
  | time n =>
    refine ⟨a1, fun f b hf => Nat.le_trans (a2 f b hf) (Nat.le_add_right _ _), Nat.le_trans a3 (Nat.le_add_right _ _), ?_, a5, a6, a7⟩
    intro c hc
    exact ⟨(a4 c hc).1, (a4 c hc).2.1, Nat.le_trans (a4 c hc).2.2 (Nat.le_add_right _ _)⟩
  | change =>
    refine ⟨by simp, ?_, a3, fun c hc => ⟨rfl, (a4 c hc).2⟩, a5, ?_, a7⟩
    · intro f b hf
      injection hf with hf
      rcases hx : s.first with _ | x
      · rw [hx] at hf; injection hf with h1 _; subst h1; exact Nat.le_refl _
      · rw [hx] at hf; exact a2 f b (by rw [hx]; exact congrArg some hf)
    · intro f hf
      injection hf with hf
      rcases hx : s.first with _ | x
      · rw [hx] at hf; injection hf with _ h2; exact .inr h2
      · rw [hx] at hf; exact a6 f (by rw [hx]; exact congrArg some hf)
  | recreate => exact ⟨a1, a2, a3, a4, a5, a6, a7⟩
  | shutdown => exact ⟨a1, a2, a3, a4, a5, a6, a7⟩

theorem inv {wait idle : Nat} {s : State} (h : Reachable wait idle s) : Inv wait s := by
  induction h with
  | init =>
    exact ⟨by simp, (by intro f b hf; cases hf), Nat.le_refl _, (by intro c hc; cases hc), (by intro d hd; cases hd), (by intro f hf; cases hf), (by intro p hp; cases hp)⟩
  | step _ hs ih => exact inv_step ih hs

/-- **C209** (partial) Changes are left alone for a while: if the runner was asleep when the first of them was notified, they are handed over more than
`wait` after that. Missing: changes notified while the runner was awake (`C209_early_violated`). -/
theorem C209_settled_partial {wait idle : Nat} {s : State} (h : Reachable wait idle s) : ∀ p ∈ s.picks, p.first ≤ p.time ∧ (p.asleep = true → p.first + wait < p.time) :=
  (inv h).picks

/-- **C209** And not longer, also if files change all the time: when the runner looks more than `wait` after it first saw a change, it hands over all changes
(or is told to shut down, or reads the whole directory again). -/
theorem C209_prompt {wait idle : Nat} {s t : State} (h : Reachable wait idle s) {c : Nat} (hw : Waiting s c) (hc : c + wait < s.now) (hp : s.pc = .top)
    (hr : Runs wait idle s t) :
    (s.shutdown = true ∧ t.pc = .stopped) ∨ (s.shutdown = false ∧ s.recreated = true ∧ t.pc = .updating true) ∨
      (t.pc = .updating false ∧ t.changed = false ∧ ∃ p, t.picks = s.picks ++ [p] ∧ p.time = s.now) := by
  have hi := inv h
  have ht := (hi.seen c hw.2).2.1
  cases hr with
  | stop _ hs => exact .inl ⟨hs, rfl⟩
  | go _ hx =>
    rw [if_pos hw.1]
    unfold State.decide
    dsimp only
    rw [show (State.look s).shutdown = s.shutdown from rfl, show (State.look s).recreated = s.recreated from rfl, show (State.look s).changed = s.changed from rfl,
      show (State.look s).now = s.now from rfl, hw.1]
    cases hsd : s.shutdown with
    | true => left; exact ⟨rfl, rfl⟩
    | false =>
      cases hrc : s.recreated with
      | true => right; left; exact ⟨rfl, rfl, rfl⟩
      | false =>
        right; right
        have : (decide (s.now - s.timer > wait)) = true := by simp; omega
        rw [this]
        exact ⟨rfl, rfl, _, rfl, rfl⟩
  | sleep _ hx => rw [hw.1] at hx; cases hx
  | wake hx => rw [hp] at hx; cases hx
  | updated hx => rw [hp] at hx; cases hx

/-- **C209** No change is forgotten: as long as there are changes not handed over the runner does not go to sleep. -/
theorem C209_no_sleep {wait idle : Nat} {s t : State} (hc : s.changed = true) (hr : Runs wait idle s t) : isSleeping t.pc = false := by
  cases hr with
  | stop | updated => rfl
  | sleep _ hx => rw [hc] at hx; cases hx
  | go | wake =>
    unfold State.decide
    dsimp only
    split
    · rfl
    · split
      · rfl
      · split <;> rfl

/-- **C209** Once told to shut down the runner hands over nothing more, and stops when it looks next. -/
theorem C209_shutdown {wait idle : Nat} {s t : State} (hs : s.shutdown = true) (hr : Runs wait idle s t) :
    t.picks = s.picks ∧ t.shutdown = true ∧ (t.pc = .stopped ∨ (∃ all, s.pc = .updating all) ∧ t.pc = .top) := by
  cases hr with
  | stop => exact ⟨rfl, hs, .inl rfl⟩
  | updated hp => exact ⟨rfl, hs, .inr ⟨⟨_, hp⟩, rfl⟩⟩
  | sleep _ _ _ hx => rw [hs] at hx; cases hx
  | go | wake =>
    unfold State.decide
    dsimp only
    rw [show (State.look s).shutdown = s.shutdown from rfl, hs]
    exact ⟨rfl, rfl, .inl rfl⟩

/-! ### Violations -/

/-- While something was updated for `n + 1` longer than `wait`, a file began to change. -/
def early (wait n : Nat) : State :=
  { now := wait + n + 1, timer := wait + n + 1, pc := .updating false, picks := [⟨wait + n + 1, false, wait + n + 1⟩], looks := 1 }

/-- **C209** (violated) If a change is notified while the runner is updating (or has just finished), the time since the timer was last reset counts: it may
be handed over at once, in the moment it is notified. -/
theorem C209_early_violated (wait idle n : Nat) : Reachable wait idle (early wait n) ∧ ∃ p ∈ (early wait n).picks, p.time = p.first := by
  refine ⟨?_, _, List.mem_cons_self .., rfl⟩
  have h1 : Reachable wait idle { now := wait + n + 1, changed := true, first := some (wait + n + 1, false), pc := .top } := by
    have a : Reachable wait idle { now := 0 + (wait + n + 1) } := .step .init (.time _)
    rw [Nat.zero_add] at a
    exact .step (.step a .change) (.run (.updated rfl))
  have h2 := Reachable.step h1 (.run (.go rfl (.inl rfl)))
  have e : State.decide { now := wait + n + 1, changed := true, first := some (wait + n + 1, false), pc := .top } wait 0 = early wait n := by
    unfold State.decide State.look early
    dsimp only
    have : (decide (wait + n + 1 - 0 > wait)) = true := by simp; omega
    rw [this]
    rfl
  rw [if_pos rfl] at h2
  rw [e] at h2
  exact h2

/-- The runner has looked `n` times at a change that is too young. -/
def busy (n : Nat) : State := { changed := true, first := some (0, false), seen := if n = 0 then none else some 0, pc := .top, looks := n }

/-- **C209** (violated) While it waits for changes to settle the runner does not sleep: the condition it waits for holds already, so the time-out is never
used, and it may look any number of times without any time passing. -/
theorem C209_busy_violated (wait idle : Nat) : ∀ n, Reachable wait idle (busy n) ∧ (busy n).now = 0 ∧ (busy n).picks = [] := by
  intro n
  refine ⟨?_, rfl, rfl⟩
  induction n with
  | zero => exact .step (.step .init .change) (.run (.updated rfl))
  | succ n ih =>
    have h := Reachable.step ih (.run (.go rfl (.inl rfl)))
    rw [if_pos (show (busy n).changed = true from rfl)] at h
    have e : (busy n).decide wait (busy n).timer = busy (n + 1) := by
      unfold State.decide State.look busy
      dsimp only
      have : (decide (0 - 0 > wait)) = false := by simp
      rw [this]
      cases n <;> rfl
    rw [e] at h
    exact h

/-! ### Example: with a wait of 5, a change at 10 while the runner sleeps is seen at 12 and handed over at 18 -/

example : ∃ s, Reachable 5 100 s ∧ s.picks = [⟨10, true, 18⟩] := by
  refine ⟨_, .step (.step (.step (.step (.step (.step (.step (.step .init (.run (.updated rfl))) (.run (.sleep rfl rfl rfl rfl))) (.time 10)) .change) (.time 2))
    (.run (.wake rfl (.inl rfl)))) (.time 6)) (.run (.go rfl (.inl rfl))), by decide⟩

example : ∃ s, Reachable 5 100 s ∧ Waiting s 12 ∧ 12 + 5 < s.now ∧ s.pc = .top := by
  refine ⟨_, .step (.step (.step (.step (.step (.step (.step .init (.run (.updated rfl))) (.run (.sleep rfl rfl rfl rfl))) (.time 10)) .change) (.time 2))
    (.run (.wake rfl (.inl rfl)))) (.time 6), ⟨by decide, by decide⟩, by decide, by decide⟩

end Verif.Stream.WatchTimes
