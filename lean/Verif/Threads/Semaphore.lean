/-
Model of the semaphore (common/semaphore.cc:19-33, common/semaphore.h): `std::mutex`,
`std::condition_variable`, `int count_`.

`condition_.wait(lock, pred)` is `while (!pred()) condition_.wait(lock)`: a caller that finds the
count not positive gives up the mutex and joins the condition variable's wait set in one step; a
notified thread (or one woken spuriously, which the C++ standard allows) leaves the wait set, takes
the mutex again later and re-checks.  Every stretch with the mutex held is one atomic step.

`count_` is an unbounded integer here; the code's `int` overflows after 2^31 unmatched signals
(not modelled).  `waits` and `signals` are history: completed calls.
-/
namespace Verif.Threads.Semaphore

/-- A thread using the semaphore. -/
inductive Th where
  /-- not inside `Wait` -/
  | idle
  /-- in the condition variable's wait set -/
  | blocked
  /-- notified or woken spuriously, has not taken the mutex again yet -/
  | woken
deriving DecidableEq, Repr

structure State where
  /-- `count_` -/
  count : Int
  /-- the threads -/
  ths : List Th
  /-- completed calls of `Wait` -/
  waits : Nat := 0
  /-- completed calls of `Signal` -/
  signals : Nat := 0

/-- The constructor (semaphore.cc:19) with any number of threads around. -/
def init (c : Int) (n : Nat) : State := { count := c, ths := List.replicate n .idle }

inductive Step : State → State → Prop where
  /-- `Wait` finds a permit right away (lines 24-26) -/
  | waitFast (s : State) (a b : List Th) (h : s.ths = a ++ .idle :: b) (hc : s.count > 0) :
      Step s { s with count := s.count - 1, waits := s.waits + 1 }
  /-- `Wait` finds none and joins the wait set (lines 24-25) -/
  | waitBlock (s : State) (a b : List Th) (h : s.ths = a ++ .idle :: b) (hc : ¬ s.count > 0) :
      Step s { s with ths := a ++ .blocked :: b }
  /-- a woken waiter takes the mutex, finds a permit and returns (lines 25-26) -/
  | pass (s : State) (a b : List Th) (h : s.ths = a ++ .woken :: b) (hc : s.count > 0) :
      Step s { s with count := s.count - 1, ths := a ++ .idle :: b, waits := s.waits + 1 }
  /-- a woken waiter takes the mutex, finds none and waits again (line 25) -/
  | again (s : State) (a b : List Th) (h : s.ths = a ++ .woken :: b) (hc : ¬ s.count > 0) :
      Step s { s with ths := a ++ .blocked :: b }
  /-- spurious wakeup -/
  | spurious (s : State) (a b : List Th) (h : s.ths = a ++ .blocked :: b) :
      Step s { s with ths := a ++ .woken :: b }
  /-- `Signal` with a thread in the wait set: `notify_one` wakes one of them (lines 30-32) -/
  | signal (s : State) (a b : List Th) (h : s.ths = a ++ .blocked :: b) :
      Step s { s with count := s.count + 1, ths := a ++ .woken :: b, signals := s.signals + 1 }
  /-- `Signal` with nobody in the wait set: `notify_one` does nothing (lines 30-32) -/
  | signalNone (s : State) (h : .blocked ∉ s.ths) :
      Step s { s with count := s.count + 1, signals := s.signals + 1 }

inductive Reach (c : Int) (n : Nat) : State → Prop where
  | init : Reach c n (init c n)
  | step {s s'} : Reach c n s → Step s s' → Reach c n s'

structure Inv (c : Int) (s : State) : Prop where
  bal : s.count = c + s.signals - s.waits
  low : min c 0 ≤ s.count
  notify : .blocked ∈ s.ths → s.count ≤ s.ths.count .woken

theorem count_mid (x y : Th) (a b : List Th) :
    (a ++ x :: b).count y = a.count y + b.count y + (if x == y then 1 else 0) := by
  simp [List.count_append, List.count_cons]; omega

theorem inv {c : Int} {n : Nat} {s : State} (h : Reach c n s) : Inv c s := by
  induction h with
  | init =>
    refine ⟨by simp [init], by simp [init]; omega, ?_⟩
    intro hm
    have := List.eq_of_mem_replicate hm
    cases this
  | step _ st ih =>
    obtain ⟨h1, h2, h3⟩ := ih
    cases st with
    | waitFast a b hw hc =>
      refine ⟨?_, ?_, ?_⟩
      · simp only; omega
      · simp only; omega
      · intro hm
        simp only at hm ⊢
        have := h3 hm; omega
    | waitBlock a b hw hc =>
      refine ⟨h1, h2, fun _ => ?_⟩
      simp only; omega
    | pass a b hw hc =>
      refine ⟨?_, ?_, ?_⟩
      · simp only; omega
      · simp only; omega
      · intro hm
        have := h3 (by rw [hw]; simp at hm ⊢; exact hm)
        rw [hw] at this
        simp only [count_mid] at this ⊢
        simp at this ⊢; omega
    | again a b hw hc =>
      refine ⟨h1, h2, fun _ => ?_⟩
      simp only; omega
    | spurious a b hw =>
      refine ⟨h1, h2, fun hm => ?_⟩
      have := h3 (by rw [hw]; simp)
      rw [hw] at this
      simp only [count_mid] at this ⊢
      simp at this ⊢; omega
    | signal a b hw =>
      refine ⟨by simp only; omega, by simp only; omega, fun hm => ?_⟩
      have := h3 (by rw [hw]; simp)
      rw [hw] at this
      simp only [count_mid] at this ⊢
      simp at this ⊢; omega
    | signalNone hn =>
      exact ⟨by simp only; omega, by simp only; omega, fun hm => (hn hm).elim⟩

/-- **C48.**  At any time the number of completed waits is at most the initial count (zero if
negative) plus the number of signals; with nonnegative initial count the permits add up exactly. -/
theorem C48_permits {c : Int} {n : Nat} {s : State} (h : Reach c n s) :
    (s.waits : Int) ≤ max c 0 + s.signals ∧ (s.waits : Int) + s.count = c + s.signals := by
  have hi := inv h
  have := hi.bal; have := hi.low
  constructor <;> omega

/-- Is inside `Wait`. -/
def Waiting (s : State) : Prop := .blocked ∈ s.ths ∨ .woken ∈ s.ths

/-- **C48.**  No lost wakeup: whenever a permit is available and some thread is inside `Wait`, a
thread that is inside `Wait` has been woken and its next step completes its call. -/
theorem C48_no_lost_wakeup {c : Int} {n : Nat} {s : State} (h : Reach c n s) (hc : 0 < s.count)
    (hw : Waiting s) :
    ∃ a b, s.ths = a ++ .woken :: b ∧
      Step s { s with count := s.count - 1, ths := a ++ .idle :: b, waits := s.waits + 1 } := by
  have hm : Th.woken ∈ s.ths := by
    rcases hw with hb | hb
    · have := (inv h).notify hb
      exact List.count_pos_iff.mp (by omega)
    · exact hb
  obtain ⟨a, b, hab⟩ := List.append_of_mem hm
  exact ⟨a, b, hab, .pass s a b hab hc⟩

/-- **C48.**  A thread stays blocked only while no permit is left: if nobody woken is still on its
way, somebody in the wait set means the count is not positive.  In general the number of available
permits never exceeds the number of threads already woken while somebody is in the wait set. -/
theorem C48_blocked_only_without_permit {c : Int} {n : Nat} {s : State} (h : Reach c n s)
    (hb : .blocked ∈ s.ths) :
    s.count ≤ s.ths.count .woken ∧ (.woken ∉ s.ths → s.count ≤ 0) := by
  have hi := (inv h).notify hb
  refine ⟨hi, fun hw => ?_⟩
  have : s.ths.count .woken = 0 := List.count_eq_zero.mpr hw
  omega

/-- Steps of threads already inside `Wait`, without spurious wakeups. -/
inductive WakeStep : State → State → Prop where
  | pass {s s' : State} (a b : List Th) (h : s.ths = a ++ .woken :: b) (hc : s.count > 0)
      (e : s' = { s with count := s.count - 1, ths := a ++ .idle :: b, waits := s.waits + 1 }) :
      WakeStep s s'
  | again {s s' : State} (a b : List Th) (h : s.ths = a ++ .woken :: b) (hc : ¬ s.count > 0)
      (e : s' = { s with ths := a ++ .blocked :: b }) : WakeStep s s'

inductive WakeRun : State → Nat → State → Prop where
  | refl (s : State) : WakeRun s 0 s
  | step {s s' s'' : State} {k : Nat} : WakeStep s s' → WakeRun s' k s'' → WakeRun s (k + 1) s''

theorem wake_step {s s' : State} (h : WakeStep s s') : Step s s' ∧
    s'.ths.count .woken + 1 = s.ths.count .woken := by
  cases h with
  | pass a b h hc e =>
    subst e; refine ⟨.pass s a b h hc, ?_⟩
    rw [h]; simp only [count_mid]; simp
  | again a b h hc e =>
    subst e; refine ⟨.again s a b h hc, ?_⟩
    rw [h]; simp only [count_mid]; simp

theorem wake_run {c : Int} {n : Nat} {s s' : State} {k : Nat} (h : WakeRun s k s')
    (hr : Reach c n s) : Reach c n s' ∧ k + s'.ths.count .woken = s.ths.count .woken := by
  induction h with
  | refl => exact ⟨hr, by omega⟩
  | step st _ ih =>
    obtain ⟨h1, h2⟩ := wake_step st
    obtain ⟨h3, h4⟩ := ih (.step hr h1)
    exact ⟨h3, by omega⟩

/-- **C48.**  Without further calls the waiters settle: the woken ones finish after as many steps
as there are of them, and then, if a permit is left, no thread is inside `Wait`. -/
theorem C48_settles {c : Int} {n : Nat} {s s' : State} {k : Nat} (hr : Reach c n s)
    (h : WakeRun s k s') : k ≤ s.ths.count .woken ∧
    ((∀ s'', ¬ WakeStep s' s'') → 0 < s'.count → ¬ Waiting s') := by
  obtain ⟨h1, h2⟩ := wake_run h hr
  refine ⟨by omega, fun hst hc hw => ?_⟩
  obtain ⟨a, b, hab, _⟩ := C48_no_lost_wakeup h1 hc hw
  exact hst _ (.pass a b hab hc rfl)

/-- Two threads, one permit: the second blocks, a signal wakes it, a third party barges in and takes
the permit, the woken thread waits again, the next signal lets it through. -/
theorem example_reach : ∃ s, Reach 1 3 s ∧ s.waits = 3 ∧ s.signals = 2 ∧ s.count = 0 ∧
    s.ths = [.idle, .idle, .idle] := by
  refine ⟨_, .step (.step (.step (.step (.step (.step (.step .init
    (.waitFast _ [] [.idle, .idle] rfl (by decide)))
    (.waitBlock _ [.idle] [.idle] rfl (by decide)))
    (.signal _ [.idle] [.idle] rfl))
    (.waitFast _ [] [.woken, .idle] rfl (by decide)))
    (.again _ [.idle] [.idle] rfl (by decide)))
    (.signal _ [.idle] [.idle] rfl))
    (.pass _ [.idle] [.idle] rfl (by decide)), rfl, rfl, rfl, rfl⟩

/-- A reachable state where a thread is blocked and a permit is available (already promised to the
other, woken, thread). -/
theorem example_blocked : ∃ s, Reach 0 2 s ∧ .blocked ∈ s.ths ∧ 0 < s.count := by
  refine ⟨_, .step (.step (.step .init
    (.waitBlock _ [] [.idle] rfl (by decide)))
    (.waitBlock _ [.blocked] [] rfl (by decide)))
    (.signal _ [] [.blocked] rfl), by simp, by decide⟩

end Verif.Threads.Semaphore
