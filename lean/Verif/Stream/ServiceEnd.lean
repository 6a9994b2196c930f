/-!
# How the streaming service ends

Model of `BackgroundServiceImpl::Exit` and its destructor (cdc_stream/background_service_impl.cc:26-48), `SessionManagementServer::RunUntilShutdown` and
`Shutdown` (cdc_stream/session_management_server.cc:65-73) and the end of `StartServiceCommand::RunService` (cdc_stream/start_service_command.cc:123-151),
with the steps of all threads in any order. Of gRPC only what is documented is used: handlers of calls run in threads of their own, at the same time;
`Server::Shutdown()` without a deadline lets no call begin and returns after all calls are finished; `Server::Wait()` returns after that.
What the session manager does when it shuts down is the subject of C50, C63 and C100; here it succeeds or fails.
-/

namespace Verif.Stream.ServiceEnd

/-! ## Model -/

/-- Where the thread is that `Exit` started (background_service_impl.cc:44-45 with session_management_server.cc:67-73). -/
inductive Exit where
  | begun
  /-- `session_manager_->Shutdown()` has succeeded, 69-70 -/
  | sessionsStopped
  /-- inside of `server_->Shutdown()`, 71 -/
  | shuttingDown
  /-- about to call `server_->Wait()`, 72 -/
  | shutDown
  /-- after it, at the end of the function -/
  | waited
  /-- finished -/
  | ended
  /-- finished because the sessions could not be stopped, 69-70 -/
  | gaveUp
deriving DecidableEq, Repr

/-- Where the main thread is, start_service_command.cc:148-151. -/
inductive Main where
  /-- in `RunUntilShutdown` -/
  | waiting
  /-- it has returned -/
  | returned
  /-- `sm_server` has been destroyed, and `server_` with it; then `session_service`. Next is the destructor of `background_service`, which joins the thread -/
  | serverDestroyed
  /-- `background_service` and `session_manager` have been destroyed -/
  | exited
deriving DecidableEq, Repr

structure State where
  /-- calls of `Exit` that have not yet looked at `exit_thread_` -/
  entered : Nat := 0
  /-- calls of `Exit` that have seen no thread and are about to start one -/
  checked : Nat := 0
  /-- other calls that are being answered -/
  others : Nat := 0
  /-- `exit_thread_` -/
  thread : Option Exit := none
  /-- the server lets no call begin -/
  closed : Bool := false
  /-- what `Wait` waits for -/
  notified : Bool := false
  main : Main := .waiting
  /-- `std::terminate` has been called: a `std::thread` was destroyed that had not been joined -/
  terminated : Bool := false
  /-- `server_` was used after it had been destroyed -/
  useAfterDestruction : Bool := false
  /-- the end of a function that returns a status was reached without `return` -/
  noReturn : Bool := false
  /-- history: a call of `Exit` began while another was being answered -/
  overlap : Bool := false
  /-- history: how many threads were started -/
  started : Nat := 0
deriving DecidableEq, Repr

/-- One step of one thread. -/
inductive Step : State → State → Prop where
  /-- a client calls `Exit` -/
  | exitCall {s} : s.terminated = false → s.closed = false →
      Step s { s with entered := s.entered + 1, overlap := s.overlap || decide (0 < s.entered + s.checked) }
  | otherCall {s} : s.terminated = false → s.closed = false → Step s { s with others := s.others + 1 }
  | otherDone {s} : s.terminated = false → 0 < s.others → Step s { s with others := s.others - 1 }
  /-- `if (exit_callback_ && !exit_thread_)`, background_service_impl.cc:41: no thread yet -/
  | checkNone {s} : s.terminated = false → 0 < s.entered → s.thread = none → Step s { s with entered := s.entered - 1, checked := s.checked + 1 }
  /-- there is one; the call is answered -/
  | checkSome {s} : s.terminated = false → 0 < s.entered → s.thread ≠ none → Step s { s with entered := s.entered - 1 }
  /-- background_service_impl.cc:44-47, the first time -/
  | start {s} : s.terminated = false → 0 < s.checked → s.thread = none →
      Step s { s with checked := s.checked - 1, thread := some .begun, started := s.started + 1 }
  /-- the same, but `exit_thread_` is no longer empty: the old `std::thread` is destroyed -/
  | startAgain {s} : s.terminated = false → 0 < s.checked → s.thread ≠ none →
      Step s { s with checked := s.checked - 1, terminated := true, started := s.started + 1 }
  | stopSessions {s} : s.terminated = false → s.thread = some .begun → Step s { s with thread := some .sessionsStopped }
  | giveUp {s} : s.terminated = false → s.thread = some .begun → Step s { s with thread := some .gaveUp }
  | shutdown {s} : s.terminated = false → s.thread = some .sessionsStopped → Step s { s with thread := some .shuttingDown, closed := true }
  | shutdownDone {s} : s.terminated = false → s.thread = some .shuttingDown → s.entered = 0 → s.checked = 0 → s.others = 0 →
      Step s { s with thread := some .shutDown, notified := true }
  | wait {s} : s.terminated = false → s.thread = some .shutDown →
      Step s { s with thread := some .waited, useAfterDestruction := s.useAfterDestruction || decide (s.main = .serverDestroyed) }
  | flowOff {s} : s.terminated = false → s.thread = some .waited → Step s { s with thread := some .ended, noReturn := true }
  | mainReturns {s} : s.terminated = false → s.main = .waiting → s.notified = true → Step s { s with main := .returned }
  | destroyServer {s} : s.terminated = false → s.main = .returned → Step s { s with main := .serverDestroyed }
  /-- `exit_thread_->join()`, background_service_impl.cc:27-30 -/
  | join {s} : s.terminated = false → s.main = .serverDestroyed → s.thread = some .ended ∨ s.thread = some .gaveUp ∨ s.thread = none →
      Step s { s with main := .exited }

/-- What can be reached. -/
inductive Steps : State → State → Prop where
  | refl {s} : Steps s s
  | step {s t u} : Steps s t → Step t u → Steps s u

/-- The service runs, nobody has called it. -/
def init : State := {}

def Reachable (s : State) : Prop := Steps init s

/-! ## Specification -/

/-- The thread that stops the service has not failed and is not finished. -/
def Stopping (s : State) : Prop := s.thread ≠ none ∧ s.thread ≠ some .gaveUp

/-- Nothing went wrong: no `std::terminate`, nothing used after its destruction, no undefined behaviour. -/
def Clean (s : State) : Prop := s.terminated = false ∧ s.useAfterDestruction = false ∧ s.noReturn = false

instance (s : State) : Decidable (Clean s) := by unfold Clean; infer_instance

/-- The sessions have been stopped. -/
def SessionsStopped (s : State) : Prop := ∃ e, s.thread = some e ∧ e ≠ .begun ∧ e ≠ .gaveUp

/-- All calls have been answered and no call can begin. -/
def Quiet (s : State) : Prop := s.entered = 0 ∧ s.checked = 0 ∧ s.others = 0 ∧ s.closed = true

/-! ## Proof -/

def late : Option Exit → Bool
  | some .shutDown | some .waited | some .ended => true
  | _ => false

structure Inv (s : State) : Prop where
  closed : s.closed = true ↔ s.thread = some .shuttingDown ∨ late s.thread = true
  notified : s.notified = true ↔ late s.thread = true
  quiet : late s.thread = true → s.entered = 0 ∧ s.checked = 0 ∧ s.others = 0
  main : s.main ≠ .waiting → s.notified = true
  noRet : s.noReturn = true ↔ s.thread = some .ended
  uad : s.useAfterDestruction = true → s.main = .serverDestroyed ∨ s.main = .exited
  ex : s.main = .exited → s.thread = some .ended
  term : s.terminated = true → s.overlap = true ∧ 1 < s.started
  one : s.overlap = false → s.entered + s.checked ≤ 1 ∧ (s.thread ≠ none → s.checked = 0)
  count : s.terminated = false → s.started = if s.thread = none then 0 else 1

theorem inv_init : Inv init := by
  constructor <;> simp [init, late]

theorem inv_step {s t : State} (h : Inv s) (hs : Step s t) : Inv t := by
  obtain ⟨h1, h2, h3, h4, h5, h6, h7, h8, h9, h10⟩ := h
  cases hs <;> constructor <;> first | assumption | grind [late]

theorem inv {s : State} (h : Reachable s) : Inv s := by
  unfold Reachable at h
  induction h with
  | refl => exact inv_init
  | step _ hs ih => exact inv_step ih hs

theorem Steps.trans {s t u : State} (h : Steps s t) (h' : Steps t u) : Steps s u := by
  induction h' with
  | refl => exact h
  | step _ hs ih => exact .step ih hs

theorem Steps.one {s t : State} (h : Step s t) : Steps s t := .step .refl h

/-- **C208** (partial) Whatever clients call and in whatever order the threads run: `RunUntilShutdown` returns only after the sessions were stopped, all calls
were answered and no call can begin any more; the process goes on to its end only after the thread that stops it has finished. Missing: that nothing goes
wrong in this (next theorems). -/
theorem C208_end_partial {s : State} (h : Reachable s) :
    (s.main ≠ .waiting → SessionsStopped s ∧ Quiet s) ∧ (s.main = .exited → s.thread = some .ended) := by
  obtain ⟨h1, h2, h3, h4, h5, h6, h7, h8, h9, h10⟩ := inv h
  refine ⟨fun hm => ?_, h7⟩
  have hl := h2.1 (h4 hm)
  refine ⟨?_, ?_⟩
  · unfold SessionsStopped
    rcases hth : s.thread with _ | e
    · rw [hth] at hl; cases hl
    · refine ⟨e, rfl, ?_, ?_⟩ <;> rintro rfl <;> rw [hth] at hl <;> cases hl
  · exact ⟨(h3 hl).1, (h3 hl).2.1, (h3 hl).2.2, h1.2 (.inr hl)⟩

/-- **C208** (partial) As long as no two calls of `Exit` overlap, one thread is started and the process is not terminated. -/
theorem C208_one_thread_partial {s : State} (h : Reachable s) (ho : s.overlap = false) : s.terminated = false ∧ s.started ≤ 1 := by
  obtain ⟨h1, h2, h3, h4, h5, h6, h7, h8, h9, h10⟩ := inv h
  have ht : s.terminated = false := by
    cases hb : s.terminated with
    | false => rfl
    | true => rw [(h8 hb).1] at ho; cases ho
  refine ⟨ht, ?_⟩
  rw [h10 ht]
  split <;> omega

/-- The calls being answered can be finished, unless that terminates the process. -/
theorem drain (n : Nat) : ∀ s : State, s.entered + s.checked + s.others = n → s.terminated = false → s.thread = some .shuttingDown → s.checked = 0 →
    ∃ t, Steps s t ∧ t = { s with entered := 0, others := 0 } := by
  induction n with
  | zero =>
    intro s hn ht hth hc
    refine ⟨s, .refl, ?_⟩
    have h1 : s.entered = 0 := by omega
    have h2 : s.others = 0 := by omega
    cases s
    simp_all
  | succ n ih =>
    intro s hn ht hth hc
    by_cases he : 0 < s.entered
    · obtain ⟨t, h1, h2⟩ := ih { s with entered := s.entered - 1 } (by dsimp only; omega) ht hth hc
      exact ⟨t, Steps.trans (.one (.checkSome ht he (by rw [hth]; simp))) h1, h2⟩
    · obtain ⟨t, h1, h2⟩ := ih { s with others := s.others - 1 } (by dsimp only; omega) ht hth hc
      refine ⟨t, Steps.trans (.one (.otherDone ht (by omega))) h1, ?_⟩
      rw [h2]

theorem finish_main {s : State} (hi : Inv s) (ht : s.terminated = false) (hth : s.thread = some .ended) : ∃ t, Steps s t ∧ t.main = .exited := by
  have hn : s.notified = true := hi.notified.2 (by rw [hth]; rfl)
  cases hm : s.main with
  | waiting =>
    exact ⟨_, .step (.step (.step .refl (.mainReturns ht hm hn)) (.destroyServer ht rfl)) (.join ht rfl (.inl hth)), rfl⟩
  | returned => exact ⟨_, .step (.step .refl (.destroyServer ht hm)) (.join ht rfl (.inl hth)), rfl⟩
  | serverDestroyed => exact ⟨_, .step .refl (.join ht hm (.inl hth)), rfl⟩
  | exited => exact ⟨s, .refl, hm⟩

theorem finish_late {s : State} (hi : Inv s) (ht : s.terminated = false) (hth : late s.thread = true) : ∃ t, Steps s t ∧ t.main = .exited := by
  have go {t : State} (h : Steps s t) (hi : Inv t) (ht : t.terminated = false) (he : t.thread = some .ended) : ∃ t, Steps s t ∧ t.main = .exited := by
    obtain ⟨u, h1, h2⟩ := finish_main hi ht he
    exact ⟨u, h.trans h1, h2⟩
  rcases hth' : s.thread with _ | e
  · rw [hth'] at hth; cases hth
  · cases e <;> rw [hth'] at hth <;> try (cases hth; done)
    · have s1 := Step.wait ht hth'
      have i1 := inv_step hi s1
      exact go (.step (.one s1) (.flowOff ht rfl)) (inv_step i1 (.flowOff ht rfl)) ht rfl
    · have s1 := Step.flowOff ht hth'
      exact go (.one s1) (inv_step hi s1) ht rfl
    · exact finish_main hi ht hth'

theorem finish_shutting {s : State} (hi : Inv s) (ht : s.terminated = false) (hth : s.thread = some .shuttingDown) (hc : s.checked = 0) :
    ∃ t, Steps s t ∧ t.main = .exited := by
  obtain ⟨t, h1, rfl⟩ := drain _ s rfl ht hth hc
  have i1 : Inv { s with entered := 0, others := 0 } := by
    obtain ⟨h1, h2, h3, h4, h5, h6, h7, h8, h9, h10⟩ := hi
    constructor <;> first | assumption | grind [late]
  have s2 : Step { s with entered := 0, others := 0 } { s with entered := 0, others := 0, thread := some .shutDown, notified := true } :=
    .shutdownDone ht hth rfl hc rfl
  obtain ⟨u, h3, h4⟩ := finish_late (inv_step i1 s2) ht rfl
  exact ⟨u, (h1.trans (.one s2)).trans h3, h4⟩

/-- **C208** (partial) The threads never wait for each other for ever: once the thread that stops the service was started, and has not given up, the process
can come to its end from every state, whatever happened before. -/
theorem C208_no_deadlock_partial {s : State} (h : Reachable s) (ht : s.terminated = false) (hst : Stopping s) :
    ∃ t, Steps s t ∧ (t.main = .exited ∨ t.terminated = true) := by
  have hi := inv h
  by_cases hc : s.checked = 0
  · rcases hth : s.thread with _ | e
    · exact absurd hth hst.1
    · have three {t : State} (hs : Steps s t) (hi : Inv t) (ht : t.terminated = false) (he : t.thread = some .shuttingDown) (hc : t.checked = 0) :
          ∃ t, Steps s t ∧ (t.main = .exited ∨ t.terminated = true) := by
        obtain ⟨u, h1, h2⟩ := finish_shutting hi ht he hc
        exact ⟨u, hs.trans h1, .inl h2⟩
      cases e with
      | begun =>
        have s1 := Step.stopSessions ht hth
        have i1 := inv_step hi s1
        have s2 : Step _ _ := Step.shutdown (s := { s with thread := some .sessionsStopped }) ht rfl
        exact three (.step (.one s1) s2) (inv_step i1 s2) ht rfl hc
      | sessionsStopped =>
        have s2 := Step.shutdown ht hth
        exact three (.one s2) (inv_step hi s2) ht rfl hc
      | shuttingDown => exact three .refl hi ht hth hc
      | shutDown | waited | ended =>
        obtain ⟨u, h1, h2⟩ := finish_late hi ht (by rw [hth]; rfl)
        exact ⟨u, h1, .inl h2⟩
      | gaveUp => exact absurd hth hst.2
  · exact ⟨_, .one (.startAgain ht (by omega) hst.1), .inr rfl⟩

/-- What steps are left, not counting calls that have not begun. -/
def left (s : State) : Nat :=
  3 * s.entered + 2 * s.checked + s.others +
  (match s.thread with
    | none => 7 | some .begun => 6 | some .sessionsStopped => 5 | some .shuttingDown => 4 | some .shutDown => 3 | some .waited => 2 | some .ended => 1
    | some .gaveUp => 0) +
  (match s.main with
    | .waiting => 3 | .returned => 2 | .serverDestroyed => 1 | .exited => 0)

/-- **C208** (partial) Without further calls the threads make finitely many steps. -/
theorem C208_terminates_partial {s t : State} (h : Step s t) :
    t.entered = s.entered + 1 ∨ t.others = s.others + 1 ∨ left t < left s := by
  unfold left
  cases h <;> grind

/-- **C208** (violated) The service never ends cleanly: whenever the process comes to its end, a function that must return a status has ended without
returning one. -/
theorem C208_return_violated {s : State} (h : Reachable s) (he : s.main = .exited) : s.noReturn = true ∧ ¬ Clean s := by
  have hi := inv h
  have := hi.noRet.2 (hi.ex he)
  exact ⟨this, fun hc => by rw [hc.2.2] at this; cases this⟩

/-- After one call of `Exit`, when the main thread is faster than the one that stops the service. -/
def race : State :=
  { thread := some .waited, closed := true, notified := true, main := .serverDestroyed, useAfterDestruction := true, started := 1 }

/-- **C208** (violated) Even with one call of `Exit` only, and before that end: the main thread may destroy the server before the other thread has called
`Wait` on it. -/
theorem C208_race_violated : Reachable race ∧ race.overlap = false ∧ race.started = 1 ∧ ¬ Clean race := by
  refine ⟨?_, rfl, rfl, by decide⟩
  refine .step (.step (.step (.step (.step (.step (.step (.step (.step .refl (.exitCall rfl rfl)) (.checkNone rfl (by decide) rfl)) (.start rfl (by decide) rfl))
    (.stopSessions rfl rfl)) (.shutdown rfl rfl)) (.shutdownDone rfl rfl rfl rfl rfl)) (.mainReturns rfl rfl rfl)) (.destroyServer rfl rfl)) (.wait rfl rfl)

/-- After two calls of `Exit` at the same time. -/
def twice : State := { thread := some .begun, terminated := true, overlap := true, started := 2 }

/-- **C208** (violated) Two calls of `Exit` at the same time may terminate the process, while everything is still streamed. -/
theorem C208_overlap_violated : Reachable twice ∧ ¬ SessionsStopped twice ∧ ¬ Clean twice := by
  refine ⟨?_, ?_, by decide⟩
  · exact .step (.step (.step (.step (.step (.step .refl (.exitCall rfl rfl)) (.exitCall rfl rfl)) (.checkNone rfl (by decide) rfl))
      (.checkNone rfl (by decide) rfl)) (.start rfl (by decide) rfl)) (.startAgain rfl (by decide) (by decide))
  · rintro ⟨e, he, h1, _⟩
    cases he
    exact h1 rfl

/-! ### Example: one call, the main thread slower -/

def done : State := { thread := some .ended, closed := true, notified := true, main := .exited, noReturn := true, started := 1 }

example : Reachable done ∧ done.main = .exited ∧ done.overlap = false ∧ Quiet done := by
  refine ⟨?_, rfl, rfl, ⟨rfl, rfl, rfl, rfl⟩⟩
  exact .step (.step (.step (.step (.step (.step (.step (.step (.step (.step (.step .refl (.exitCall rfl rfl)) (.checkNone rfl (by decide) rfl))
    (.start rfl (by decide) rfl)) (.stopSessions rfl rfl)) (.shutdown rfl rfl)) (.shutdownDone rfl rfl rfl rfl rfl)) (.wait rfl rfl)) (.flowOff rfl rfl))
    (.mainReturns rfl rfl rfl)) (.destroyServer rfl rfl)) (.join rfl rfl (.inl rfl))

example : Stopping { thread := some .begun, started := 1 } ∧ Reachable { thread := some .begun, started := 1 } := by
  refine ⟨⟨by decide, by decide⟩, ?_⟩
  exact .step (.step (.step .refl (.exitCall rfl rfl)) (.checkNone rfl (by decide) rfl)) (.start rfl (by decide) rfl)

end Verif.Stream.ServiceEnd
