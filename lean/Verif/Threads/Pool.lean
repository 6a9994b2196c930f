/-
Model of the thread pool (common/threadpool.cc:19-142, common/threadpool.h:31-117).

Every block executed while a mutex is held is one atomic step; `absl::Mutex::Await`
gives the mutex up and takes it again when its condition holds, so the code before
and after an `Await` are separate steps, the second one enabled by the condition.
The pool's threads and any number of client threads interleave at these steps in
every possible way.

Tasks are numbers (the identity of the `Task` object owned by the unique_ptr).  What a task
does inside `ThreadRun` is not modelled, only that the call starts and returns.  The
fields `queued`, `started`, `ran`, `pushed`, `taken`, `dropped` are history that the code does
not store: they record what happened, no step depends on them.
-/
namespace Verif.Threads.Pool

/-- Where a worker is inside `ThreadWorkerMain` (threadpool.cc:100-142). -/
inductive Pc where
  /-- about to lock `task_queue_mutex_`; the flag is `task_finished` (lines 101-105) -/
  | ready (finished : Bool)
  /-- in `Await` for a task or shutdown (lines 116-119) -/
  | waiting
  /-- inside `task->ThreadRun` (lines 127-131) -/
  | running (t : Nat)
  /-- `ThreadRun` returned, about to lock `completed_tasks_mutex_` (line 134) -/
  | ran (t : Nat)
  /-- left the loop, thread finished (line 120) -/
  | stopped
deriving DecidableEq, Repr

/-- The pool (threadpool.h:104-116) plus history. -/
structure State where
  /-- `task_queue_` -/
  queue : List Nat := []
  /-- `outstanding_task_count_` -/
  out : Nat := 0
  /-- `shutdown_` -/
  shutdown : Bool := false
  /-- `completed_tasks_` -/
  completed : List Nat := []
  /-- `on_task_completed_` is set -/
  hasCb : Bool := false
  /-- the `workers_`, by where they are -/
  ws : List Pc := []
  /-- history: arguments of `QueueTask` in order -/
  queued : List Nat := []
  /-- history: tasks whose `ThreadRun` was entered, in order -/
  started : List Nat := []
  /-- history: tasks whose `ThreadRun` returned, in order -/
  ran : List Nat := []
  /-- history: tasks pushed to `completed_tasks_`, in order -/
  pushed : List Nat := []
  /-- history: tasks given to the completion callback, in order -/
  cbLog : List Nat := []
  /-- history: tasks returned by `TryGetCompletedTask`/`GetCompletedTask`, in order -/
  taken : List Nat := []
  /-- history: completed tasks discarded by `Shutdown`, in order -/
  dropped : List Nat := []

/-- The constructor: `n` threads at the top of `ThreadWorkerMain` (threadpool.cc:19-24, 101). -/
def init (n : Nat) : State := { ws := List.replicate n (.ready false) }

/-- Steps of the pool's own threads. -/
inductive WStep : State → State → Prop where
  /-- lines 105-113 -/
  | lock (s : State) (a b : List Pc) (f : Bool) (h : s.ws = a ++ .ready f :: b) :
      WStep s { s with ws := a ++ .waiting :: b, out := if f then s.out - 1 else s.out }
  /-- lines 119-124: the condition holds, not shut down, take the front of the queue -/
  | take (s : State) (a b : List Pc) (t : Nat) (q : List Nat) (h : s.ws = a ++ .waiting :: b)
      (hs : s.shutdown = false) (hq : s.queue = t :: q) :
      WStep s { s with ws := a ++ .running t :: b, queue := q, started := s.started ++ [t] }
  /-- line 120 -/
  | stop (s : State) (a b : List Pc) (h : s.ws = a ++ .waiting :: b) (hs : s.shutdown = true) :
      WStep s { s with ws := a ++ .stopped :: b }
  /-- lines 128-131: `ThreadRun` returns -/
  | run (s : State) (a b : List Pc) (t : Nat) (h : s.ws = a ++ .running t :: b) :
      WStep s { s with ws := a ++ .ran t :: b, ran := s.ran ++ [t] }
  /-- lines 134-140 without a callback -/
  | push (s : State) (a b : List Pc) (t : Nat) (h : s.ws = a ++ .ran t :: b)
      (hc : s.hasCb = false) :
      WStep s { s with ws := a ++ .ready true :: b, completed := s.completed ++ [t],
                       pushed := s.pushed ++ [t] }
  /-- lines 134-136, 140 with a callback -/
  | callback (s : State) (a b : List Pc) (t : Nat) (h : s.ws = a ++ .ran t :: b)
      (hc : s.hasCb = true) :
      WStep s { s with ws := a ++ .ready true :: b, cbLog := s.cbLog ++ [t] }

/-- What a call by a client thread returned. -/
inductive Ret where
  | queueTask
  | tryGet (r : Option Nat)
  | get (t : Nat)
  | wait
  | waitAtMost (count : Nat) (r : Bool)
  | setCallback
  | shutdownSignal
  | shutdownReturn

/-- Steps of client threads, labelled with the call and its result. -/
inductive CStep : Ret → State → State → Prop where
  /-- `QueueTask` (lines 55-59) -/
  | queueTask (s : State) (t : Nat) :
      CStep .queueTask s { s with out := s.out + 1, queue := s.queue ++ [t],
                                  queued := s.queued ++ [t] }
  /-- `TryGetCompletedTask` with nothing there (lines 61-66) -/
  | tryGetNone (s : State) (h : s.completed = []) : CStep (.tryGet none) s s
  /-- `TryGetCompletedTask` (lines 68-70) -/
  | tryGet (s : State) (t : Nat) (c : List Nat) (h : s.completed = t :: c) :
      CStep (.tryGet (some t)) s { s with completed := c, taken := s.taken ++ [t] }
  /-- `GetCompletedTask` returns (lines 73-83) -/
  | get (s : State) (t : Nat) (c : List Nat) (h : s.completed = t :: c) :
      CStep (.get t) s { s with completed := c, taken := s.taken ++ [t] }
  /-- `Wait` returns (lines 28-34) -/
  | wait (s : State) (h : s.out = 0) : CStep .wait s s
  /-- `WaitForQueuedTasksAtMost`: the condition held (lines 90-98) -/
  | atMost (s : State) (count : Nat) (h : s.shutdown = true ∨ s.out ≤ count) :
      CStep (.waitAtMost count (decide (s.out ≤ count))) s s
  /-- `WaitForQueuedTasksAtMost`: the timeout passed (line 96) -/
  | atMostTimeout (s : State) (count : Nat) (h : ¬(s.shutdown = true ∨ s.out ≤ count)) :
      CStep (.waitAtMost count false) s s
  /-- `SetTaskCompletedCallback` (lines 85-88) -/
  | setCallback (s : State) (b : Bool) : CStep .setCallback s { s with hasCb := b }
  /-- `Shutdown`, first block (lines 37-42) -/
  | signal (s : State) : CStep .shutdownSignal s { s with shutdown := true }
  /-- `Shutdown`: all threads joined, completed tasks discarded (lines 45-52) -/
  | joined (s : State) (hs : s.shutdown = true) (h : ∀ p ∈ s.ws, p = .stopped) :
      CStep .shutdownReturn s { s with completed := [], dropped := s.dropped ++ s.completed }

/-- One step of anybody. -/
inductive Step : State → State → Prop where
  | w {s s'} : WStep s s' → Step s s'
  | c {r s s'} : CStep r s s' → Step s s'

/-- Reachable from a new pool with `n` threads. -/
inductive Reach (n : Nat) : State → Prop where
  | init : Reach n (init n)
  | step {s s'} : Reach n s → Step s s' → Reach n s'

/-- Any number of steps of anybody. -/
inductive Run : State → State → Prop where
  | refl (s : State) : Run s s
  | step {s s' s'' : State} : Run s s' → Step s' s'' → Run s s''

/-! ### Counting workers -/

/-- The worker has a task it has taken and not yet accounted for. -/
def Pc.busy : Pc → Bool
  | .ready f => f
  | .running _ => true
  | .ran _ => true
  | _ => false

/-- The worker is inside `ThreadRun` of `t`. -/
def Pc.runs (t : Nat) : Pc → Bool
  | .running u => u == t
  | _ => false

/-- The worker has run `t` and not pushed it yet. -/
def Pc.holds (t : Nat) : Pc → Bool
  | .ran u => u == t
  | _ => false

def sgl (t u : Nat) : Nat := if u == t then 1 else 0

theorem count_snoc (t u : Nat) (l : List Nat) :
    (l ++ [u]).count t = l.count t + sgl t u := by
  simp [List.count_append, List.count_cons, sgl]

/-- The invariant. -/
structure Inv (n : Nat) (s : State) : Prop where
  len : s.ws.length = n
  fifo : s.started ++ s.queue = s.queued
  out : s.out = s.queue.length + s.ws.countP Pc.busy
  ran : ∀ t, s.started.count t = s.ran.count t + s.ws.countP (Pc.runs t)
  done : ∀ t, s.ran.count t =
    s.pushed.count t + s.cbLog.count t + s.ws.countP (Pc.holds t)
  handed : ∀ t, s.pushed.count t = s.taken.count t + s.completed.count t + s.dropped.count t
  order : s.dropped = [] → s.taken ++ s.completed = s.pushed
  dropShut : s.dropped ≠ [] → s.shutdown = true
  lens : s.started.length = s.ran.length + s.ws.countP (fun p => p matches .running _)
  lend : s.ran.length = s.pushed.length + s.cbLog.length +
    s.ws.countP (fun p => p matches .ran _)

theorem inv_init (n : Nat) : Inv n (init n) := by
  constructor <;> simp [init, List.countP_replicate, Pc.busy, Pc.runs, Pc.holds]

theorem countP_mid (p : Pc → Bool) (a b : List Pc) (x : Pc) :
    (a ++ x :: b).countP p = a.countP p + b.countP p + (if p x then 1 else 0) := by
  simp [List.countP_append, List.countP_cons]; omega

theorem inv_wstep {n : Nat} {s s' : State} (h : Inv n s) (st : WStep s s') : Inv n s' := by
  have ho := h.out
  have hr := h.ran
  have hd := h.done
  have hl := h.lens
  have hl2 := h.lend
  have hlen := h.len
  cases st with
  | lock a b f hw =>
    rw [hw] at ho hr hd hl hl2 hlen
    simp only [countP_mid] at ho hr hd hl hl2
    refine { h with len := ?_, out := ?_, ran := ?_, done := ?_, lens := ?_, lend := ?_ } <;>
      simp only [countP_mid]
    · simpa using hlen
    · cases f <;> simp_all [Pc.busy]
    · intro t; simpa [Pc.runs] using hr t
    · intro t; simpa [Pc.holds] using hd t
    · simpa using hl
    · simpa using hl2
  | take a b t q hw hs hq =>
    have hf := h.fifo
    rw [hw] at ho hr hd hl hl2 hlen
    rw [hq] at ho hf
    simp only [countP_mid] at ho hr hd hl hl2
    refine { h with len := ?_, fifo := ?_, out := ?_, ran := ?_, done := ?_, lens := ?_,
                    lend := ?_ } <;>
      simp only [countP_mid]
    · simpa using hlen
    · simpa using hf
    · simp [Pc.busy] at ho ⊢; omega
    · intro u
      have := hr u
      rw [count_snoc]
      simp [Pc.runs, sgl] at this ⊢; omega
    · intro t; simpa [Pc.holds] using hd t
    · simp at hl ⊢; omega
    · simpa using hl2
  | stop a b hw hs =>
    rw [hw] at ho hr hd hl hl2 hlen
    simp only [countP_mid] at ho hr hd hl hl2
    refine { h with len := ?_, out := ?_, ran := ?_, done := ?_, lens := ?_, lend := ?_ } <;>
      simp only [countP_mid]
    · simpa using hlen
    · simpa [Pc.busy] using ho
    · intro t; simpa [Pc.runs] using hr t
    · intro t; simpa [Pc.holds] using hd t
    · simpa using hl
    · simpa using hl2
  | run a b t hw =>
    rw [hw] at ho hr hd hl hl2 hlen
    simp only [countP_mid] at ho hr hd hl hl2
    refine { h with len := ?_, out := ?_, ran := ?_, done := ?_, lens := ?_, lend := ?_ } <;>
      simp only [countP_mid]
    · simpa using hlen
    · simpa [Pc.busy] using ho
    · intro u
      have := hr u
      rw [count_snoc]
      simp [Pc.runs, sgl] at this ⊢; omega
    · intro u
      have := hd u
      rw [count_snoc]
      simp [Pc.holds, sgl] at this ⊢; omega
    · simp at hl ⊢; omega
    · simp at hl2 ⊢; omega
  | push a b t hw hc =>
    rw [hw] at ho hr hd hl hl2 hlen
    simp only [countP_mid] at ho hr hd hl hl2
    refine { h with len := ?_, out := ?_, ran := ?_, done := ?_, handed := ?_, order := ?_,
                    lens := ?_, lend := ?_ } <;>
      simp only [countP_mid]
    · simpa using hlen
    · simpa [Pc.busy] using ho
    · intro u; simpa [Pc.runs] using hr u
    · intro u
      have := hd u
      rw [count_snoc]
      simp [Pc.holds, sgl] at this ⊢; omega
    · intro u
      have := h.handed u
      rw [count_snoc, count_snoc]; omega
    · intro hdr
      rw [← List.append_assoc, h.order hdr]
    · simpa using hl
    · simp at hl2 ⊢; omega
  | callback a b t hw hc =>
    rw [hw] at ho hr hd hl hl2 hlen
    simp only [countP_mid] at ho hr hd hl hl2
    refine { h with len := ?_, out := ?_, ran := ?_, done := ?_, lens := ?_, lend := ?_ } <;>
      simp only [countP_mid]
    · simpa using hlen
    · simpa [Pc.busy] using ho
    · intro u; simpa [Pc.runs] using hr u
    · intro u
      have := hd u
      rw [count_snoc]
      simp [Pc.holds, sgl] at this ⊢; omega
    · simpa using hl
    · simp at hl2 ⊢; omega

theorem inv_cstep {n : Nat} {r : Ret} {s s' : State} (h : Inv n s) (st : CStep r s s') :
    Inv n s' := by
  cases st with
  | queueTask _ t =>
    refine { h with fifo := ?_, out := ?_ }
    · simp only; rw [← List.append_assoc, h.fifo]
    · have := h.out; simp; omega
  | tryGetNone hc => exact h
  | tryGet _ t c hc =>
    refine { h with handed := ?_, order := ?_ }
    · intro u
      have := h.handed u
      rw [hc] at this
      simp only [count_snoc]
      simp only [List.count_cons] at this
      simp only [sgl]; omega
    · intro hd
      have := h.order hd
      rw [hc] at this
      simpa using this
  | get _ t c hc =>
    refine { h with handed := ?_, order := ?_ }
    · intro u
      have := h.handed u
      rw [hc] at this
      simp only [count_snoc]
      simp only [List.count_cons] at this
      simp only [sgl]; omega
    · intro hd
      have := h.order hd
      rw [hc] at this
      simpa using this
  | wait h0 => exact h
  | atMost c h0 => exact h
  | atMostTimeout c h0 => exact h
  | setCallback b => exact { h with }
  | signal => exact { h with dropShut := fun _ => rfl }
  | joined _ hs hw =>
    refine { h with handed := ?_, order := ?_, dropShut := ?_ }
    · intro u
      have := h.handed u
      simp only [List.count_append, List.count_nil]; omega
    · intro hd
      simp only [List.append_eq_nil_iff] at hd
      have := h.order hd.1
      rw [hd.2] at this
      exact this
    · intro _; exact hs

theorem inv {n : Nat} {s : State} (h : Reach n s) : Inv n s := by
  induction h with
  | init => exact inv_init n
  | step _ st ih =>
    cases st with
    | w st => exact inv_wstep ih st
    | c st => exact inv_cstep ih st

theorem countP_le_of_imp (p q : Pc → Bool) (l : List Pc) (h : ∀ x, p x = true → q x = true) :
    l.countP p ≤ l.countP q := by
  induction l with
  | nil => simp
  | cons x xs ih =>
    simp only [List.countP_cons]
    have := h x
    by_cases hp : p x = true
    · simp [hp, this hp]; exact ih
    · simp only [hp]; simp; omega

theorem idle {s : State} (h0 : s.ws.countP Pc.busy = 0) (t : Nat) :
    s.ws.countP (Pc.runs t) = 0 ∧ s.ws.countP (Pc.holds t) = 0 := by
  have h1 := countP_le_of_imp (Pc.runs t) Pc.busy s.ws (by intro x; cases x <;> simp [Pc.runs, Pc.busy])
  have h2 := countP_le_of_imp (Pc.holds t) Pc.busy s.ws (by intro x; cases x <;> simp [Pc.holds, Pc.busy])
  omega

/-! ### Exactly once -/

/-- **C43.**  At any time in any schedule, tasks have been started in exactly the order they
were queued, each queued occurrence at most once: the started tasks followed by those still in the
queue are the queued ones.  A task returns from its run at most once per time it was queued, and
is handed on (returned by a get call, given to the callback, waiting to be fetched, or discarded by
shutdown) at most once per run. -/
theorem C43_at_most_once {n : Nat} {s : State} (h : Reach n s) :
    s.started ++ s.queue = s.queued ∧
    (∀ t, s.ran.count t ≤ s.started.count t) ∧
    (∀ t, s.taken.count t + s.cbLog.count t + s.completed.count t + s.dropped.count t
      ≤ s.ran.count t) := by
  have hi := inv h
  refine ⟨hi.fifo, fun t => ?_, fun t => ?_⟩
  · have := hi.ran t; omega
  · have := hi.done t; have := hi.handed t; omega

/-- **C43.**  When `Wait` returns, every task queued so far was run, exactly as often as it was
queued, and every one of them has been handed on: it was already fetched, given to the callback,
or a get call finds it now (or shutdown discarded it). -/
theorem C43_wait {n : Nat} {s s' : State} (h : Reach n s) (st : CStep .wait s s') :
    s.queue = [] ∧ s.ran.Perm s.queued ∧
    (s.taken ++ s.cbLog ++ s.completed ++ s.dropped).Perm s.queued := by
  cases st with
  | wait h0 =>
    have hi := inv h
    have ho := hi.out
    have hq : s.queue = [] := List.eq_nil_of_length_eq_zero (by omega)
    have hb : s.ws.countP Pc.busy = 0 := by omega
    have hf := hi.fifo
    rw [hq, List.append_nil] at hf
    refine ⟨hq, ?_, ?_⟩
    · rw [List.perm_iff_count]; intro t
      have := hi.ran t; have := (idle hb t).1
      rw [← hf]; omega
    · rw [List.perm_iff_count]; intro t
      have := hi.ran t; have := hi.done t; have := hi.handed t
      have := (idle hb t)
      rw [← hf]; simp only [List.count_append]; omega

/-- **C43.**  `WaitForQueuedTasksAtMost count` returns true only if at most `count` of the tasks
queued so far have not been handed on. -/
theorem C43_wait_at_most {n : Nat} {s s' : State} {count : Nat} (h : Reach n s)
    (st : CStep (.waitAtMost count true) s s') :
    s.queued.length ≤ s.pushed.length + s.cbLog.length + count := by
  have hi := inv h
  have ho := hi.out
  have : s.out ≤ count := by
    generalize hr : Ret.waitAtMost count true = r at st
    cases st with
    | atMost _ c hc =>
      injection hr with h1 h2
      subst h1
      exact of_decide_eq_true h2.symm
    | atMostTimeout _ c hc => injection hr with h1 h2; cases h2
    | _ => cases hr
  have hf := congrArg List.length hi.fifo
  simp only [List.length_append] at hf
  have h3 := hi.lens
  have h4 := hi.lend
  have h5 : s.ws.countP (fun p => p matches .running _) +
      s.ws.countP (fun p => p matches .ran _) ≤ s.ws.countP Pc.busy := by
    generalize s.ws = l
    induction l with
    | nil => simp
    | cons x xs ih => cases x <;> simp [List.countP_cons, Pc.busy] <;> omega
  omega

/-- **C43.**  Fetched tasks come out in the order in which they were completed, none skipped
(while the pool is not shut down). -/
theorem C43_fetch_order {n : Nat} {s : State} (h : Reach n s) (hs : s.shutdown = false) :
    s.taken ++ s.completed = s.pushed := by
  have hi := inv h
  refine hi.order ?_
  by_cases hd : s.dropped = []
  · exact hd
  · have := hi.dropShut hd; rw [hs] at this; cases this

/-! ### One thread: queue order -/

/-- With one worker. -/
structure Inv1 (s : State) : Prop where
  one : ∃ p, s.ws = [p] ∧
    (match p with
     | .running t => s.started = s.ran ++ [t]
     | _ => s.started = s.ran) ∧
    (s.cbLog = [] →
      match p with
      | .ran t => s.ran = s.pushed ++ [t]
      | _ => s.ran = s.pushed)

theorem one_split {a b : List Pc} {x p : Pc} (h : [p] = a ++ x :: b) : a = [] ∧ b = [] ∧ p = x := by
  cases a with
  | nil => simp at h; exact ⟨rfl, h.2, h.1⟩
  | cons y a => simp at h

theorem inv1 {s : State} (h : Reach 1 s) : Inv1 s := by
  induction h with
  | init => exact ⟨.ready false, rfl, rfl, fun _ => rfl⟩
  | step _ st ih =>
    obtain ⟨p, hp, h1, h2⟩ := ih
    cases st with
    | w st =>
      cases st with
      | lock a b f hw =>
        obtain ⟨rfl, rfl, rfl⟩ := one_split (hp ▸ hw)
        exact ⟨.waiting, rfl, h1, h2⟩
      | take a b t q hw hs hq =>
        obtain ⟨rfl, rfl, rfl⟩ := one_split (hp ▸ hw)
        simp only at h1 h2
        exact ⟨.running t, rfl, by simp [h1], h2⟩
      | stop a b hw hs =>
        obtain ⟨rfl, rfl, rfl⟩ := one_split (hp ▸ hw)
        exact ⟨.stopped, rfl, h1, h2⟩
      | run a b t hw =>
        obtain ⟨rfl, rfl, rfl⟩ := one_split (hp ▸ hw)
        simp only at h1 h2
        exact ⟨.ran t, rfl, by simp [h1], fun hc => by simp [h2 hc]⟩
      | push a b t hw hc =>
        obtain ⟨rfl, rfl, rfl⟩ := one_split (hp ▸ hw)
        simp only at h1 h2
        exact ⟨.ready true, rfl, h1, fun hc => by simp [h2 hc]⟩
      | callback a b t hw hc =>
        obtain ⟨rfl, rfl, rfl⟩ := one_split (hp ▸ hw)
        exact ⟨.ready true, rfl, h1, fun hc => by simp at hc⟩
    | c st => cases st <;> exact ⟨p, hp, h1, h2⟩

/-- **C43.**  With one thread tasks are run, completed and fetched in queue order: what was run,
and (no callback having been used) what was completed and what was fetched, is a prefix of what
was queued. -/
theorem C43_single_fifo {s : State} (h : Reach 1 s) :
    s.ran <+: s.queued ∧
    (s.cbLog = [] → s.pushed <+: s.queued) ∧
    (s.cbLog = [] → s.shutdown = false → s.taken <+: s.queued) := by
  obtain ⟨p, _, h1, h2⟩ := inv1 h
  have hf := (inv h).fifo
  have hr : s.ran <+: s.queued := by
    rw [← hf]
    cases p <;> simp only at h1 <;> rw [h1] <;> simp [List.append_assoc]
  have hpu : s.cbLog = [] → s.pushed <+: s.queued := by
    intro hc
    have := h2 hc
    cases p <;> simp only at this <;>
      first
      | (rw [this] at hr; exact hr)
      | (rw [this] at hr; exact (List.prefix_append _ _).trans hr)
  refine ⟨hr, hpu, fun hc hs => ?_⟩
  have := C43_fetch_order h hs
  exact (this ▸ List.prefix_append _ _ : s.taken <+: s.pushed).trans (hpu hc)

/-! ### Progress -/

/-- Work left for one worker. -/
def Pc.weight : Pc → Nat
  | .running _ => 4
  | .ran _ => 3
  | .ready _ => 2
  | .waiting => 1
  | .stopped => 0

def wsum : List Pc → Nat
  | [] => 0
  | p :: l => p.weight + wsum l

theorem wsum_append (a b : List Pc) : wsum (a ++ b) = wsum a + wsum b := by
  induction a with
  | nil => simp [wsum]
  | cons x xs ih => simp [wsum, ih]; omega

/-- Bound on the number of worker steps possible without client steps. -/
def State.work (s : State) : Nat := 5 * s.queue.length + wsum s.ws

theorem work_decreases {s s' : State} (st : WStep s s') : s'.work < s.work := by
  cases st with
  | take a b t q hw hs hq => simp [State.work, hw, hq, wsum_append, wsum, Pc.weight]; omega
  | lock a b f hw => simp [State.work, hw, wsum_append, wsum, Pc.weight]
  | stop a b hw => simp [State.work, hw, wsum_append, wsum, Pc.weight]
  | run a b t hw => simp [State.work, hw, wsum_append, wsum, Pc.weight]
  | push a b t hw => simp [State.work, hw, wsum_append, wsum, Pc.weight]
  | callback a b t hw => simp [State.work, hw, wsum_append, wsum, Pc.weight]

/-- A run of `k` worker steps. -/
inductive WRun : State → Nat → State → Prop where
  | refl (s : State) : WRun s 0 s
  | step {s s' s'' : State} {k : Nat} : WStep s s' → WRun s' k s'' → WRun s (k + 1) s''

theorem wrun_bound {s s' : State} {k : Nat} (h : WRun s k s') : k + s'.work ≤ s.work := by
  induction h with
  | refl => omega
  | step st _ ih => have := work_decreases st; omega

theorem wrun_reach {n : Nat} {s s' : State} {k : Nat} (h : WRun s k s') (hr : Reach n s) :
    Reach n s' := by
  induction h with
  | refl => exact hr
  | step st _ ih => exact ih (.step hr (.w st))

theorem wrun_shutdown {s s' : State} {k : Nat} (h : WRun s k s') : s'.shutdown = s.shutdown := by
  induction h with
  | refl => rfl
  | step st _ ih => rw [ih]; cases st <;> rfl

theorem wrun_queued {s s' : State} {k : Nat} (h : WRun s k s') : s'.queued = s.queued := by
  induction h with
  | refl => rfl
  | step st _ ih => rw [ih]; cases st <;> rfl

theorem split_of_mem {l : List Pc} {p : Pc} (h : p ∈ l) : ∃ a b, l = a ++ p :: b :=
  List.append_of_mem h

/-- If the workers cannot do anything, they all wait for tasks (not shut down). -/
theorem stuck_waiting {s : State} (hs : ∀ s', ¬ WStep s s') :
    ∀ p ∈ s.ws, p = .waiting ∨ p = .stopped := by
  intro p hp
  obtain ⟨a, b, hw⟩ := split_of_mem hp
  cases p with
  | ready f => exact (hs _ (.lock s a b f hw)).elim
  | waiting => exact .inl rfl
  | running t => exact (hs _ (.run s a b t hw)).elim
  | ran t =>
    cases hc : s.hasCb with
    | false => exact (hs _ (.push s a b t hw hc)).elim
    | true => exact (hs _ (.callback s a b t hw hc)).elim
  | stopped => exact .inr rfl

theorem busy_zero_of {l : List Pc} (h : ∀ p ∈ l, p = .waiting ∨ p = .stopped) :
    l.countP Pc.busy = 0 := by
  rw [List.countP_eq_zero]
  intro p hp
  cases h p hp with
  | inl h => simp [h, Pc.busy]
  | inr h => simp [h, Pc.busy]

/-- No worker of a pool that is not shut down has stopped. -/
theorem not_stopped {n : Nat} {s : State} (h : Reach n s) (hs : s.shutdown = false) :
    ∀ p ∈ s.ws, p ≠ .stopped := by
  induction h with
  | init =>
    intro p hp
    rw [List.eq_of_mem_replicate hp]; simp
  | step hr st ih =>
    cases st with
    | w st =>
      have hs0 := hs
      cases st with
      | stop a b hw hs' => simp only at hs; rw [hs] at hs'; cases hs'
      | lock a b f hw =>
        have := ih hs; rw [hw] at this
        simp only [List.mem_append, List.mem_cons] at this ⊢
        rintro p (hp | rfl | hp)
        · exact this p (.inl hp)
        · simp
        · exact this p (.inr (.inr hp))
      | take a b t q hw _ _ =>
        have := ih hs; rw [hw] at this
        simp only [List.mem_append, List.mem_cons] at this ⊢
        rintro p (hp | rfl | hp)
        · exact this p (.inl hp)
        · simp
        · exact this p (.inr (.inr hp))
      | run a b t hw =>
        have := ih hs; rw [hw] at this
        simp only [List.mem_append, List.mem_cons] at this ⊢
        rintro p (hp | rfl | hp)
        · exact this p (.inl hp)
        · simp
        · exact this p (.inr (.inr hp))
      | push a b t hw _ =>
        have := ih hs; rw [hw] at this
        simp only [List.mem_append, List.mem_cons] at this ⊢
        rintro p (hp | rfl | hp)
        · exact this p (.inl hp)
        · simp
        · exact this p (.inr (.inr hp))
      | callback a b t hw _ =>
        have := ih hs; rw [hw] at this
        simp only [List.mem_append, List.mem_cons] at this ⊢
        rintro p (hp | rfl | hp)
        · exact this p (.inl hp)
        · simp
        · exact this p (.inr (.inr hp))
    | c st => cases st <;> first | exact ih hs | (simp at hs) | (intro p hp; exact ih hs p hp)

theorem stuck_idle {n : Nat} {s : State} (hn : 0 < n) (h : Reach n s) (hs : s.shutdown = false)
    (hst : ∀ s', ¬ WStep s s') : s.out = 0 := by
  have hi := inv h
  have hw := stuck_waiting hst
  have hb := busy_zero_of hw
  have hq : s.queue = [] := by
    cases hq : s.queue with
    | nil => rfl
    | cons t q =>
      exfalso
      cases hws : s.ws with
      | nil => have := hi.len; rw [hws] at this; simp at this; omega
      | cons p l =>
        have hp := hw p (by rw [hws]; simp)
        have hns := not_stopped h hs p (by rw [hws]; simp)
        rcases hp with rfl | rfl
        · exact hst _ (.take s [] l t q (by simpa using hws) hs hq)
        · exact hns rfl
  have := hi.out
  rw [hq, hb] at this; simpa using this

/-- **C43.**  Waiting ends: whatever the workers do from any reachable state of a pool with at
least one thread that is not shut down, they do at most `s.work` steps, and when they can do no
more, `Wait` returns and every queued task was run (tasks themselves are taken to return). -/
theorem C43_wait_returns {n : Nat} (hn : 0 < n) {s : State} (h : Reach n s)
    (hs : s.shutdown = false) {k : Nat} {s' : State} (hr : WRun s k s') :
    k ≤ s.work ∧
    ((∀ s'', ¬ WStep s' s'') → CStep .wait s' s' ∧ s'.ran.Perm s.queued) := by
  refine ⟨by have := wrun_bound hr; omega, fun hst => ?_⟩
  have hr' := wrun_reach hr h
  have ho := stuck_idle hn hr' (by rw [wrun_shutdown hr, hs]) hst
  refine ⟨.wait s' ho, ?_⟩
  have := (C43_wait hr' (.wait s' ho)).2.1
  rwa [wrun_queued hr] at this

/-! ### Shutdown -/

/-- **C43.**  When `Shutdown` returns no task is running any more, every task that was started
has returned and been handed on or discarded, and the rest never starts. -/
theorem C43_shutdown {n : Nat} {s s' : State} (h : Reach n s) (st : CStep .shutdownReturn s s') :
    s'.ran.Perm s'.started ∧
    (s'.taken ++ s'.cbLog ++ s'.dropped).Perm s'.started ∧ s'.completed = [] ∧
    (∀ k s'', ¬ WRun s' (k + 1) s'') := by
  have hi' := inv (.step h (.c st))
  cases st with
  | joined _ hs hw =>
    have hb := busy_zero_of (fun p hp => .inr (hw p hp))
    refine ⟨?_, ?_, rfl, ?_⟩
    · rw [List.perm_iff_count]; intro t
      have := hi'.ran t; have := (idle hb t).1
      simp only at *; omega
    · rw [List.perm_iff_count]; intro t
      have := hi'.ran t; have := hi'.done t; have := hi'.handed t
      have := (idle hb t)
      simp only [List.count_append, List.count_nil] at *; omega
    · intro k s'' hr
      have hrun : ∀ s'', ¬ WStep { s with completed := [], dropped := s.dropped ++ s.completed } s'' := by
        intro s'' st
        have key : ∀ p a b, s.ws = a ++ p :: b → p = .stopped := by
          intro p a b hab; exact hw p (by rw [hab]; simp)
        cases st with
        | lock a b f h => cases key _ a b h
        | take a b t q h => cases key _ a b h
        | stop a b h => cases key _ a b h
        | run a b t h => cases key _ a b h
        | push a b t h => cases key _ a b h
        | callback a b t h => cases key _ a b h
      cases hr with
      | step st _ => exact hrun _ st

/-- After shutdown with a task still queued nobody waiting is ever released: the reason why the
progress theorem above needs a pool that is not shut down. -/
theorem C43_shutdown_strands_waiters {n : Nat} {s : State} (h : Reach n s)
    (hs : s.shutdown = true) (hq : s.queue ≠ []) {s' : State} (hrun : Run s s') :
    ¬ CStep .wait s' s' := by
  have hr : Reach n s' ∧ s'.shutdown = true ∧ s'.queue ≠ [] := by
    induction hrun with
    | refl => exact ⟨h, hs, hq⟩
    | step _ st ih =>
      refine ⟨.step ih.1 st, ?_⟩
      obtain ⟨_, hs, hq⟩ := ih
      cases st with
      | w st =>
        cases st with
        | take a b t q _ h0 => rw [hs] at h0; cases h0
        | _ => exact ⟨hs, hq⟩
      | c st =>
        cases st with
        | queueTask _ t => exact ⟨hs, by simp⟩
        | signal => exact ⟨rfl, hq⟩
        | _ => exact ⟨hs, hq⟩
  intro hst
  exact hr.2.2 (C43_wait hr.1 hst).1

/-! ### A concrete schedule -/

/-- Two threads, three tasks, completed out of order (11 before 10): the theorems apply to a real
execution, `Wait` returns in it. -/
theorem example_reach : ∃ s, Reach 2 s ∧ s.out = 0 ∧ s.queued = [10, 11, 12] ∧
    s.pushed = [11, 10, 12] ∧ s.taken = [11] ∧ s.shutdown = false := by
  refine ⟨_, .step (.step (.step (.step (.step (.step (.step (.step (.step (.step (.step (.step
    (.step (.step (.step (.step (.step (.step .init
    (.c (.queueTask _ 10))) (.c (.queueTask _ 11)))
    (.w (.lock _ [] [.ready false] false rfl))) (.w (.lock _ [.waiting] [] false rfl)))
    (.w (.take _ [] [.waiting] 10 [11] rfl rfl rfl)))
    (.w (.take _ [.running 10] [] 11 [] rfl rfl rfl)))
    (.w (.run _ [.running 10] [] 11 rfl))) (.w (.push _ [.running 10] [] 11 rfl rfl)))
    (.c (.queueTask _ 12)))
    (.w (.run _ [] [.ready true] 10 rfl)))
    (.c (.tryGet _ 11 [] rfl)))
    (.w (.push _ [] [.ready true] 10 rfl rfl)))
    (.w (.lock _ [.ready true] [] true rfl)))
    (.w (.take _ [.ready true] [] 12 [] rfl rfl rfl)))
    (.w (.lock _ [] [.running 12] true rfl)))
    (.w (.run _ [.waiting] [] 12 rfl)))
    (.w (.push _ [.waiting] [] 12 rfl rfl)))
    (.w (.lock _ [.waiting] [] true rfl)), rfl, rfl, rfl, rfl, rfl⟩

/-- A pool shut down while a task runs and another is still queued: the first finishes and is
discarded, the second never starts. -/
theorem example_shutdown : ∃ s s', Reach 1 s ∧ CStep .shutdownReturn s s' ∧
    s'.started = [10] ∧ s'.dropped = [10] ∧ s'.queue = [11] := by
  refine ⟨_, _, .step (.step (.step (.step (.step (.step (.step (.step (.step .init
    (.c (.queueTask _ 10))) (.c (.queueTask _ 11)))
    (.w (.lock _ [] [] false rfl))) (.w (.take _ [] [] 10 [11] rfl rfl rfl)))
    (.c (.signal _))) (.w (.run _ [] [] 10 rfl))) (.w (.push _ [] [] 10 rfl rfl)))
    (.w (.lock _ [] [] true rfl))) (.w (.stop _ [] [] rfl rfl)),
    .joined _ rfl (by intro p hp; simpa using hp), rfl, rfl, rfl⟩

end Verif.Threads.Pool
