/-! # Child processes (C158-C161)

common/process_win.cc: a child process is started, a thread reads its output from two pipes and waits for its end, and the owner waits for it or terminates it. -/
namespace Verif.Process

abbrev Bytes := List UInt8

/-! ### Model -/

inductive Chan where
  | out
  | err
  deriving DecidableEq, Repr

/-- An asynchronous read: none, waiting, or done - with data, with `ERROR_BROKEN_PIPE`, with another error. -/
inductive Io where
  | none
  | pending
  | ready (d : Bytes)
  | broken
  | failed
  deriving DecidableEq, Repr

/-- The event of the reader is signaled. -/
def Io.done : Io → Bool
  | .none => false
  | .pending => false
  | _ => true

/-- A pipe and its `AsyncReader` (process_win.cc:177-332); and what has been written to it and what the handler was called with so far. -/
structure Stream where
  /-- Some process has the write end. -/
  opened : Bool := true
  pipe : Bytes := []
  io : Io := .none
  eof : Bool := false
  written : Bytes := []
  calls : List Bytes := []
  deriving DecidableEq, Repr

inductive Child where
  | absent
  | running
  | exited (code : Nat)
  deriving DecidableEq, Repr

/-- Where the message pump thread is (`ThreadWorkerMain`, process_win.cc:412-528). -/
inductive Pump where
  /-- In `IssueRead` (291-319) for this stream; the streams `rest` are to be initialised after it. -/
  | issue (c : Chan) (rest : List Chan)
  /-- `WaitForMultipleObjects`, 466-470. -/
  | waiting
  | stopped
  deriving DecidableEq, Repr

/-- 424-443: `Initialize()` of the readers, then the loop. -/
def go : List Chan → Pump
  | [] => .waiting
  | c :: r => .issue c r

/-- What the owner is doing. -/
inductive Api where
  | idle
  /-- In the loop of `RunUntil` (761-769), before `GetStatus`. -/
  | poll
  /-- Before `HasExited`. -/
  | poll2
  /-- `Shutdown` (373-383) waits for the thread; then the process is to be terminated, or not. -/
  | join (kill : Bool)
  /-- 821-831. -/
  | kill (kill : Bool)
  /-- `Reset`, 842-853; so far without an error, or with one. -/
  | reset (ok : Bool)
  | ended
  deriving DecidableEq, Repr

structure State where
  detached : Bool
  /-- `process_info_` is set. -/
  info : Bool := false
  /-- `message_pump_`. -/
  pump : Option Pump := none
  child : Child := .absent
  /-- The child is in the job. -/
  assigned : Bool := false
  /-- `shutdown_event_`. -/
  shutdown : Bool := false
  chan : Chan → Stream := fun _ => {}
  /-- `status_` is an error. -/
  failed : Bool := false
  /-- `has_exited_` and `exit_code_`. -/
  exited : Option Nat := none
  api : Api := .idle
  /-- The destructor has been called. -/
  dtor : Bool := false

def State.upd (s : State) (c : Chan) (x : Stream) : State := { s with chan := fun c' => if c' = c then x else s.chan c' }

/-- process.h:93-95. -/
def kNotStarted : Nat := 4000000000
def kStillRunning : Nat := 4000000001
def kFailedToGet : Nat := 4000000002

/-- `HasExited`, process_win.cc:805-807 and 393-396. -/
def hasExited (s : State) : Bool := match s.pump with
  | none => false
  | some _ => s.exited.isSome

/-- `ExitCode`, 803-805 and 399-402; `exit_code_` is initialised in 529. -/
def exitCode (s : State) : Nat := match s.pump with
  | none => kNotStarted
  | some _ => s.exited.getD kStillRunning

/-- `GetStatus`, 807-809 and 387-390: whether it is ok. -/
def statusOk (s : State) : Bool := match s.pump with
  | none => true
  | some _ => !s.failed

inductive Event where
  /-- A process with the write end writes. -/
  | wrote (c : Chan) (d : Bytes)
  | closed (c : Chan)
  /-- The child ends by itself. -/
  | exits (code : Nat)
  /-- The operating system completes a read. -/
  | os
  /-- The output handler is called. -/
  | call (c : Chan) (d : Bytes)
  /-- Another step of the pump thread. -/
  | pump
  /-- `Start` returns. -/
  | started (ok : Bool)
  /-- `RunUntilExit` returns. -/
  | ran (ok : Bool)
  /-- `Terminate` or the destructor returns. -/
  | terminated (ok : Bool)
  | api
  deriving DecidableEq, Repr

def Event.isPump : Event → Bool
  | .call _ _ => true
  | .pump => true
  | _ => false

def Event.isWrite : Event → Bool
  | .wrote _ _ => true
  | _ => false

/-- The process and its streams when `Start` is called: `used` are the streams with a handler. -/
def init (detached : Bool) : State := { detached := detached }

/-- `WaitForMultipleObjects` returns the lowest index: the process has 0, the shutdown event 1, then stdout and stderr (448-463). -/
def State.chosen (s : State) (c : Chan) : Prop := (∀ k, s.child ≠ .exited k) ∧ s.shutdown = false ∧ (c = .err → (s.chan .out).io.done = false)

/-- One step.

* Pipes: a read takes at least one byte and at most 4095, or waits if there are none, or reports a broken pipe if nobody has the write end. Simplified: writes of zero bytes
  do not complete a read.
* The handler's result is ignored (249-253, 302-306).
* `Start`, 633-754, once. It fails before the child is created, or when the child cannot be assigned to the job (734-739). `used` are the streams with a handler.
* `RunUntilExit`, 579-581 and 756-772, on a process that was started.
* `Terminate`, 811-840, and the destructor, 608-615, which does not kill a detached process. Closing the job (`process_info_.reset()`) kills the processes in it unless detached (703-706).
-/
inductive Step : Event → State → State → Prop where
  | write (s : State) (c : Chan) (d : Bytes) : s.child ≠ .absent → (s.chan c).opened = true →
      Step (.wrote c d) s (s.upd c { s.chan c with pipe := (s.chan c).pipe ++ d, written := (s.chan c).written ++ d })
  | close (s : State) (c : Chan) : s.child ≠ .absent → Step (.closed c) s (s.upd c { s.chan c with opened := false })
  | exit (s : State) (code : Nat) : s.child = .running → Step (.exits code) s { s with child := .exited code }
  | ready (s : State) (c : Chan) (n : Nat) : (s.chan c).io = .pending → 0 < n → n ≤ 4095 → n ≤ (s.chan c).pipe.length →
      Step .os s (s.upd c { s.chan c with pipe := (s.chan c).pipe.drop n, io := .ready ((s.chan c).pipe.take n) })
  | broken (s : State) (c : Chan) : (s.chan c).io = .pending → (s.chan c).pipe = [] → (s.chan c).opened = false →
      Step .os s (s.upd c { s.chan c with io := .broken })
  | ioFails (s : State) (c : Chan) : (s.chan c).io = .pending → Step .os s (s.upd c { s.chan c with io := .failed })
  -- IssueRead
  | readNow (s : State) (c : Chan) (rest : List Chan) (n : Nat) : s.pump = some (.issue c rest) → 0 < n → n ≤ 4095 → n ≤ (s.chan c).pipe.length →
      Step (.call c ((s.chan c).pipe.take n)) s
        (s.upd c { s.chan c with pipe := (s.chan c).pipe.drop n, calls := (s.chan c).calls ++ [(s.chan c).pipe.take n] })
  | pend (s : State) (c : Chan) (rest : List Chan) : s.pump = some (.issue c rest) → (s.chan c).pipe = [] → (s.chan c).opened = true →
      Step .pump s { s.upd c { s.chan c with io := .pending } with pump := some (go rest) }
  | issueEof (s : State) (c : Chan) (rest : List Chan) : s.pump = some (.issue c rest) → (s.chan c).pipe = [] → (s.chan c).opened = false →
      Step .pump s { s.upd c { s.chan c with eof := true } with pump := some (go rest) }
  | issueFails (s : State) (c : Chan) (rest : List Chan) : s.pump = some (.issue c rest) → Step .pump s { s with failed := true, pump := some .stopped }
  -- the loop
  | seesExit (s : State) (k code : Nat) : s.pump = some .waiting → s.child = .exited k → code = k ∨ code = kFailedToGet →
      Step .pump s { s with exited := some code, pump := some .stopped, chan := fun c => { s.chan c with io := .none } }
  | seesShutdown (s : State) : s.pump = some .waiting → (∀ k, s.child ≠ .exited k) → s.shutdown = true →
      Step .pump s { s with pump := some .stopped, chan := fun c => { s.chan c with io := .none } }
  | result (s : State) (c : Chan) (d : Bytes) : s.pump = some .waiting → s.chosen c → (s.chan c).io = .ready d →
      Step (.call c d) s { s.upd c { s.chan c with io := .none, calls := (s.chan c).calls ++ [d] } with pump := some (.issue c []) }
  | resultEof (s : State) (c : Chan) : s.pump = some .waiting → s.chosen c → (s.chan c).io = .broken →
      Step .pump s (s.upd c { s.chan c with io := .none, eof := true })
  | resultFails (s : State) (c : Chan) : s.pump = some .waiting → s.chosen c → (s.chan c).io = .failed → Step .pump s { s with failed := true, pump := some .stopped }
  | waitFails (s : State) : s.pump = some .waiting → Step .pump s { s with failed := true, pump := some .stopped }
  -- the owner
  | startFails (s : State) : s.api = .idle → s.info = false → Step (.started false) s { s with info := true }
  | startNoJob (s : State) : s.api = .idle → s.info = false → Step (.started false) s { s with info := true, child := .running }
  | start (s : State) (used : List Chan) : s.api = .idle → s.info = false → used ∈ [[], [.out], [.err], [.out, .err]] →
      Step (.started true) s { s with info := true, child := .running, assigned := true, pump := some (go used) }
  | runs (s : State) : s.api = .idle → s.pump ≠ none → Step .api s { s with api := .poll }
  | pollFailed (s : State) : s.api = .poll → statusOk s = false → Step (.ran false) s { s with api := .idle }
  | pollOk (s : State) : s.api = .poll → statusOk s = true → Step .api s { s with api := .poll2 }
  | pollExited (s : State) : s.api = .poll2 → hasExited s = true → Step (.ran true) s { s with api := .idle }
  | pollAgain (s : State) : s.api = .poll2 → hasExited s = false → Step .api s { s with api := .poll }
  | terminate (s : State) (dtor : Bool) : s.api = .idle →
      Step .api s { s with shutdown := s.shutdown || s.pump.isSome, api := .join (s.pump.isSome && !hasExited s && !(dtor && s.detached)), dtor := dtor }
  | joined (s : State) (kill : Bool) : s.api = .join kill → s.pump = none ∨ s.pump = some .stopped → Step .api s { s with pump := none, api := .kill kill }
  | killed (s : State) : s.api = .kill true → s.child = .running → Step .api s { s with child := .exited 0, api := .reset true }
  | killLate (s : State) (k : Nat) : s.api = .kill true → s.child = .exited k → Step .api s { s with api := .reset true }
  | killFails (s : State) : s.api = .kill true → s.child = .running → Step .api s { s with api := .reset false }
  | noKill (s : State) : s.api = .kill false → Step .api s { s with api := .reset true }
  | reset (s : State) (ok : Bool) : s.api = .reset ok →
      Step (.terminated ok) s { s with info := false, child := if s.assigned && !s.detached && s.child == .running then .exited 0 else s.child, api := .ended }

/-- Any number of steps, with what is seen of them. -/
inductive Run : State → List Event → State → Prop where
  | nil (s : State) : Run s [] s
  | snoc {s s1 s2 : State} {es : List Event} {e : Event} : Run s es s1 → Step e s1 s2 → Run s (es ++ [e]) s2

/-! ### Specification -/

/-- What was written to a stream. -/
def wroteTo (c : Chan) : List Event → Bytes
  | [] => []
  | .wrote c' d :: es => (if c' = c then d else []) ++ wroteTo c es
  | _ :: es => wroteTo c es

/-- What the handler of a stream was called with. -/
def handed (c : Chan) : List Event → List Bytes
  | [] => []
  | .call c' d :: es => (if c' = c then [d] else []) ++ handed c es
  | _ :: es => handed c es

/-! ### Proofs -/

theorem wroteTo_append (c : Chan) (a b : List Event) : wroteTo c (a ++ b) = wroteTo c a ++ wroteTo c b := by
  induction a with
  | nil => rfl
  | cons e a ih => cases e <;> simp [wroteTo, ih]

theorem handed_append (c : Chan) (a b : List Event) : handed c (a ++ b) = handed c a ++ handed c b := by
  induction a with
  | nil => rfl
  | cons e a ih => cases e <;> simp [handed, ih]

theorem upd_same (s : State) (c : Chan) (x : Stream) : (s.upd c x).chan c = x := by simp [State.upd]

theorem upd_other (s : State) {c c' : Chan} (x : Stream) (h : c' ≠ c) : (s.upd c x).chan c' = s.chan c' := by simp [State.upd, h]

/-- Data that was taken from the pipe and not handed over. -/
def Io.data : Io → Bytes
  | .ready d => d
  | _ => []

/-- The pump thread is running. -/
def live : Option Pump → Bool
  | none => false
  | some .stopped => false
  | some _ => true

/-- The invariant of a stream. -/
structure Flow (lives : Bool) (x : Stream) : Prop where
  all : lives = true → x.calls.flatten ++ x.io.data ++ x.pipe = x.written
  pre : x.calls.flatten <+: x.written
  size : ∀ d ∈ x.calls, 0 < d.length ∧ d.length ≤ 4095
  ready : ∀ d, x.io = .ready d → 0 < d.length ∧ d.length ≤ 4095
  eof : x.eof = true → x.calls.flatten = x.written ∧ x.opened = false ∧ x.io = .none
  broken : x.io = .broken → x.pipe = [] ∧ x.opened = false

structure Inv (s : State) : Prop where
  flow : ∀ c, Flow (live s.pump) (s.chan c)
  issue : ∀ c rest, s.pump = some (.issue c rest) → ∀ c' ∈ c :: rest, (s.chan c').io = .none ∧ (s.chan c').eof = false
  once : ∀ c rest, s.pump = some (.issue c rest) → (c :: rest).Nodup
  absent : s.child = .absent → (∀ c, s.chan c = {}) ∧ s.pump = none
  fresh : s.info = false → s.api = .idle → s.child = .absent
  polls : s.api = .poll ∨ s.api = .poll2 → s.info = true

theorem init_inv (d : Bool) : Inv (init d) where
  flow _ := ⟨fun _ => rfl, List.prefix_rfl, by simp [init], by simp [init], by simp [init], by simp [init]⟩
  issue := by simp [init]
  once := by simp [init]
  absent _ := ⟨fun _ => rfl, rfl⟩
  fresh _ _ := rfl
  polls h := by rcases h with h | h <;> cases h

theorem Flow.dead {b : Bool} {x : Stream} (h : Flow b x) : Flow false { x with io := .none } :=
  ⟨fun h => (nomatch h), h.pre, h.size, fun _ h => (nomatch h), fun e => ⟨(h.eof e).1, (h.eof e).2.1, rfl⟩, fun h => (nomatch h)⟩

theorem Flow.stop {b : Bool} {x : Stream} (h : Flow b x) : Flow false x := ⟨fun h => (nomatch h), h.pre, h.size, h.ready, h.eof, h.broken⟩

theorem Flow.write {b : Bool} {x : Stream} (h : Flow b x) (ho : x.opened = true) (d : Bytes) : Flow b { x with pipe := x.pipe ++ d, written := x.written ++ d } where
  all hb := by rw [← h.all hb]; simp
  pre := h.pre.trans (List.prefix_append _ _)
  size := h.size
  ready := h.ready
  eof e := absurd ((h.eof e).2.1) (by rw [ho]; simp)
  broken e := absurd ((h.broken e).2) (by rw [ho]; simp)

theorem Flow.close {b : Bool} {x : Stream} (h : Flow b x) : Flow b { x with opened := false } :=
  ⟨h.all, h.pre, h.size, h.ready, fun e => ⟨(h.eof e).1, rfl, (h.eof e).2.2⟩, fun e => ⟨(h.broken e).1, rfl⟩⟩

theorem Flow.taken {b : Bool} {x : Stream} (h : Flow b x) (hp : x.io = .pending) {n : Nat} (h0 : 0 < n) (h1 : n ≤ 4095) (h2 : n ≤ x.pipe.length) :
    Flow b { x with pipe := x.pipe.drop n, io := .ready (x.pipe.take n) } where
  all hb := by rw [← h.all hb, hp]; simp [Io.data]
  pre := h.pre
  size := h.size
  ready d e := by cases e; rw [List.length_take]; omega
  eof e := by rw [(h.eof e).2.2] at hp; cases hp
  broken e := nomatch e

theorem Flow.now {x : Stream} (h : Flow true x) (hi : x.io = .none) (he : x.eof = false) {n : Nat} (h0 : 0 < n) (h1 : n ≤ 4095) (h2 : n ≤ x.pipe.length) :
    Flow true { x with pipe := x.pipe.drop n, calls := x.calls ++ [x.pipe.take n] } where
  all _ := by
    rw [← h.all rfl, hi]; simp [Io.data]
  pre := by
    rw [← h.all rfl, hi]
    refine ⟨x.pipe.drop n, ?_⟩
    simp [Io.data]
  size d hd := by
    rcases List.mem_append.mp hd with hd | hd
    · exact h.size d hd
    · rw [List.mem_singleton.mp hd, List.length_take]; omega
  ready := h.ready
  eof e := by rw [he] at e; cases e
  broken e := by rw [hi] at e; cases e

theorem Flow.handed {x : Stream} (h : Flow true x) {d : Bytes} (hi : x.io = .ready d) : Flow true { x with io := .none, calls := x.calls ++ [d] } where
  all _ := by rw [← h.all rfl, hi]; simp [Io.data]
  pre := by
    rw [← h.all rfl, hi]
    refine ⟨x.pipe, ?_⟩
    simp [Io.data]
  size d' hd := by
    rcases List.mem_append.mp hd with hd | hd
    · exact h.size d' hd
    · rw [List.mem_singleton.mp hd]; exact h.ready d hi
  ready _ e := nomatch e
  eof e := by rw [(h.eof e).2.2] at hi; cases hi
  broken e := nomatch e

theorem Inv.mk' {s s' : State} (h : Inv s) (hp : s'.pump = s.pump) (hc : s'.chan = s.chan) (ha : s'.child = .absent → s.child = .absent)
    (hf : s'.info = false → s'.api = .idle → s'.child = .absent) (hq : s'.api = .poll ∨ s'.api = .poll2 → s'.info = true) : Inv s' where
  flow c := by rw [hp, hc]; exact h.flow c
  issue c rest e := by rw [hc]; exact h.issue c rest (hp ▸ e)
  once c rest e := h.once c rest (hp ▸ e)
  absent e := by rw [hp, hc]; exact h.absent (ha e)
  fresh := hf
  polls := hq

/-- A step of a stream that no one else notices. -/
theorem Inv.upd {s : State} (h : Inv s) (hn : s.child ≠ .absent) {c : Chan} {x : Stream} (hx : Flow (live s.pump) x) (hi : (s.chan c).io = .none → x.io = .none)
    (he : (s.chan c).eof = false → x.eof = false) :
    Inv (s.upd c x) where
  flow c' := by
    by_cases e : c' = c
    · subst e; rw [upd_same]; exact hx
    · rw [upd_other _ _ e]; exact h.flow c'
  issue c1 rest hp c' hc' := by
    have := h.issue c1 rest hp c' hc'
    by_cases e : c' = c
    · subst e; rw [upd_same]; exact ⟨hi this.1, he this.2⟩
    · rw [upd_other _ _ e]; exact this
  once := h.once
  absent e := absurd e hn
  fresh := h.fresh
  polls := h.polls

theorem go_issue {r : List Chan} {c : Chan} {rest : List Chan} (h : some (go r) = some (.issue c rest)) : r = c :: rest := by
  cases r with
  | nil => cases h
  | cons a r => cases h; rfl

theorem live_go (r : List Chan) : live (some (go r)) = true := by cases r <;> rfl

theorem Inv.running {s : State} (h : Inv s) {p : Pump} (hp : s.pump = some p) : s.child ≠ .absent := by
  intro e
  rw [(h.absent e).2] at hp; cases hp

theorem Inv.next {s : State} (h : Inv s) {c : Chan} {rest : List Chan} (hp : s.pump = some (.issue c rest)) {x : Stream} (hx : Flow true x) :
    Inv { s.upd c x with pump := some (go rest) } where
  flow c' := by
    rw [live_go]
    by_cases e : c' = c
    · subst e; show Flow true ((s.upd c' x).chan c'); rw [upd_same]; exact hx
    · show Flow true ((s.upd c x).chan c'); rw [upd_other _ _ e]; have := h.flow c'; rw [hp] at this; exact this
  issue c1 r1 e c' hc' := by
    have := go_issue e
    subst this
    have h1 := h.issue c _ hp c' (List.mem_cons_of_mem _ hc')
    have h2 := h.once c _ hp
    have : c' ≠ c := by rintro rfl; exact (List.nodup_cons.mp h2).1 hc'
    show ((s.upd c x).chan c').io = _ ∧ ((s.upd c x).chan c').eof = _
    rw [upd_other _ _ this]; exact h1
  once c1 r1 e := by
    have := go_issue e
    subst this
    exact (List.nodup_cons.mp (h.once c _ hp)).2
  absent e := absurd e (h.running hp)
  fresh a b := absurd (h.fresh a b) (h.running hp)
  polls := h.polls

theorem Inv.halt {s s' : State} (h : Inv s) {p : Pump} (hp : s.pump = some p) (hs : live s'.pump = false) (hc : s'.child = s.child)
    (hf : ∀ c, Flow false (s'.chan c)) (hi : s'.info = s.info) (ha : s'.api = s.api) : Inv s' where
  flow c := by rw [hs]; exact hf c
  issue c rest e := by rw [e] at hs; cases hs
  once c rest e := by rw [e] at hs; cases hs
  absent e := by rw [hc] at e; exact absurd e (h.running hp)
  fresh a b := by rw [hc]; exact h.fresh (hi ▸ a) (ha ▸ b)
  polls b := by rw [hi]; exact h.polls (ha ▸ b)

theorem step_inv {e : Event} {s s' : State} (h : Inv s) (hs : Step e s s') : Inv s' := by
  cases hs with
  | write _ c d h1 h2 => exact h.upd h1 ((h.flow c).write h2 d) id id
  | close _ c h1 => exact h.upd h1 (h.flow c).close id id
  | exit _ code h1 => exact h.mk' rfl rfl (fun e => nomatch e) (fun a b => by have := h.fresh a b; rw [h1] at this; cases this) h.polls
  | ready _ c n h1 h2 h3 h4 =>
    refine h.upd ?_ ((h.flow c).taken h1 h2 h3 h4) ?_ id
    · intro e; rw [(h.absent e).1 c] at h1; cases h1
    · intro e; rw [e] at h1; cases h1
  | broken _ c h1 h2 h3 =>
    refine h.upd ?_ ?_ ?_ id
    · intro e; rw [(h.absent e).1 c] at h1; cases h1
    · have hf := h.flow c
      refine ⟨fun hb => ?_, hf.pre, hf.size, fun _ e => (nomatch e), fun e => ?_, fun _ => ⟨h2, h3⟩⟩
      · have := hf.all hb; rw [h1] at this; exact this
      · have := (hf.eof e).2.2; rw [h1] at this; cases this
    · intro e; rw [e] at h1; cases h1
  | ioFails _ c h1 =>
    refine h.upd ?_ ?_ ?_ id
    · intro e; rw [(h.absent e).1 c] at h1; cases h1
    · have hf := h.flow c
      refine ⟨fun hb => ?_, hf.pre, hf.size, fun _ e => (nomatch e), fun e => ?_, fun e => (nomatch e)⟩
      · have := hf.all hb; rw [h1] at this; exact this
      · have := (hf.eof e).2.2; rw [h1] at this; cases this
    · intro e; rw [e] at h1; cases h1
  | readNow _ c rest n h1 h2 h3 h4 =>
    obtain ⟨k1, k2⟩ := h.issue c rest h1 c (by simp)
    have hf := h.flow c
    rw [h1] at hf
    refine h.upd (h.running h1) ?_ id id
    rw [h1]
    exact hf.now k1 k2 h2 h3 h4
  | pend _ c rest h1 h2 h3 =>
    obtain ⟨k1, k2⟩ := h.issue c rest h1 c (by simp)
    have hf := h.flow c
    rw [h1] at hf
    refine h.next h1 ⟨fun hb => ?_, hf.pre, hf.size, fun _ e => (nomatch e), fun e => ?_, fun e => (nomatch e)⟩
    · have := hf.all hb; rw [k1] at this; exact this
    · have e : (s.chan c).eof = true := e
      rw [k2] at e; cases e
  | issueEof _ c rest h1 h2 h3 =>
    obtain ⟨k1, k2⟩ := h.issue c rest h1 c (by simp)
    have hf := h.flow c
    rw [h1] at hf
    refine h.next h1 ⟨hf.all, hf.pre, hf.size, hf.ready, fun _ => ⟨?_, h3, k1⟩, hf.broken⟩
    have := hf.all rfl
    rw [k1, h2] at this
    simpa [Io.data] using this
  | issueFails _ c rest h1 => exact h.halt h1 rfl rfl (fun c => (h.flow c).stop) rfl rfl
  | seesExit _ k code h1 h2 h3 => exact h.halt h1 rfl rfl (fun c => (h.flow c).dead) rfl rfl
  | seesShutdown _ h1 h2 h3 => exact h.halt h1 rfl rfl (fun c => (h.flow c).dead) rfl rfl
  | result _ c d h1 h2 h3 =>
    have hf : ∀ c, Flow true (s.chan c) := fun c => by have := h.flow c; rw [h1] at this; exact this
    have he : (s.chan c).eof = false := by
      cases e : (s.chan c).eof with
      | false => rfl
      | true => have := ((hf c).eof e).2.2; rw [h3] at this; cases this
    refine ⟨fun c' => ?_, ?_, ?_, fun e => absurd e (h.running h1), fun a b => absurd (h.fresh a b) (h.running h1), h.polls⟩
    · by_cases e : c' = c
      · subst e; show Flow true ((s.upd c' _).chan c'); rw [upd_same]; exact (hf c').handed h3
      · show Flow true ((s.upd c _).chan c'); rw [upd_other _ _ e]; exact hf c'
    · intro c1 rest e c' hc'
      cases e
      rw [List.mem_singleton] at hc'
      subst hc'
      show ((s.upd c' _).chan c').io = _ ∧ ((s.upd c' _).chan c').eof = _
      rw [upd_same]; exact ⟨rfl, he⟩
    · intro c1 rest e
      cases e; simp
  | resultEof _ c h1 h2 h3 =>
    have hf := h.flow c
    rw [h1] at hf
    refine ⟨fun c' => ?_, ?_, ?_, fun e => absurd e (h.running h1), h.fresh, h.polls⟩
    · by_cases e : c' = c
      · subst e; rw [upd_same]
        obtain ⟨k1, k2⟩ := hf.broken h3
        have hall := hf.all rfl
        rw [k1, h3] at hall
        have hall : (s.chan c').calls.flatten = (s.chan c').written := by simpa [Io.data] using hall
        refine ⟨fun _ => ?_, hf.pre, hf.size, fun _ e => (nomatch e), fun _ => ⟨hall, k2, rfl⟩, fun e => (nomatch e)⟩
        simpa [Io.data, k1] using hall
      · rw [upd_other _ _ e]; exact h.flow c'
    · intro c1 rest e
      have e : s.pump = _ := e
      rw [h1] at e; cases e
    · intro c1 rest e
      have e : s.pump = _ := e
      rw [h1] at e; cases e
  | resultFails _ c h1 h2 h3 => exact h.halt h1 rfl rfl (fun c => (h.flow c).stop) rfl rfl
  | waitFails _ h1 => exact h.halt h1 rfl rfl (fun c => (h.flow c).stop) rfl rfl
  | startFails _ h1 h2 => exact h.mk' rfl rfl id (fun a => nomatch a) (fun _ => rfl)
  | startNoJob _ h1 h2 => exact h.mk' rfl rfl (fun e => nomatch e) (fun a => nomatch a) (fun _ => rfl)
  | start _ used h1 h2 h3 =>
    have hc := (h.absent (h.fresh h2 h1)).1
    have key : ∀ c, (s.chan c).io = .none ∧ (s.chan c).eof = false := fun c => by rw [hc]; exact ⟨rfl, rfl⟩
    refine ⟨fun c => ?_, fun c rest _ c' _ => key c', fun c rest e => ?_, fun e => (nomatch e), fun a => (nomatch a), fun _ => rfl⟩
    · show Flow _ (s.chan c)
      rw [hc]
      exact ⟨fun _ => rfl, List.prefix_rfl, by simp, by simp, by simp, by simp⟩
    · have := go_issue e
      subst this
      simp only [List.mem_cons, List.not_mem_nil, or_false] at h3
      rcases h3 with h | h | h | h <;> cases h <;> decide
  | runs _ h1 h2 =>
    refine h.mk' rfl rfl id (fun _ b => nomatch b) (fun _ => ?_)
    cases hi : s.info with
    | true => rfl
    | false => exact absurd (h.absent (h.fresh hi h1)).2 h2
  | pollFailed _ h1 h2 => exact h.mk' rfl rfl id (fun a _ => by have a : s.info = false := a; rw [h.polls (.inl h1)] at a; cases a) (fun _ => h.polls (.inl h1))
  | pollOk _ h1 h2 => exact h.mk' rfl rfl id (fun _ b => nomatch b) (fun _ => h.polls (.inl h1))
  | pollExited _ h1 h2 => exact h.mk' rfl rfl id (fun a _ => by have a : s.info = false := a; rw [h.polls (.inr h1)] at a; cases a) (fun _ => h.polls (.inr h1))
  | pollAgain _ h1 h2 => exact h.mk' rfl rfl id (fun _ b => nomatch b) (fun _ => h.polls (.inr h1))
  | terminate _ dtor h1 => exact h.mk' rfl rfl id (fun _ b => nomatch b) (fun b => by rcases b with b | b <;> cases b)
  | joined _ kill h1 h2 =>
    refine ⟨fun c => (h.flow c).stop, fun _ _ e => (nomatch e), fun _ _ e => (nomatch e), fun e => ⟨(h.absent e).1, rfl⟩, fun _ b => (nomatch b), fun b => by rcases b with b | b <;> cases b⟩
  | killed _ h1 h2 => exact h.mk' rfl rfl (fun e => nomatch e) (fun _ b => nomatch b) (fun b => by rcases b with b | b <;> cases b)
  | killLate _ k h1 h2 => exact h.mk' rfl rfl id (fun _ b => nomatch b) (fun b => by rcases b with b | b <;> cases b)
  | killFails _ h1 h2 => exact h.mk' rfl rfl id (fun _ b => nomatch b) (fun b => by rcases b with b | b <;> cases b)
  | noKill _ h1 => exact h.mk' rfl rfl id (fun _ b => nomatch b) (fun b => by rcases b with b | b <;> cases b)
  | reset _ ok h1 =>
    refine h.mk' rfl rfl (fun e => ?_) (fun _ b => nomatch b) (fun b => by rcases b with b | b <;> cases b)
    have e : (if s.assigned && !s.detached && s.child == .running then Child.exited 0 else s.child) = .absent := e
    split at e
    · cases e
    · exact e

theorem run_inv {d : Bool} {es : List Event} {s : State} (h : Run (init d) es s) : Inv s := by
  induction h with
  | nil => exact init_inv d
  | snoc _ hs ih => exact step_inv ih hs

/-- What was seen is what the state says. -/
theorem run_seen {d : Bool} {es : List Event} {s : State} (h : Run (init d) es s) : ∀ c, (s.chan c).written = wroteTo c es ∧ (s.chan c).calls = handed c es := by
  induction h with
  | nil => exact fun c => ⟨rfl, rfl⟩
  | @snoc s1 s2 es e _ hs ih =>
    intro c
    rw [wroteTo_append, handed_append, ← (ih c).1, ← (ih c).2]
    cases hs with
    | write _ c' d h1 h2 =>
      by_cases e : c' = c
      · subst e; rw [upd_same]; simp [wroteTo, handed]
      · rw [upd_other _ _ (Ne.symm e)]; simp [wroteTo, handed, e]
    | readNow _ c' rest n h1 h2 h3 h4 =>
      by_cases e : c' = c
      · subst e; rw [upd_same]; simp [wroteTo, handed]
      · rw [upd_other _ _ (Ne.symm e)]; simp [wroteTo, handed, e]
    | result _ c' d h1 h2 h3 =>
      by_cases e : c' = c
      · subst e
        show ((s1.upd c' _).chan c').written = _ ∧ ((s1.upd c' _).chan c').calls = _
        rw [upd_same]; simp [wroteTo, handed]
      · show ((s1.upd c' _).chan c).written = _ ∧ ((s1.upd c' _).chan c).calls = _
        rw [upd_other _ _ (Ne.symm e)]; simp [wroteTo, handed, e]
    | close _ c' h1 => by_cases e : c = c' <;> simp [wroteTo, handed, State.upd, e]
    | ready _ c' n h1 h2 h3 h4 => by_cases e : c = c' <;> simp [wroteTo, handed, State.upd, e]
    | broken _ c' h1 h2 h3 => by_cases e : c = c' <;> simp [wroteTo, handed, State.upd, e]
    | ioFails _ c' h1 => by_cases e : c = c' <;> simp [wroteTo, handed, State.upd, e]
    | pend _ c' rest h1 h2 h3 => by_cases e : c = c' <;> simp [wroteTo, handed, State.upd, e]
    | issueEof _ c' rest h1 h2 h3 => by_cases e : c = c' <;> simp [wroteTo, handed, State.upd, e]
    | resultEof _ c' h1 h2 h3 => by_cases e : c = c' <;> simp [wroteTo, handed, State.upd, e]
    | _ => simp [wroteTo, handed]

/-! ### Output -/

/-- C158: at any time, the handler of a stream has been called with a part of the output from its start on, in order, nothing left out and nothing repeated, in pieces of 1 to 4095 bytes. -/
theorem C158_output_in_order (d : Bool) (es : List Event) (s : State) (h : Run (init d) es s) (c : Chan) :
    (handed c es).flatten <+: wroteTo c es ∧ ∀ x ∈ handed c es, 0 < x.length ∧ x.length ≤ 4095 := by
  have hf := (run_inv h).flow c
  obtain ⟨h1, h2⟩ := run_seen h c
  rw [← h1, ← h2]
  exact ⟨hf.pre, hf.size⟩

/-- C158: once the end of a stream was found, all output has been handed over. -/
theorem C158_all_output_partial (d : Bool) (es : List Event) (s : State) (h : Run (init d) es s) (c : Chan) (he : (s.chan c).eof = true) :
    (handed c es).flatten = wroteTo c es := by
  have hf := (run_inv h).flow c
  obtain ⟨h1, h2⟩ := run_seen h c
  rw [← h1, ← h2]
  exact (hf.eof he).1

/-! ### End of the child -/

/-- The owner is ending it. -/
def Api.ending : Api → Bool
  | .idle => false
  | .poll => false
  | .poll2 => false
  | _ => true

/-- The thread has been joined. -/
def Api.past : Api → Bool
  | .kill _ => true
  | .reset _ => true
  | .ended => true
  | _ => false

structure Exit (s : State) : Prop where
  exited : ∀ k, s.exited = some k → live s.pump = false ∧ ∃ k', s.child = .exited k' ∧ (k = k' ∨ k = kFailedToGet)
  failed : s.failed = true → live s.pump = false ∧ s.exited = none
  absent : s.child = .absent → s.exited = none ∧ s.failed = false ∧ s.assigned = false
  pump : s.assigned = true → s.pump ≠ none ∨ s.api.past = true
  assigned : s.pump ≠ none → s.assigned = true
  polls : s.api = .poll ∨ s.api = .poll2 → s.pump ≠ none
  down : s.shutdown = true → s.api.ending = true
  stop : s.pump = some .stopped → s.failed = true ∨ s.exited.isSome = true ∨ s.shutdown = true
  calm : s.dtor = true → s.api.ending = true
  spare : s.dtor = true → s.detached = true → s.api ≠ .join true ∧ s.api ≠ .kill true
  kill : s.assigned = true → ¬ (s.dtor = true ∧ s.detached = true) → (s.api = .join false ∨ s.api = .kill false ∨ s.api = .reset true) → ∃ k, s.child = .exited k

theorem init_exit (d : Bool) : Exit (init d) := by
  constructor <;> simp [init, Api.ending]

theorem Exit.goes {s s' : State} (h : Exit s) (hl : live s.pump = true) (hl' : live s'.pump = true) (e1 : s'.exited = s.exited) (e2 : s'.failed = s.failed) (e3 : s'.child = s.child)
    (e4 : s'.assigned = s.assigned) (e5 : s'.api = s.api) (e6 : s'.shutdown = s.shutdown) (e7 : s'.dtor = s.dtor) (e8 : s'.detached = s.detached) : Exit s' := by
  have hn : s.pump ≠ none := by intro e; rw [e] at hl; cases hl
  have hn' : s'.pump ≠ none := by intro e; rw [e] at hl'; cases hl'
  refine ⟨?_, ?_, ?_, fun _ => .inl hn', ?_, fun _ => hn', ?_, ?_, ?_, ?_, ?_⟩
  · intro k e; rw [e1] at e; have := (h.exited k e).1; rw [hl] at this; cases this
  · intro e; rw [e2] at e; have := (h.failed e).1; rw [hl] at this; cases this
  · rw [e1, e2, e3, e4]; exact h.absent
  · intro _; rw [e4]; exact h.assigned hn
  · rw [e6, e5]; exact h.down
  · intro e; rw [e] at hl'; cases hl'
  · rw [e7, e5]; exact h.calm
  · rw [e7, e5, e8]; exact h.spare
  · rw [e4, e7, e8, e5, e3]; exact h.kill

theorem Exit.fails {s s' : State} (h : Exit s) (hl : live s.pump = true) (hc : s.child ≠ .absent) (hp : s'.pump = some .stopped) (e1 : s'.exited = s.exited) (e2 : s'.failed = true) (e3 : s'.child = s.child)
    (e4 : s'.assigned = s.assigned) (e5 : s'.api = s.api) (e6 : s'.shutdown = s.shutdown) (e7 : s'.dtor = s.dtor) (e8 : s'.detached = s.detached) : Exit s' := by
  have hn : s.pump ≠ none := by intro e; rw [e] at hl; cases hl
  have hn' : s'.pump ≠ none := by rw [hp]; simp
  have hx : s.exited = none := by
    cases e : s.exited with
    | none => rfl
    | some k => have := (h.exited k e).1; rw [hl] at this; cases this
  refine ⟨?_, ?_, ?_, fun _ => .inl hn', ?_, fun _ => hn', ?_, ?_, ?_, ?_, ?_⟩
  · intro k e; rw [e1, hx] at e; cases e
  · intro _; rw [hp, e1]; exact ⟨rfl, hx⟩
  · intro e; rw [e3] at e; exact absurd e hc
  · intro _; rw [e4]; exact h.assigned hn
  · rw [e6, e5]; exact h.down
  · intro _; exact .inl e2
  · rw [e7, e5]; exact h.calm
  · rw [e7, e5, e8]; exact h.spare
  · rw [e4, e7, e8, e5, e3]; exact h.kill

theorem Exit.api {s s' : State} (h : Exit s) (ha : s.api.ending = false) (ha' : s'.api.ending = false) (hq : s'.api = .poll ∨ s'.api = .poll2 → s.pump ≠ none) (e0 : s'.pump = s.pump) (e1 : s'.exited = s.exited) (e2 : s'.failed = s.failed) (e3 : s'.child = s.child)
    (e4 : s'.assigned = s.assigned) (e6 : s'.shutdown = s.shutdown) (e7 : s'.dtor = s.dtor) (_ : s'.detached = s.detached) : Exit s' := by
  have hp : s.api.past = false := by cases e : s.api <;> rw [e] at ha <;> first | rfl | cases ha
  refine ⟨?_, ?_, ?_, ?_, ?_, ?_, ?_, ?_, ?_, ?_, ?_⟩
  · rw [e1, e0, e3]; exact h.exited
  · rw [e1, e0, e2]; exact h.failed
  · rw [e1, e2, e3, e4]; exact h.absent
  · intro e
    rw [e0]
    rcases h.pump (e4 ▸ e) with e | e
    · exact .inl e
    · rw [hp] at e; cases e
  · rw [e0, e4]; exact h.assigned
  · rw [e0]; exact hq
  · intro e; have := h.down (e6 ▸ e); rw [ha] at this; cases this
  · rw [e0, e1, e2, e6]; exact h.stop
  · intro e; have := h.calm (e7 ▸ e); rw [ha] at this; cases this
  · intro e; have := h.calm (e7 ▸ e); rw [ha] at this; cases this
  · intro _ _ e
    rcases e with e | e | e <;> rw [e] at ha' <;> cases ha'

theorem step_exit {e : Event} {s s' : State} (hi : Inv s) (h : Exit s) (hs : Step e s s') : Exit s' := by
  have h' := h
  obtain ⟨x1, x2, x3, x4, x5, x6, x7, x8, x9, x10, x11⟩ := h'
  cases hs with
  | write _ c d h1 h2 => exact ⟨x1, x2, x3, x4, x5, x6, x7, x8, x9, x10, x11⟩
  | close _ c h1 => exact ⟨x1, x2, x3, x4, x5, x6, x7, x8, x9, x10, x11⟩
  | exit _ code h1 => 
    refine ⟨?_, x2, ?_, x4, x5, x6, x7, x8, x9, x10, ?_⟩
    · intro k hk
      obtain ⟨-, k', h2, -⟩ := x1 k hk
      rw [h1] at h2; cases h2
    · intro e; cases e
    · intro _ _ _; exact ⟨_, rfl⟩
  | ready _ c n h1 h2 h3 h4 => exact ⟨x1, x2, x3, x4, x5, x6, x7, x8, x9, x10, x11⟩
  | broken _ c h1 h2 h3 => exact ⟨x1, x2, x3, x4, x5, x6, x7, x8, x9, x10, x11⟩
  | ioFails _ c h1 => exact ⟨x1, x2, x3, x4, x5, x6, x7, x8, x9, x10, x11⟩
  | readNow _ c rest n h1 h2 h3 h4 => exact ⟨x1, x2, x3, x4, x5, x6, x7, x8, x9, x10, x11⟩
  | pend _ c rest h1 h2 h3 => exact h.goes (by rw [h1]; rfl) (live_go rest) rfl rfl rfl rfl rfl rfl rfl rfl
  | issueEof _ c rest h1 h2 h3 => exact h.goes (by rw [h1]; rfl) (live_go rest) rfl rfl rfl rfl rfl rfl rfl rfl
  | result _ c d h1 h2 h3 => exact h.goes (by rw [h1]; rfl) rfl rfl rfl rfl rfl rfl rfl rfl rfl
  | resultEof _ c h1 h2 h3 => exact ⟨x1, x2, x3, x4, x5, x6, x7, x8, x9, x10, x11⟩
  | issueFails _ c rest h1 => exact h.fails (by rw [h1]; rfl) (hi.running h1) rfl rfl rfl rfl rfl rfl rfl rfl rfl
  | resultFails _ c h1 h2 h3 => exact h.fails (by rw [h1]; rfl) (hi.running h1) rfl rfl rfl rfl rfl rfl rfl rfl rfl
  | waitFails _ h1 => exact h.fails (by rw [h1]; rfl) (hi.running h1) rfl rfl rfl rfl rfl rfl rfl rfl rfl
  | seesExit _ k code h1 h2 h3 =>
    have hl : live s.pump = true := by rw [h1]; rfl
    have hn : s.pump ≠ none := by rw [h1]; simp
    refine ⟨?_, ?_, ?_, ?_, fun _ => x5 hn, ?_, x7, ?_, x9, x10, x11⟩
    · intro k' e; cases e; exact ⟨rfl, k, h2, h3⟩
    · intro e; have := (x2 e).1; rw [hl] at this; cases this
    · intro e; exact absurd e (hi.running h1)
    · intro _; left; simp
    · intro _; simp
    · intro _; right; left; rfl
  | seesShutdown _ h1 h2 h3 =>
    have hl : live s.pump = true := by rw [h1]; rfl
    have hn : s.pump ≠ none := by rw [h1]; simp
    refine ⟨?_, ?_, ?_, ?_, fun _ => x5 hn, ?_, x7, ?_, x9, x10, x11⟩
    · intro k e; have := (x1 k e).1; rw [hl] at this; cases this
    · intro e; have := (x2 e).1; rw [hl] at this; cases this
    · intro e; exact absurd e (hi.running h1)
    · intro _; left; simp
    · intro _; simp
    · intro _; right; right; exact h3
  | startFails _ h1 h2 => exact ⟨x1, x2, x3, x4, x5, x6, x7, x8, x9, x10, x11⟩
  | startNoJob _ h1 h2 =>
    have ha := hi.fresh h2 h1
    obtain ⟨k1, k2, k3⟩ := x3 ha
    refine ⟨?_, x2, (fun e => nomatch e), x4, x5, x6, x7, x8, x9, x10, ?_⟩
    · intro k e
      have e : s.exited = some k := e
      rw [k1] at e; cases e
    · intro e
      have e : s.assigned = true := e
      rw [k3] at e; cases e
  | start _ used h1 h2 h3 =>
    have ha := hi.fresh h2 h1
    obtain ⟨k1, k2, k3⟩ := x3 ha
    refine ⟨?_, ?_, (fun e => nomatch e), fun _ => .inl (by simp), fun _ => rfl, fun _ => by simp, x7, ?_, x9, x10, ?_⟩
    · intro k e
      have e : s.exited = some k := e
      rw [k1] at e; cases e
    · intro e
      have e : s.failed = true := e
      rw [k2] at e; cases e
    · intro e
      have := live_go used
      have e : some (go used) = some .stopped := e
      rw [e] at this; cases this
    · intro _ _ e
      have e : s.api = _ ∨ s.api = _ ∨ s.api = _ := e
      rw [h1] at e
      rcases e with e | e | e <;> cases e
  | runs _ h1 h2 => exact h.api (by rw [h1]; rfl) rfl (fun _ => h2) rfl rfl rfl rfl rfl rfl rfl rfl
  | pollFailed _ h1 h2 => exact h.api (by rw [h1]; rfl) rfl (fun e => by rcases e with e | e <;> cases e) rfl rfl rfl rfl rfl rfl rfl rfl
  | pollOk _ h1 h2 => exact h.api (by rw [h1]; rfl) rfl (fun _ => x6 (.inl h1)) rfl rfl rfl rfl rfl rfl rfl rfl
  | pollExited _ h1 h2 => exact h.api (by rw [h1]; rfl) rfl (fun e => by rcases e with e | e <;> cases e) rfl rfl rfl rfl rfl rfl rfl rfl
  | pollAgain _ h1 h2 => exact h.api (by rw [h1]; rfl) rfl (fun _ => x6 (.inr h1)) rfl rfl rfl rfl rfl rfl rfl rfl
  | terminate _ dtor h1 =>
    have hp : s.api.past = false := by rw [h1]; rfl
    refine ⟨x1, x2, x3, ?_, x5, fun e => by (rcases e with e | e <;> cases e), fun _ => rfl, ?_, fun _ => rfl, ?_, ?_⟩
    · intro e
      rcases x4 e with e | e
      · exact .inl e
      · rw [hp] at e; cases e
    · intro e
      rcases x8 e with e' | e' | e'
      · exact .inl e'
      · exact .inr (.inl e')
      · right; right
        show (s.shutdown || _) = true
        rw [e']; rfl
    · intro e1 e2
      have k1 : dtor = true := e1
      have k2 : s.detached = true := e2
      subst k1
      simp [k2]
    · intro e1 e2 e3
      have e1 : s.assigned = true := e1
      have e2 : ¬ (dtor = true ∧ s.detached = true) := e2
      have hn : s.pump ≠ none := by
        rcases x4 e1 with e | e
        · exact e
        · rw [hp] at e; cases e
      obtain ⟨p, hp⟩ := Option.ne_none_iff_exists'.mp hn
      rcases e3 with e3 | e3 | e3
      · have e3 : Api.join (s.pump.isSome && !hasExited s && !(dtor && s.detached)) = .join false := e3
        have hd : (dtor && s.detached) = false := by
          cases hd : dtor && s.detached with
          | false => rfl
          | true => exact absurd (by simpa using hd) e2
        have : hasExited s = true := by
          injection e3 with e3
          rw [hp, hd] at e3
          simpa using e3
        unfold hasExited at this
        rw [hp] at this
        obtain ⟨k, hk⟩ := Option.isSome_iff_exists.mp this
        obtain ⟨-, k', h3, -⟩ := x1 k hk
        exact ⟨k', h3⟩
      · cases e3
      · cases e3
  | joined _ kill h1 h2 =>
    refine ⟨fun k e => ⟨rfl, (x1 k e).2⟩, fun e => ⟨rfl, (x2 e).2⟩, x3, fun _ => .inr rfl, fun e => absurd rfl e, fun e => by (rcases e with e | e <;> cases e), fun _ => rfl,
      fun e => (nomatch e), fun _ => rfl, ?_, ?_⟩
    · intro e1 e2
      have := (x10 e1 e2).1
      rw [h1] at this
      refine ⟨fun e => (nomatch e), fun e => ?_⟩
      cases e
      exact this rfl
    · intro e1 e2 e3
      rcases e3 with e3 | e3 | e3
      · cases e3
      · cases e3
        exact x11 e1 e2 (.inl h1)
      · cases e3
  | killed _ h1 h2 =>
    refine ⟨?_, x2, (fun e => nomatch e), fun _ => .inr rfl, x5, fun e => by (rcases e with e | e <;> cases e), fun _ => rfl, x8, fun _ => rfl, fun _ _ => ⟨(fun e => nomatch e), (fun e => nomatch e)⟩, fun _ _ _ => ⟨_, rfl⟩⟩
    intro k e
    obtain ⟨-, k', h3, -⟩ := x1 k e
    rw [h2] at h3; cases h3
  | killLate _ k h1 h2 =>
    exact ⟨x1, x2, x3, fun _ => .inr rfl, x5, fun e => by (rcases e with e | e <;> cases e), fun _ => rfl, x8, fun _ => rfl, fun _ _ => ⟨(fun e => nomatch e), (fun e => nomatch e)⟩, fun _ _ _ => ⟨_, h2⟩⟩
  | killFails _ h1 h2 =>
    exact ⟨x1, x2, x3, fun _ => .inr rfl, x5, fun e => by (rcases e with e | e <;> cases e), fun _ => rfl, x8, fun _ => rfl, fun _ _ => ⟨(fun e => nomatch e), (fun e => nomatch e)⟩,
      fun _ _ e => by rcases e with e | e | e <;> cases e⟩
  | noKill _ h1 =>
    exact ⟨x1, x2, x3, fun _ => .inr rfl, x5, fun e => by (rcases e with e | e <;> cases e), fun _ => rfl, x8, fun _ => rfl, fun _ _ => ⟨(fun e => nomatch e), (fun e => nomatch e)⟩,
      fun a b _ => x11 a b (.inr (.inl h1))⟩
  | reset _ ok h1 =>
    refine ⟨?_, x2, ?_, fun _ => .inr rfl, x5, fun e => by (rcases e with e | e <;> cases e), fun _ => rfl, x8, fun _ => rfl, fun _ _ => ⟨(fun e => nomatch e), (fun e => nomatch e)⟩,
      fun _ _ e => by rcases e with e | e | e <;> cases e⟩
    · intro k e
      obtain ⟨h2, k', h3, h4⟩ := x1 k e
      refine ⟨h2, k', ?_, h4⟩
      show (if _ then Child.exited 0 else s.child) = _
      rw [h3]; simp
    · intro e
      have e : (if s.assigned && !s.detached && s.child == .running then Child.exited 0 else s.child) = .absent := e
      split at e
      · cases e
      · exact x3 e

theorem run_exit {d : Bool} {es : List Event} {s : State} (h : Run (init d) es s) : Exit s := by
  induction h with
  | nil => exact init_exit d
  | snoc h hs ih => exact step_exit (run_inv h) ih hs

/-- C159: when the process is said to have exited it has, and the exit code is that of the process, or says that the code could not be retrieved. -/
theorem C159_exit_code (d : Bool) (es : List Event) (s : State) (h : Run (init d) es s) (hx : hasExited s = true) :
    ∃ k, s.child = .exited k ∧ (exitCode s = k ∨ exitCode s = kFailedToGet) := by
  have he := run_exit h
  unfold hasExited exitCode at *
  cases hp : s.pump with
  | none => rw [hp] at hx; cases hx
  | some p =>
    rw [hp] at hx
    obtain ⟨k, hk⟩ := Option.isSome_iff_exists.mp hx
    obtain ⟨-, k', h1, h2⟩ := he.exited k hk
    refine ⟨k', h1, ?_⟩
    simp only [hk, Option.getD_some]
    exact h2

/-- C159: while it runs it is not said to have exited, and the exit code is one of the two codes for that. -/
theorem C159_running (d : Bool) (es : List Event) (s : State) (h : Run (init d) es s) (hx : s.child = .running) :
    hasExited s = false ∧ (exitCode s = kStillRunning ∨ exitCode s = kNotStarted) := by
  cases hh : hasExited s with
  | true =>
    obtain ⟨k, h1, -⟩ := C159_exit_code d es s h hh
    rw [hx] at h1; cases h1
  | false =>
    refine ⟨rfl, ?_⟩
    unfold hasExited exitCode at *
    cases hp : s.pump with
    | none => exact .inr rfl
    | some p =>
      rw [hp] at hh
      left
      cases e : s.exited with
      | none => rfl
      | some k => rw [e] at hh; cases hh

/-- C159: `RunUntilExit` returns success only if the process has exited, and an error only if the thread that reads its output failed; then it never will be said to have exited. -/
theorem C159_run_until_exit (d : Bool) (es : List Event) (s s' : State) (ok : Bool) (h : Run (init d) es s) (hs : Step (.ran ok) s s') :
    hasExited s' = ok ∧ statusOk s' = ok := by
  have he := run_exit h
  cases hs with
  | pollFailed _ h1 h2 =>
    refine ⟨?_, h2⟩
    show hasExited s = false
    unfold statusOk at h2
    unfold hasExited
    cases hp : s.pump with
    | none => rfl
    | some p =>
      rw [hp] at h2
      rw [(he.failed (by simpa using h2)).2]; rfl
  | pollExited _ h1 h2 =>
    refine ⟨h2, ?_⟩
    show statusOk s = true
    unfold hasExited at h2
    unfold statusOk
    cases hp : s.pump with
    | none => rfl
    | some p =>
      rw [hp] at h2
      cases hf : s.failed with
      | false => rfl
      | true => rw [(he.failed hf).2] at h2; cases h2

/-- C159: the answers do not change any more, until the owner ends it. -/
theorem C159_stays (d : Bool) (es : List Event) (s s' : State) (e : Event) (h : Run (init d) es s) (hs : Step e s s') (hx : hasExited s = true) :
    hasExited s' = true ∧ exitCode s' = exitCode s ∨ s.api.ending = true := by
  have he := run_exit h
  have hp : ∃ p, s.pump = some p := by
    cases hp : s.pump with
    | none => unfold hasExited at hx; rw [hp] at hx; cases hx
    | some p => exact ⟨p, rfl⟩
  obtain ⟨p, hp⟩ := hp
  have hx' := hx
  unfold hasExited at hx'
  rw [hp] at hx'
  obtain ⟨k, hk⟩ := Option.isSome_iff_exists.mp hx'
  have hl := (he.exited k hk).1
  rw [hp] at hl
  have key : ∀ s' : State, s'.pump = s.pump → s'.exited = s.exited → hasExited s' = true ∧ exitCode s' = exitCode s := by
    intro s' h1 h2
    unfold hasExited exitCode
    rw [h1, h2, hp, hk]
    exact ⟨rfl, rfl⟩
  have dead : ∀ q, s.pump = some q → live (some q) = true → False := by
    intro q e1 e2
    rw [hp] at e1; cases e1
    rw [hl] at e2; cases e2
  cases hs with
  | pend _ c rest h1 => exact (dead _ h1 rfl).elim
  | issueEof _ c rest h1 => exact (dead _ h1 rfl).elim
  | issueFails _ c rest h1 => exact (dead _ h1 rfl).elim
  | seesExit _ k code h1 => exact (dead _ h1 rfl).elim
  | seesShutdown _ h1 => exact (dead _ h1 rfl).elim
  | result _ c d h1 => exact (dead _ h1 rfl).elim
  | resultFails _ c h1 => exact (dead _ h1 rfl).elim
  | waitFails _ h1 => exact (dead _ h1 rfl).elim
  | start _ used h1 h2 =>
    have := (run_inv h).absent ((run_inv h).fresh h2 h1)
    rw [hp] at this; cases this.2
  | joined _ kill h1 => right; rw [h1]; rfl
  | _ => exact .inl (key _ rfl rfl)

/-- What `ProcessFactory::Run` (process_win.cc:862-883) returns once `RunUntilExit` has returned success. -/
def factoryOk (s : State) : Bool := exitCode s == 0

/-- C159: `ProcessFactory::Run` succeeds only if the process has exited with code 0. -/
theorem C159_factory (d : Bool) (es : List Event) (s s' : State) (h : Run (init d) es s) (hs : Step (.ran true) s s') (hok : factoryOk s' = true) : s'.child = .exited 0 := by
  have hx := (C159_run_until_exit d es s s' true h hs).1
  obtain ⟨k, h1, h2⟩ := C159_exit_code d _ s' (.snoc h hs) hx
  have h3 : exitCode s' = 0 := by simpa [factoryOk] using hok
  rw [h3] at h2
  rcases h2 with h2 | h2
  · rw [← h2] at h1; exact h1
  · cases h2

/-! ### Waiting for the end -/

/-- How many steps the pump thread has left at most after the child has exited. -/
def left (s : State) : Nat := match s.pump with
  | none => 0
  | some .stopped => 0
  | some .waiting => 1
  | some (.issue _ rest) => (s.chan .out).pipe.length + (s.chan .err).pipe.length + rest.length + 2

theorem left_go (s : State) (r : List Chan) (h : s.pump = some (go r)) : left s ≤ (s.chan .out).pipe.length + (s.chan .err).pipe.length + r.length + 1 := by
  unfold left
  rw [h]
  cases r with
  | nil => simp only [go]; omega
  | cons c r => simp only [go, List.length_cons]; omega

theorem left_upd (s : State) (c : Chan) (x : Stream) (h : x.pipe.length ≤ (s.chan c).pipe.length) : left (s.upd c x) ≤ left s := by
  have h1 : ∀ c', ((s.upd c x).chan c').pipe.length ≤ (s.chan c').pipe.length := by
    intro c'
    by_cases e : c' = c
    · subst e; rw [upd_same]; exact h
    · rw [upd_other _ _ e]; exact Nat.le_refl _
  have h2 := h1 .out
  have h3 := h1 .err
  unfold left
  show (match s.pump with | none => 0 | some .stopped => 0 | some .waiting => 1 | some (.issue _ rest) => _) ≤ _
  split <;> omega

theorem left_step {e : Event} {s s' : State} (hi : Inv s) (hx : ∃ k, s.child = .exited k) (hs : Step e s s') (hw : e.isWrite = false) :
    left s' + (if e.isPump then 1 else 0) ≤ left s ∧ ∃ k, s'.child = .exited k := by
  obtain ⟨k, hx⟩ := hx
  have hno : ∀ c, ¬ s.chosen c := fun c h => h.1 k hx
  cases hs with
  | write _ c d h1 h2 => cases hw
  | close _ c h1 => exact ⟨left_upd s c _ (Nat.le_refl _), k, hx⟩
  | exit _ code h1 => rw [hx] at h1; cases h1
  | ready _ c n h1 h2 h3 h4 => exact ⟨left_upd s c _ (by simp), k, hx⟩
  | broken _ c h1 h2 h3 => exact ⟨left_upd s c _ (Nat.le_refl _), k, hx⟩
  | ioFails _ c h1 => exact ⟨left_upd s c _ (Nat.le_refl _), k, hx⟩
  | readNow _ c rest n h1 h2 h3 h4 =>
    refine ⟨?_, k, hx⟩
    have e1 : left s = (s.chan .out).pipe.length + (s.chan .err).pipe.length + rest.length + 2 := by unfold left; rw [h1]
    rw [e1]
    unfold left
    show (match s.pump with | none => 0 | some .stopped => 0 | some .waiting => 1 | some (.issue _ rest) => _) + 1 ≤ _
    rw [h1]
    cases c
    · rw [upd_same, upd_other _ _ (by decide)]
      simp only [List.length_drop]; omega
    · rw [upd_same, upd_other _ _ (by decide)]
      simp only [List.length_drop]; omega
  | pend _ c rest h1 h2 h3 =>
    refine ⟨?_, k, hx⟩
    have e1 : left s = (s.chan .out).pipe.length + (s.chan .err).pipe.length + rest.length + 2 := by unfold left; rw [h1]
    have := left_go { s.upd c { s.chan c with io := .pending } with pump := some (go rest) } rest rfl
    have h4 : ∀ c', ((s.upd c { s.chan c with io := .pending }).chan c').pipe = (s.chan c').pipe := by
      intro c'
      by_cases e : c' = c
      · subst e; rw [upd_same]
      · rw [upd_other _ _ e]
    have this : left _ ≤ ((s.upd c { s.chan c with io := .pending }).chan .out).pipe.length + ((s.upd c { s.chan c with io := .pending }).chan .err).pipe.length + rest.length + 1 := this
    rw [h4, h4] at this
    show _ + 1 ≤ _
    omega
  | issueEof _ c rest h1 h2 h3 =>
    refine ⟨?_, k, hx⟩
    have e1 : left s = (s.chan .out).pipe.length + (s.chan .err).pipe.length + rest.length + 2 := by unfold left; rw [h1]
    have := left_go { s.upd c { s.chan c with eof := true } with pump := some (go rest) } rest rfl
    have h4 : ∀ c', ((s.upd c { s.chan c with eof := true }).chan c').pipe = (s.chan c').pipe := by
      intro c'
      by_cases e : c' = c
      · subst e; rw [upd_same]
      · rw [upd_other _ _ e]
    have this : left _ ≤ ((s.upd c { s.chan c with eof := true }).chan .out).pipe.length + ((s.upd c { s.chan c with eof := true }).chan .err).pipe.length + rest.length + 1 := this
    rw [h4, h4] at this
    show _ + 1 ≤ _
    omega
  | issueFails _ c rest h1 =>
    refine ⟨?_, k, hx⟩
    have e1 : left s = (s.chan .out).pipe.length + (s.chan .err).pipe.length + rest.length + 2 := by unfold left; rw [h1]
    show 0 + 1 ≤ _
    omega
  | seesExit _ k' code h1 h2 h3 => exact ⟨by show 0 + 1 ≤ _; unfold left; rw [h1]; exact Nat.le_refl _, k, hx⟩
  | seesShutdown _ h1 h2 h3 => exact absurd hx (h2 k)
  | result _ c d h1 h2 h3 => exact absurd h2 (hno c)
  | resultEof _ c h1 h2 h3 => exact absurd h2 (hno c)
  | resultFails _ c h1 h2 h3 => exact absurd h2 (hno c)
  | waitFails _ h1 => exact ⟨by show 0 + 1 ≤ _; unfold left; rw [h1]; exact Nat.le_refl _, k, hx⟩
  | startFails _ h1 h2 => have := hi.fresh h2 h1; rw [hx] at this; cases this
  | startNoJob _ h1 h2 => have := hi.fresh h2 h1; rw [hx] at this; cases this
  | start _ used h1 h2 h3 => have := hi.fresh h2 h1; rw [hx] at this; cases this
  | joined _ kill h1 h2 => exact ⟨Nat.zero_le _, k, hx⟩
  | killed _ h1 h2 => rw [hx] at h2; cases h2
  | killFails _ h1 h2 => rw [hx] at h2; cases h2
  | reset _ ok h1 =>
    refine ⟨Nat.le_refl _, k, ?_⟩
    show (if _ then Child.exited 0 else s.child) = _
    rw [hx]; simp
  | _ => exact ⟨Nat.le_refl _, k, hx⟩

theorem Inv.left_bound {s : State} (h : Inv s) : left s ≤ (s.chan .out).pipe.length + (s.chan .err).pipe.length + 3 := by
  unfold left
  cases hp : s.pump with
  | none => simp
  | some p =>
    cases p with
    | waiting => simp
    | stopped => simp
    | issue c rest =>
      have h1 := h.once c rest hp
      have : rest.length ≤ 1 := by
        match rest, h1 with
        | [], _ => simp
        | [_], _ => simp
        | a :: b :: l, h1 => exact absurd h1 (by cases c <;> cases a <;> cases b <;> simp)
      simp only; omega

/-- C160: after the process has exited, if nothing more is written to its pipes, then the thread that reads its output does at most as many steps as there are bytes in the pipes, and three more. Then, unless the owner is
ending it, either the process is said to have exited or the thread has failed, so that `RunUntilExit` returns. Partial: see `C160_never_noticed_violated`. -/
theorem C160_exit_noticed_partial (d : Bool) (es es' : List Event) (s s' : State) (k : Nat) (h : Run (init d) es s) (hx : s.child = .exited k) (h' : Run s es' s')
    (hw : ∀ e ∈ es', e.isWrite = false) (hp : s.pump ≠ none) (hq : s'.api.ending = false) :
    es'.countP Event.isPump ≤ (s.chan .out).pipe.length + (s.chan .err).pipe.length + 3 ∧
    ((∃ e s'', Step e s' s'' ∧ e.isPump = true) ∨ hasExited s' = true ∨ statusOk s' = false) := by
  have key : Inv s' ∧ Exit s' ∧ (∃ k, s'.child = .exited k) ∧ es'.countP Event.isPump + left s' ≤ left s ∧ s'.assigned = true := by
    clear hq
    induction h' with
    | nil => exact ⟨run_inv h, run_exit h, ⟨k, hx⟩, by simp, (run_exit h).assigned hp⟩
    | @snoc s1 s2 es1 e r hs ih =>
      obtain ⟨i1, i2, i3, i4, i5⟩ := ih (fun e he => hw e (by simp [he]))
      obtain ⟨j1, j2⟩ := left_step i1 i3 hs (hw e (by simp))
      refine ⟨step_inv i1 hs, step_exit i1 i2 hs, j2, ?_, ?_⟩
      · rw [List.countP_append, List.countP_cons, List.countP_nil]
        cases hb : e.isPump
        · rw [hb] at j1; simp only [Bool.false_eq_true, if_false] at j1 ⊢; omega
        · rw [hb] at j1; simp only [if_true] at j1 ⊢; omega
      · cases hs <;> first | exact i5 | rfl
  obtain ⟨hI, hE, ⟨k', hk⟩, hc, hn⟩ := key
  have hb := (run_inv h).left_bound
  refine ⟨by omega, ?_⟩
  have hpast : s'.api.past = false := by cases e : s'.api <;> rw [e] at hq <;> first | rfl | cases hq
  have hn : s'.pump ≠ none := by
    rcases hE.pump hn with h | h
    · exact h
    · rw [hpast] at h; cases h
  obtain ⟨p, hp'⟩ := Option.ne_none_iff_exists'.mp hn
  cases p with
  | waiting => exact .inl ⟨_, _, .seesExit s' k' k' hp' hk (.inl rfl), rfl⟩
  | issue c rest =>
    left
    cases hpi : (s'.chan c).pipe with
    | cons a l => exact ⟨_, _, .readNow s' c rest 1 hp' (by decide) (by decide) (by rw [hpi]; simp), rfl⟩
    | nil =>
      cases ho : (s'.chan c).opened with
      | true => exact ⟨_, _, .pend s' c rest hp' hpi ho, rfl⟩
      | false => exact ⟨_, _, .issueEof s' c rest hp' hpi ho, rfl⟩
  | stopped =>
    right
    unfold hasExited statusOk
    rw [hp']
    rcases hE.stop hp' with h | h | h
    · right; simp [h]
    · left; exact h
    · have := hE.down h; rw [hq] at this; cases this

/-! ### Terminating -/

theorem run_assigned {d : Bool} {es : List Event} {s : State} (h : Run (init d) es s) : (.started true ∈ es ↔ s.assigned = true) ∧ s.detached = d := by
  induction h with
  | nil => simp [init]
  | @snoc s1 s2 es e _ hs ih =>
    have : (Event.started true ∈ es ++ [e] ↔ Event.started true ∈ es ∨ e = .started true) := by simp [eq_comm]
    rw [this]
    have other : e ≠ .started true → (Event.started true ∈ es ∨ e = .started true ↔ s1.assigned = true) := by
      intro hne
      rw [ih.1.symm]
      exact ⟨fun h => h.elim id (fun h => absurd h hne), .inl⟩
    cases hs <;> first | exact ⟨other (by simp), ih.2⟩ | exact ⟨by simp, ih.2⟩

/-- C161: when `Terminate` has returned success, the process that was started is not running any more; nor when it has returned an error or the destructor has been called, unless the process
is detached. Partial: if `Start` succeeded. -/
theorem C161_terminated_partial (d : Bool) (es : List Event) (s s' : State) (ok : Bool) (h : Run (init d) es s) (hs : Step (.terminated ok) s s') (hst : .started true ∈ es)
    (hd : d = false ∨ ok = true ∧ s.dtor = false) : s'.child ≠ .running := by
  have he := run_exit h
  obtain ⟨h1, h2⟩ := run_assigned h
  have ha := h1.mp hst
  cases hs with
  | reset _ _ h3 =>
    show (if s.assigned && !s.detached && s.child == .running then Child.exited 0 else s.child) ≠ _
    rw [ha, h2]
    rcases hd with rfl | ⟨rfl, hd⟩
    · cases hc : s.child <;> simp
    · obtain ⟨k, hk⟩ := he.kill ha (by simp [hd]) (.inr (.inr h3))
      rw [hk]; simp

/-- C161: the destructor of a detached process does not end it. -/
theorem C161_detached (es : List Event) (s s' : State) (e : Event) (h : Run (init true) es s) (hd : s.dtor = true) (hs : Step e s s') (hr : s.child = .running) :
    s'.child = .running ∨ ∃ code, e = .exits code := by
  have he := run_exit h
  have h2 := (run_assigned h).2
  cases hs with
  | exit _ code h1 => exact .inr ⟨code, rfl⟩
  | killed _ h1 h2' => exact absurd h1 (he.spare hd h2).2
  | reset _ ok h1 =>
    left
    show (if s.assigned && !s.detached && s.child == .running then Child.exited 0 else s.child) = _
    rw [h2]; simp [hr]
  | startNoJob => exact .inl rfl
  | start => exact .inl rfl
  | _ => exact .inl hr

/-! ### Examples and counterexamples -/

/-- C158: all the output of a process can be missing although it exits with code 0 and `RunUntilExit` and `ProcessFactory::Run` succeed: the thread stops when the process has exited,
also if there is output in the pipe. -/
theorem C158_output_lost_violated (data : Bytes) : ∃ es s s', Run (init false) es s ∧ Step (.ran true) s s' ∧ factoryOk s' = true ∧ s'.child = .exited 0 ∧ wroteTo .out es = data ∧ handed .out es = [] := by
  have r1 := (Run.nil (init false)).snoc (.start _ [.out, .err] rfl rfl (by simp))
  have r2 := r1.snoc (.pend _ .out [.err] rfl rfl rfl)
  have r3 := r2.snoc (.pend _ .err [] rfl rfl rfl)
  have r4 := r3.snoc (.runs _ rfl (by simp [go]))
  have r5 := r4.snoc (.write _ .out data (fun h => by cases h) rfl)
  have r6 := r5.snoc (.close _ .out (fun h => by cases h))
  have r7 := r6.snoc (.close _ .err (fun h => by cases h))
  have r8 := r7.snoc (.exit _ 0 rfl)
  have r9 := r8.snoc (.seesExit _ 0 0 rfl rfl (.inl rfl))
  have r10 := r9.snoc (.pollOk _ rfl rfl)
  exact ⟨_, _, _, r10, .pollExited _ rfl rfl, rfl, rfl, by simp [wroteTo], by simp [handed]⟩

/-- C158-C160: a process writes to both streams, also after it has begun to be waited for; all output is handed over, the ends of the streams are found, then it exits with code 3. -/
example : ∃ es s s', Run (init false) es s ∧ Step (.ran true) s s' ∧ (s.chan .out).eof = true ∧ (s.chan .err).eof = true ∧ exitCode s' = 3 ∧
    wroteTo .out es = [1, 2, 3, 4] ∧ handed .out es = [[1], [2, 3], [4]] ∧ wroteTo .err es = [9] := by
  have r1 := (Run.nil (init false)).snoc (.start _ [.out, .err] rfl rfl (by simp))
  have r2 := r1.snoc (.write _ .out [1] (fun h => by cases h) rfl)
  have r3 := r2.snoc (.readNow _ .out [.err] 1 rfl (by decide) (by decide) (by decide))
  have r4 := r3.snoc (.pend _ .out [.err] rfl rfl rfl)
  have r5 := r4.snoc (.pend _ .err [] rfl rfl rfl)
  have r6 := r5.snoc (.runs _ rfl (by simp [go]))
  have r7 := r6.snoc (.write _ .out [2, 3, 4] (fun h => by cases h) rfl)
  have r8 := r7.snoc (.ready _ .out 2 rfl (by decide) (by decide) (by decide))
  have r9 := r8.snoc (.write _ .err [9] (fun h => by cases h) rfl)
  have r10 := r9.snoc (.result _ .out [2, 3] rfl ⟨(fun _ h => by cases h), rfl, (fun h => by cases h)⟩ rfl)
  have r11 := r10.snoc (.readNow _ .out [] 1 rfl (by decide) (by decide) (by decide))
  have r12 := r11.snoc (.close _ .out (fun h => by cases h))
  have r13 := r12.snoc (.issueEof _ .out [] rfl rfl rfl)
  have r14 := r13.snoc (.ready _ .err 1 rfl (by decide) (by decide) (by decide))
  have r15 := r14.snoc (.result _ .err [9] rfl ⟨(fun _ h => by cases h), rfl, (fun _ => rfl)⟩ rfl)
  have r16 := r15.snoc (.pend _ .err [] rfl rfl rfl)
  have r17 := r16.snoc (.close _ .err (fun h => by cases h))
  have r18 := r17.snoc (.broken _ .err rfl rfl rfl)
  have r19 := r18.snoc (.resultEof _ .err rfl ⟨(fun _ h => by cases h), rfl, (fun _ => rfl)⟩ rfl)
  have r20 := r19.snoc (.exit _ 3 rfl)
  have r21 := r20.snoc (.seesExit _ 3 3 rfl rfl (.inl rfl))
  have r22 := r21.snoc (.pollOk _ rfl rfl)
  refine ⟨_, _, _, r22, .pollExited _ rfl rfl, rfl, rfl, rfl, ?_, ?_, ?_⟩
  · decide
  · decide
  · decide

/-- C160: after the process has exited, another process that has the pipe and keeps writing to it can keep the thread from noticing the end, for as long as it likes, so that `RunUntilExit` does not return. -/
theorem C160_never_noticed_violated : ∃ es0 s0, Run (init false) es0 s0 ∧ s0.child = .exited 0 ∧ s0.api = .poll ∧
    ∀ n, ∃ es s, Run s0 es s ∧ es.countP Event.isPump = n ∧ live s.pump = true ∧ hasExited s = false ∧ statusOk s = true ∧ s.api = .poll := by
  have r1 := (Run.nil (init false)).snoc (.start _ [.out, .err] rfl rfl (by simp))
  have r2 := r1.snoc (.runs _ rfl (by simp [go]))
  have r3 := r2.snoc (.exit _ 0 rfl)
  refine ⟨_, _, r3, rfl, rfl, ?_⟩
  intro n
  suffices h : ∃ es s, Run _ es s ∧ es.countP Event.isPump = n ∧ s.pump = some (.issue .out [.err]) ∧ (s.chan .out).opened = true ∧ (s.chan .out).pipe = [] ∧ s.child = .exited 0 ∧ s.exited = none ∧
      s.failed = false ∧ s.api = .poll by
    obtain ⟨es, s, h1, h2, h3, -, -, -, h4, h5, h6⟩ := h
    refine ⟨es, s, h1, h2, by rw [h3]; rfl, ?_, ?_, h6⟩
    · unfold hasExited; rw [h3, h4]; rfl
    · unfold statusOk; rw [h3, h5]; rfl
  induction n with
  | zero => exact ⟨[], _, .nil _, rfl, rfl, rfl, rfl, rfl, rfl, rfl, rfl⟩
  | succ n ih =>
    obtain ⟨es, s, h1, h2, h3, h4, h5, h6, h7, h8, h9⟩ := ih
    have q1 := h1.snoc (.write s .out [0] (by rw [h6]; simp) h4)
    have hp : ((s.upd .out { s.chan .out with pipe := (s.chan .out).pipe ++ [0], written := (s.chan .out).written ++ [0] }).chan .out).pipe = [0] := by
      rw [upd_same, h5]; rfl
    have q2 := q1.snoc (.readNow _ .out [.err] 1 h3 (by decide) (by decide) (by rw [hp]; decide))
    refine ⟨_, _, q2, ?_, h3, ?_, ?_, h6, h7, h8, h9⟩
    · rw [List.countP_append, List.countP_append, h2]; rfl
    · rw [upd_same, upd_same]; exact h4
    · rw [upd_same, hp]; rfl

/-- C161: if the process cannot be assigned to the job, `Start` fails and the process goes on, also after `Terminate` has succeeded. -/
theorem C161_start_failed_violated : ∃ es s, Run (init false) es s ∧ .started false ∈ es ∧ .terminated true ∈ es ∧ s.child = .running := by
  have r1 := (Run.nil (init false)).snoc (.startNoJob _ rfl rfl)
  have r2 := r1.snoc (.terminate _ false rfl)
  have r3 := r2.snoc (.joined _ false rfl (.inl rfl))
  have r4 := r3.snoc (.noKill _ rfl)
  have r5 := r4.snoc (.reset _ true rfl)
  exact ⟨_, _, r5, by simp, by simp, rfl⟩

/-- C161: a process is terminated while it runs and its output is waited for. -/
example : ∃ es s s', Run (init false) es s ∧ Step (.terminated true) s s' ∧ .started true ∈ es ∧ s.dtor = false ∧ s'.child = .exited 0 := by
  have r1 := (Run.nil (init false)).snoc (.start _ [.err] rfl rfl (by simp))
  have r2 := r1.snoc (.pend _ .err [] rfl rfl rfl)
  have r3 := r2.snoc (.terminate _ false rfl)
  have r4 := r3.snoc (.seesShutdown _ rfl (fun _ h => by cases h) rfl)
  have r5 := r4.snoc (.joined _ true rfl (.inr rfl))
  have r6 := r5.snoc (.killed _ rfl rfl)
  exact ⟨_, _, _, r6, .reset _ true rfl, by simp, rfl, rfl⟩

/-- C161: a detached process goes on. -/
example : ∃ es s, Run (init true) es s ∧ s.dtor = true ∧ .terminated true ∈ es ∧ s.child = .running := by
  have r1 := (Run.nil (init true)).snoc (.start _ [] rfl rfl (by simp))
  have r2 := r1.snoc (.terminate _ true rfl)
  have r3 := r2.snoc (.seesShutdown _ rfl (fun _ h => by cases h) rfl)
  have r4 := r3.snoc (.joined _ false rfl (.inr rfl))
  have r5 := r4.snoc (.noKill _ rfl)
  have r6 := r5.snoc (.reset _ true rfl)
  exact ⟨_, _, r6, rfl, by simp, rfl⟩

end Verif.Process
