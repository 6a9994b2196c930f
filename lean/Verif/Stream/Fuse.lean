import Verif.Stream.Service

/-!
# Starting the remote component (C62, C64): cdc_stream/cdc_fuse_manager.cc, cdc_stream/session.cc

A session runs two processes: the remote component (`fuse_process_`) and the port forwarding
(`forwarding_process_`).  What the processes do is arbitrary.  Using a process pointer that is null
is the outcome `crash`.
-/

namespace Verif.Fuse

open Verif.Sessions (Started)

/-! ## Model -/

/-- What `RunFuseProcess` sees of the process it starts: `Start` fails, `RunUntil` fails, or the
values of `fuse_not_up_to_date_`, `fuse_update_check_finished_`, `HasExited` and `ExitCode` after
`RunUntil` has returned. -/
inductive Attempt
  | startFails
  | runFails
  | seen (notUpToDate finished exited : Bool) (code : Nat)
  deriving DecidableEq

/-- The outcomes of everything `CdcFuseManager::Start` calls. -/
structure Env where
  /-- `GetExeDir` and `GameletComponent::Get` succeed -/
  components : Bool
  first : Attempt
  /-- `Deploy` succeeds -/
  deploy : Bool
  second : Attempt
  /-- `forwarding_process_->Start()` succeeds -/
  forward : Bool
  /-- the second `RunUntil` succeeds -/
  wait : Bool
  /-- `fuse_connected_` and `HasExited` after it -/
  connected : Bool
  exited : Bool
  /-- both `Terminate` calls succeed -/
  terminate : Bool

/-- `CdcFuseManager`: whether `fuse_process_` and `forwarding_process_` are set. -/
structure Mgr where
  fuse : Bool
  fwd : Bool
  deriving DecidableEq

/-- `CdcFuseManager::RunFuseProcess` (cdc_fuse_manager.cc:159-201): the manager, and none for an
error or `needs_deploy`. -/
def runFuse (a : Attempt) (m : Mgr) : Mgr × Option Bool :=
  match a with
  | .startFails => ({ m with fuse := true }, none)
  | .runFails => ({ m with fuse := true }, none)
  | .seen notUp finished exited code =>
    if notUp || (!finished && exited && code != 0) then ({ m with fuse := false }, some true)
    else ({ m with fuse := true }, some false)

/-- `RunPortForwardingProcess` (cdc_fuse_manager.cc:203-219) and `WaitForFuseConnected`
(cdc_fuse_manager.cc:221-236), without the assertions. -/
def forwardAndWait (env : Env) (m : Mgr) : Mgr × Started :=
  let m : Mgr := { m with fwd := true }
  if !env.forward then (m, .error)
  else if !m.fuse then (m, .crash)
  else if !env.wait then (m, .error)
  else if !env.connected && env.exited then (m, .error)
  else (m, .ok)

/-- `CdcFuseManager::Start` (cdc_fuse_manager.cc:99-157). -/
def start (env : Env) (m : Mgr) : Mgr × Started :=
  if !env.components then (m, .error)
  else
    match runFuse env.first m with
    | (m, none) => (m, .error)
    | (m, some false) => forwardAndWait env m
    | (m, some true) =>
      if !env.deploy then (m, .error)
      else
        match runFuse env.second m with
        | (m, none) => (m, .error)
        | (m, some _) => forwardAndWait env m

/-- `CdcFuseManager::Stop` (cdc_fuse_manager.cc:238-249). -/
def stop (env : Env) (m : Mgr) : Mgr × Started :=
  if !m.fuse then (m, .ok)
  else if !m.fwd then (m, .crash)
  else (⟨false, false⟩, if env.terminate then .ok else .error)

/-- `Session::Start` (session.cc:71-84) as called by `MultiSession::StartSession`
(multi_session.cc:514-516): if it fails the session is destroyed, which stops it
(session.cc:63-69); an error of that is only logged. -/
def startSession (env : Env) : Mgr × Started :=
  match start env ⟨false, false⟩ with
  | (m, .error) =>
    match stop env m with
    | (m, .crash) => (m, .crash)
    | (m, _) => (m, .error)
  | r => r

/-! ## Specification -/

/-- The process could not be started or watched. -/
def Attempt.Broken (a : Attempt) : Prop := a = .startFails ∨ a = .runFails

/-- The process reports that it is outdated, or ends with an error before it reports anything. -/
def Attempt.Outdated (a : Attempt) : Prop :=
  ∃ notUp finished exited code, a = .seen notUp finished exited code ∧
    (notUp = true ∨ finished = false ∧ exited = true ∧ code ≠ 0)

/-- The process reports that it is up to date, or gives no reason to think otherwise. -/
def Attempt.UpToDate (a : Attempt) : Prop := ¬ a.Broken ∧ ¬ a.Outdated

/-! ## Proofs -/

theorem runFuse_broken {a : Attempt} (h : a.Broken) (m : Mgr) :
    runFuse a m = ({ m with fuse := true }, none) := by
  rcases h with rfl | rfl <;> rfl

theorem runFuse_outdated {a : Attempt} (h : a.Outdated) (m : Mgr) :
    runFuse a m = ({ m with fuse := false }, some true) := by
  obtain ⟨n, f, e, c, rfl, h⟩ := h
  simp only [runFuse]
  rw [if_pos]
  rcases h with rfl | ⟨rfl, rfl, h⟩
  · simp
  · simp [h]

theorem runFuse_upToDate {a : Attempt} (h : a.UpToDate) (m : Mgr) :
    runFuse a m = ({ m with fuse := true }, some false) := by
  cases a with
  | startFails => exact absurd (.inl rfl) h.1
  | runFails => exact absurd (.inr rfl) h.1
  | seen n f e c =>
    simp only [runFuse]
    rw [if_neg]
    intro hc
    refine h.2 ⟨n, f, e, c, rfl, ?_⟩
    simp only [Bool.or_eq_true, Bool.and_eq_true, Bool.not_eq_true', bne_iff_ne] at hc
    rcases hc with hc | ⟨⟨h1, h2⟩, h3⟩
    · exact .inl hc
    · exact .inr ⟨h1, h2, h3⟩

theorem cases3 (a : Attempt) : a.Broken ∨ a.Outdated ∨ a.UpToDate := by
  by_cases h : a.Broken
  · exact .inl h
  · by_cases h2 : a.Outdated
    · exact .inr (.inl h2)
    · exact .inr (.inr ⟨h, h2⟩)

theorem broken_not_outdated {a : Attempt} (h : a.Broken) : ¬ a.Outdated := by
  rintro ⟨_, _, _, _, rfl, _⟩
  rcases h with h | h <;> cases h

/-- **C62.**  Exactly when the attempt to start a session takes the service down: if the remote
command cannot be run, at the first or the second attempt, or if the remote component is still
outdated after it has been deployed (and the port forwarding can be started). -/
theorem C62_crash_iff (env : Env) : (startSession env).2 = .crash ↔
    env.components = true ∧
      (env.first.Broken ∨
        env.first.Outdated ∧ env.deploy = true ∧
          (env.second.Broken ∨ env.second.Outdated ∧ env.forward = true)) := by
  unfold startSession start
  cases hc : env.components
  · simp [stop]
  · simp only [Bool.not_true, Bool.false_eq_true, if_false, true_and]
    rcases cases3 env.first with h1 | h1 | h1
    · simp [runFuse_broken h1, stop, h1]
    · have hb : ¬ env.first.Broken := fun h => broken_not_outdated h h1
      simp only [runFuse_outdated h1, h1, true_and, hb, false_or]
      cases hd : env.deploy
      · simp [stop]
      · simp only [Bool.not_true, Bool.false_eq_true, if_false, true_and]
        rcases cases3 env.second with h2 | h2 | h2
        · simp [runFuse_broken h2, stop, h2]
        · have hb2 : ¬ env.second.Broken := fun h => broken_not_outdated h h2
          simp only [runFuse_outdated h2, h2, true_and, hb2, false_or]
          cases hf : env.forward <;> simp [forwardAndWait, hf, stop]
        · have e := h2
          simp only [runFuse_upToDate h2, h2.1, h2.2, false_and, or_self]
          cases hf : env.forward <;> cases hw : env.wait <;> cases hcn : env.connected <;>
            cases he : env.exited <;> cases ht : env.terminate <;>
            simp [forwardAndWait, hf, hw, hcn, he, ht, stop]
    · simp only [runFuse_upToDate h1, h1.1, h1.2, false_and, or_self]
      cases hf : env.forward <;> cases hw : env.wait <;> cases hcn : env.connected <;>
        cases he : env.exited <;> cases ht : env.terminate <;>
        simp [forwardAndWait, hf, hw, hcn, he, ht, stop]

/-- **C62.**  Exactly when a session is started. -/
theorem C62_ok_iff (env : Env) : (startSession env).2 = .ok ↔
    env.components = true ∧
      (env.first.UpToDate ∨ env.first.Outdated ∧ env.deploy = true ∧ env.second.UpToDate) ∧
      env.forward = true ∧ env.wait = true ∧ (env.connected = true ∨ env.exited = false) := by
  unfold startSession start
  cases hc : env.components
  · simp [stop]
  · simp only [Bool.not_true, Bool.false_eq_true, if_false, true_and]
    rcases cases3 env.first with h1 | h1 | h1
    · have hu : ¬ env.first.UpToDate := fun h => h.1 h1
      have ho := broken_not_outdated h1
      simp [runFuse_broken h1, stop, hu, ho]
    · have hu : ¬ env.first.UpToDate := fun h => h.2 h1
      simp only [runFuse_outdated h1, h1, true_and, hu, false_or]
      cases hd : env.deploy
      · simp [stop]
      · simp only [Bool.not_true, Bool.false_eq_true, if_false, true_and]
        rcases cases3 env.second with h2 | h2 | h2
        · have hu2 : ¬ env.second.UpToDate := fun h => h.1 h2
          simp [runFuse_broken h2, stop, hu2]
        · have hu2 : ¬ env.second.UpToDate := fun h => h.2 h2
          simp only [runFuse_outdated h2, hu2, false_and]
          cases hf : env.forward <;> simp [forwardAndWait, hf, stop]
        · simp only [runFuse_upToDate h2, h2, true_and]
          cases hf : env.forward <;> cases hw : env.wait <;> cases hcn : env.connected <;>
            cases he : env.exited <;> cases ht : env.terminate <;>
            simp [forwardAndWait, hf, hw, hcn, he, ht, stop]
    · simp only [runFuse_upToDate h1, h1, true_and, true_or]
      cases hf : env.forward <;> cases hw : env.wait <;> cases hcn : env.connected <;>
        cases he : env.exited <;> cases ht : env.terminate <;>
        simp [forwardAndWait, hf, hw, hcn, he, ht, stop]

/-- **C62**, the part that holds: if the remote command can be run and deploying helps, then whatever
else fails, the service survives. -/
theorem C62_survives_partial (env : Env) (h1 : ¬ env.first.Broken) (h2 : ¬ env.second.Broken)
    (h3 : ¬ env.second.Outdated) : (startSession env).2 ≠ .crash := by
  intro h
  obtain ⟨_, h | ⟨_, _, h | ⟨h, _⟩⟩⟩ := (C62_crash_iff env).mp h
  · exact h1 h
  · exact h2 h
  · exact h3 h

/-- **C62 fails**: whenever the remote command cannot be started, for example because there is no
ssh program, the service dies instead of reporting an error. -/
theorem C62_broken_violated (env : Env) (hc : env.components = true) (h : env.first.Broken) :
    (startSession env).2 = .crash := (C62_crash_iff env).mpr ⟨hc, .inl h⟩

/-- **C62 fails**: the same if the component still says it is outdated after it has been deployed, or
exits with an error both times (for example because a library is missing on the instance). -/
theorem C62_outdated_violated (env : Env) (hc : env.components = true) (h1 : env.first.Outdated)
    (hd : env.deploy = true) (h2 : env.second.Outdated) (hf : env.forward = true) :
    (startSession env).2 = .crash :=
  (C62_crash_iff env).mpr ⟨hc, .inr ⟨h1, hd, .inr ⟨h2, hf⟩⟩⟩

/-- **C99.**  A started session has both processes; stopping it leaves none, also if terminating them
fails (so a second attempt to stop it succeeds); and a session that could not be started leaves no
running component. -/
theorem C99_processes (env : Env) :
    ((startSession env).2 = .ok → ((startSession env).1.fuse = true ∧ (startSession env).1.fwd = true) ∧
      ∀ env', (stop env' (startSession env).1).1 = ⟨false, false⟩ ∧
        ∀ env'', stop env'' (stop env' (startSession env).1).1 = (⟨false, false⟩, .ok)) ∧
    ((startSession env).2 = .error → (startSession env).1.fuse = false) := by
  unfold startSession start
  cases hc : env.components
  · simp [stop]
  · simp only [Bool.not_true, Bool.false_eq_true, if_false]
    rcases cases3 env.first with h1 | h1 | h1
    · simp [runFuse_broken h1, stop]
    · simp only [runFuse_outdated h1]
      cases hd : env.deploy
      · simp [stop]
      · simp only [Bool.not_true, Bool.false_eq_true, if_false]
        rcases cases3 env.second with h2 | h2 | h2
        · simp [runFuse_broken h2, stop]
        · simp only [runFuse_outdated h2]
          cases hf : env.forward <;> simp [forwardAndWait, hf, stop]
        · simp only [runFuse_upToDate h2]
          cases hf : env.forward <;> cases hw : env.wait <;> cases hcn : env.connected <;>
            cases he : env.exited <;> cases ht : env.terminate <;>
            simp [forwardAndWait, hf, hw, hcn, he, ht, stop]
    · simp only [runFuse_upToDate h1]
      cases hf : env.forward <;> cases hw : env.wait <;> cases hcn : env.connected <;>
        cases he : env.exited <;> cases ht : env.terminate <;>
        simp [forwardAndWait, hf, hw, hcn, he, ht, stop]

/-! ### Examples -/

/-- The component is outdated, is deployed, and connects. -/
example : startSession ⟨true, .seen true true false 0, true, .seen false true false 0, true, true, true,
    false, true⟩ = (⟨true, true⟩, .ok) := by decide

/-- No ssh. -/
example : (startSession ⟨true, .startFails, true, .startFails, true, true, true, false, true⟩).2 =
    .crash := by decide

/-- The port forwarding fails: an error is reported. -/
example : startSession ⟨true, .seen false true false 0, true, .startFails, false, true, true, false,
    true⟩ = (⟨false, false⟩, .error) := by decide

/-- A missing ssh program takes the service down, with all sessions of all users of it: the
histories of Stream/Service.lean with `Env.start` given by this file. -/
theorem C62_service_violated (k : Nat) (id : Verif.Text.Filter.Str) :
    (Verif.Sessions.call { Verif.Sessions.fine with
        start := (startSession ⟨true, .startFails, true, .startFails, true, true, true, false, true⟩).2 }
      (.start id k) .init).2 = .crash := by
  simp [Verif.Sessions.call, Verif.Sessions.startSession, Verif.Sessions.fine,
    Verif.Sessions.Service.init, Verif.Sessions.get, Verif.Sessions.stopInternal,
    Verif.Sessions.MS.start, startSession, start, runFuse, stop]

/-! ## C64: reading the component's output -/

abbrev Str := List UInt8

/-- The bytes of an ASCII text. -/
def ascii (s : String) : Str := s.toList.map (·.toNat.toUInt8)

/-- `kFusePortPrefix` (cdc_fuse_fs/constants.h:27). -/
def portPrefix : Str := ascii "Port "

/-- `kFuseUpToDate` (cdc_fuse_fs/constants.h:28). -/
def upToDate : Str := ascii " cdc_fuse_fs is up-to-date"

/-- `kFuseNotUpToDate` (cdc_fuse_fs/constants.h:32). -/
def notUpToDate : Str := ascii "cdc_fuse_fs is not up-to-date"

/-- `kFuseConnected` (cdc_fuse_fs/constants.h:36). -/
def connectedMark : Str := ascii "cdc_fuse_fs is connected"

/-- `absl::StrContains`, `std::string::find`. -/
def contains (m : Str) : Str → Bool
  | [] => m.isEmpty
  | s@(_ :: r) => m.isPrefixOf s || contains m r

/-- What follows the first occurrence (`find` and `substr`). -/
def afterFirst (m : Str) : Str → Option Str
  | [] => if m.isEmpty then some [] else none
  | s@(_ :: r) => if m.isPrefixOf s then some (s.drop m.length) else afterFirst m r

def isDigit (c : UInt8) : Bool := 48 ≤ c && c ≤ 57

/-- The value of a sequence of digits. -/
def value (l : Str) : Nat := l.foldl (fun n c => 10 * n + (c.toNat - 48)) 0

/-- `atoi`.  Simplified: white space and a sign before the number are not skipped; no overflow. -/
def atoi (s : Str) : Nat := value (s.takeWhile isDigit)

/-- `ParsePort` (cdc_fuse_manager.cc:41-55). -/
def parsePort (s : Str) : Option Nat :=
  match afterFirst portPrefix s with
  | none => none
  | some r => if atoi r = 0 then none else some (atoi r)

/-- `fuse_stdout_`, `fuse_port_` and the flags. -/
structure Out where
  buf : Str
  port : Nat
  notUp : Bool
  finished : Bool
  connected : Bool
  deriving DecidableEq

/-- `CdcFuseManager::HandleFuseStdout` (cdc_fuse_manager.cc:256-282); `none`: an error. -/
def handle (o : Out) (data : Str) : Option Out :=
  if o.connected then some o
  else
    let o : Out := { o with buf := o.buf ++ data }
    let r : Option Out :=
      if contains upToDate o.buf then
        match parsePort o.buf with
        | none => none
        | some p => some { o with port := p, finished := true }
      else if contains notUpToDate o.buf then some { o with notUp := true, finished := true }
      else some o
    match r with
    | none => none
    | some o => some (if contains connectedMark o.buf then { o with connected := true } else o)

def handleAll : Out → List Str → Option Out
  | o, [] => some o
  | o, d :: l => match handle o d with
    | none => none
    | some o => handleAll o l

/-- `RunFuseProcess` resets these (cdc_fuse_manager.cc:171-175). -/
def Out.init : Out := ⟨[], 0, false, false, false⟩

theorem contains_iff (m s : Str) : contains m s = true ↔ m <:+: s := by
  induction s with
  | nil => simp [contains]
  | cons c r ih => simp [contains, ih, List.infix_cons_iff]

theorem afterFirst_spec (m pre post : Str) (hm : m ≠ [])
    (h : ∀ i < pre.length, ¬ m <+: (pre ++ m ++ post).drop i) :
    afterFirst m (pre ++ m ++ post) = some post := by
  induction pre with
  | nil =>
    cases m with
    | nil => exact absurd rfl hm
    | cons c m =>
      have : (c :: m).isPrefixOf (c :: (m ++ post)) = true := by simp
      simp only [List.nil_append, List.cons_append, afterFirst, this, if_true]
      simp
  | cons c pre ih =>
    have h0 := h 0 (by simp)
    have : m.isPrefixOf (c :: (pre ++ m ++ post)) = false := by
      rw [Bool.eq_false_iff]
      intro hc
      exact h0 (by simpa using hc)
    simp only [List.cons_append, afterFirst, List.append_assoc] at this ⊢
    rw [this]
    simp only [Bool.false_eq_true, if_false]
    have := ih fun i hi => by
      have := h (i + 1) (by simp; omega)
      simpa using this
    simpa using this

/-- **C64.**  If the component's output is: something without any of the markers, `Port`, a number,
`cdc_fuse_fs is up-to-date`, and then anything, then whatever pieces the output arrives in, no error
is reported, the component is never taken for outdated, and once the whole output has arrived the
check is over and the port is the number. -/
theorem C64_port (pre digits post : Str) (chunks : List Str)
    (hflat : chunks.flatten = pre ++ portPrefix ++ digits ++ upToDate ++ post)
    (hdig : digits.all isDigit = true) (hne : value digits ≠ 0)
    -- the markers do not occur before
    (hport : ∀ i < pre.length, ¬ portPrefix <+: (chunks.flatten).drop i)
    (hearly : ∀ q, q <+: chunks.flatten → q.length < (pre ++ portPrefix ++ digits ++ upToDate).length →
      ¬ upToDate <:+: q)
    (hnot : ¬ notUpToDate <:+: (pre ++ portPrefix ++ digits ++ upToDate))
    (hconn : ∀ q, q <+: chunks.flatten → q.length < (pre ++ portPrefix ++ digits ++ upToDate).length →
      ¬ connectedMark <:+: q) :
    ∃ o, handleAll .init chunks = some o ∧ o.finished = true ∧ o.notUp = false ∧
      o.port = value digits := by
  -- what holds after a prefix `q` of the output
  have parse : ∀ q, q <+: chunks.flatten → (pre ++ portPrefix ++ digits ++ upToDate).length ≤ q.length →
      contains upToDate q = true ∧ parsePort q = some (value digits) := by
    intro q hq hl
    have hpre : pre ++ portPrefix ++ digits ++ upToDate <+: q := by
      refine List.prefix_of_prefix_length_le ?_ hq hl
      rw [hflat]
      exact List.prefix_append ..
    obtain ⟨rest, rfl⟩ := hpre
    refine ⟨(contains_iff _ _).mpr ⟨pre ++ portPrefix ++ digits, rest, rfl⟩, ?_⟩
    have h2 : afterFirst portPrefix (pre ++ portPrefix ++ (digits ++ upToDate ++ rest)) =
        some (digits ++ upToDate ++ rest) := by
      refine afterFirst_spec _ _ _ (by decide +kernel) fun i hi hp => ?_
      refine hport i hi (hp.trans ?_)
      obtain ⟨t, ht⟩ := hq
      rw [← ht]
      have e : pre ++ portPrefix ++ (digits ++ upToDate ++ rest) =
          pre ++ portPrefix ++ digits ++ upToDate ++ rest := by simp
      rw [e, List.drop_append_of_le_length (l₂ := t) (by simp; omega)]
      exact List.prefix_append ..
    have e : pre ++ portPrefix ++ digits ++ upToDate ++ rest =
        pre ++ portPrefix ++ (digits ++ upToDate ++ rest) := by simp
    rw [e]
    have h3 : (digits ++ upToDate ++ rest).takeWhile isDigit = digits := by
      have h4 : (upToDate ++ rest).takeWhile isDigit = [] := by
        have : upToDate = 32 :: upToDate.tail := by decide +kernel
        rw [this]
        have : isDigit 32 = false := by decide
        simp [this]
      rw [List.append_assoc, List.takeWhile_append_of_pos (by simpa using hdig), h4,
        List.append_nil]
    simp only [parsePort, h2, atoi, h3, hne, if_false]
  -- the state after a prefix of the chunks
  have key : ∀ (l : List Str) (q : Str) (o : Out), q ++ l.flatten = chunks.flatten →
      (o.notUp = false) →
      (o.connected = true → o.finished = true) →
      (o.finished = true → o.port = value digits) →
      (o.connected = false → o.buf = q) →
      ((pre ++ portPrefix ++ digits ++ upToDate).length ≤ q.length → o.finished = true) →
      ∃ o', handleAll o l = some o' ∧ o'.finished = true ∧ o'.notUp = false ∧
        o'.port = value digits := by
    intro l
    induction l with
    | nil =>
      intro q o hq h1 h2 h3 h4 h5
      have : o.finished = true := by
        refine h5 ?_
        simp only [List.flatten_nil, List.append_nil] at hq
        rw [hq, hflat]
        simp
      exact ⟨o, rfl, this, h1, h3 this⟩
    | cons d l ih =>
      intro q o hq h1 h2 h3 h4 h5
      have hq' : (q ++ d) ++ l.flatten = chunks.flatten := by
        rw [← hq]; simp
      cases hc : o.connected
      · have hb := h4 hc
        have hqp : q ++ d <+: chunks.flatten := ⟨_, hq'⟩
        by_cases hl : (pre ++ portPrefix ++ digits ++ upToDate).length ≤ (q ++ d).length
        · obtain ⟨e1, e2⟩ := parse _ hqp hl
          have hh : ∃ b, handle o d = some ⟨q ++ d, value digits, false, true, b⟩ := by
            simp only [handle, hc, Bool.false_eq_true, if_false, hb, e1, e2, if_true, h1]
            split
            · exact ⟨true, rfl⟩
            · exact ⟨false, rfl⟩
          obtain ⟨b, hh⟩ := hh
          simp only [handleAll, hh]
          exact ih (q ++ d) _ hq' rfl (fun _ => rfl) (fun _ => rfl) (fun _ => rfl) (fun _ => rfl)
        · have hl := Nat.lt_of_not_le hl
          have e1 : contains upToDate (q ++ d) = false := by
            rw [Bool.eq_false_iff]
            intro hcon
            exact hearly _ hqp hl ((contains_iff _ _).mp hcon)
          have e2 : contains notUpToDate (q ++ d) = false := by
            rw [Bool.eq_false_iff]
            intro hcon
            refine hnot (((contains_iff _ _).mp hcon).trans ?_)
            refine List.IsPrefix.isInfix (List.prefix_of_prefix_length_le hqp ?_ (Nat.le_of_lt hl))
            rw [hflat]
            exact List.prefix_append ..
          have e3 : contains connectedMark (q ++ d) = false := by
            rw [Bool.eq_false_iff]
            intro hcon
            exact hconn _ hqp hl ((contains_iff _ _).mp hcon)
          have hh : handle o d = some { o with buf := q ++ d } := by
            simp [handle, hc, hb, e1, e2, e3]
          simp only [handleAll, hh]
          refine ih (q ++ d) _ hq' h1 (fun h => ?_) h3 (fun _ => rfl) (fun h => by omega)
          exact absurd (h : o.connected = true) (by simp [hc])
      · have hh : handle o d = some o := by simp [handle, hc]
        simp only [handleAll, hh]
        exact ih (q ++ d) o hq' h1 h2 h3 (fun h => by rw [hc] at h; cases h) (fun _ => h2 hc)
  refine key chunks [] .init (by simp) rfl (fun h => (by cases h)) (fun h => (by cases h))
    (fun _ => rfl) (fun h => ?_)
  have : upToDate.length = 26 := by decide +kernel
  simp only [List.length_append, List.length_nil] at h
  omega

/-- **C64.**  If the component's output contains `cdc_fuse_fs is not up-to-date` and none of the other
markers, it is recognised as outdated whatever pieces the output arrives in; without any of the
markers it is not. -/
theorem C64_outdated (chunks : List Str) (hup : ¬ upToDate <:+: chunks.flatten)
    (hconn : ¬ connectedMark <:+: chunks.flatten) :
    ∃ o, handleAll .init chunks = some o ∧
      (o.finished = true ↔ notUpToDate <:+: chunks.flatten) ∧
      (o.notUp = true ↔ notUpToDate <:+: chunks.flatten) := by
  have key : ∀ (l : List Str) (q : Str) (o : Out), q ++ l.flatten = chunks.flatten →
      o.connected = false → o.buf = q →
      (o.finished = true ↔ notUpToDate <:+: q) → (o.notUp = true ↔ notUpToDate <:+: q) →
      ∃ o', handleAll o l = some o' ∧ (o'.finished = true ↔ notUpToDate <:+: chunks.flatten) ∧
        (o'.notUp = true ↔ notUpToDate <:+: chunks.flatten) := by
    intro l
    induction l with
    | nil =>
      intro q o hq _ _ h1 h2
      simp only [List.flatten_nil, List.append_nil] at hq
      exact ⟨o, rfl, hq ▸ h1, hq ▸ h2⟩
    | cons d l ih =>
      intro q o hq hc hb h1 h2
      have hq' : (q ++ d) ++ l.flatten = chunks.flatten := by
        rw [← hq]; simp
      have hin : q ++ d <:+: chunks.flatten := List.IsPrefix.isInfix ⟨_, hq'⟩
      have e1 : contains upToDate (q ++ d) = false := by
        rw [Bool.eq_false_iff]
        intro h
        exact hup (((contains_iff _ _).mp h).trans hin)
      have e3 : contains connectedMark (q ++ d) = false := by
        rw [Bool.eq_false_iff]
        intro h
        exact hconn (((contains_iff _ _).mp h).trans hin)
      cases hn : contains notUpToDate (q ++ d)
      · have hnot : ¬ notUpToDate <:+: q ++ d := fun h => by
          rw [(contains_iff _ _).mpr h] at hn; cases hn
        have hnot' : ¬ notUpToDate <:+: q := fun h =>
          hnot (h.trans (List.prefix_append ..).isInfix)
        have hh : handle o d = some { o with buf := q ++ d } := by
          simp [handle, hc, hb, e1, e3, hn]
        simp only [handleAll, hh]
        exact ih (q ++ d) { o with buf := q ++ d } hq' hc rfl
          ⟨fun h => absurd (h1.mp h) hnot', fun h => absurd h hnot⟩
          ⟨fun h => absurd (h2.mp h) hnot', fun h => absurd h hnot⟩
      · have hyes := (contains_iff _ _).mp hn
        have hh : handle o d = some { o with buf := q ++ d, notUp := true, finished := true } := by
          simp [handle, hc, hb, e1, e3, hn]
        simp only [handleAll, hh]
        exact ih (q ++ d) { o with buf := q ++ d, notUp := true, finished := true } hq' hc rfl
          ⟨fun _ => hyes, fun _ => rfl⟩ ⟨fun _ => hyes, fun _ => rfl⟩
  have h0 : ¬ notUpToDate <:+: [] := by
    rw [← contains_iff]
    decide +kernel
  exact key chunks [] .init (by simp) rfl rfl ⟨fun h => (by cases h), fun h => absurd h h0⟩
    ⟨fun h => (by cases h), fun h => absurd h h0⟩

example : handleAll .init [ascii "cdc_fuse_fs is n", ascii "ot up-to-date"] =
    some ⟨ascii "cdc_fuse_fs is not up-to-date", 0, true, true, false⟩ := by decide +kernel

/-- A port that arrives in pieces. -/
example : handleAll .init [ascii "Port 4", ascii "2 cdc_fuse_fs is up",
    ascii "-to-date\ncdc_fuse_fs is connected\n"] =
    some ⟨ascii "Port 42 cdc_fuse_fs is up-to-date\ncdc_fuse_fs is connected\n", 42, false, true,
      true⟩ := by decide +kernel

/-- The hypotheses of `C64_port` are met. -/
example : ∃ o, handleAll .init [ascii "hi Port 4", ascii "2 cdc_fuse_fs is up", ascii "-to-date!"] =
    some o ∧ o.finished = true ∧ o.notUp = false ∧ o.port = 42 := by
  refine C64_port (ascii "hi ") (ascii "42") (ascii "!") _ (by decide +kernel) (by decide +kernel)
    (by decide +kernel) ?_ ?_ ?_ ?_
  · decide +kernel
  · intro q hq hl
    rw [List.prefix_iff_eq_take] at hq
    have : ∀ n < (ascii "hi " ++ portPrefix ++ ascii "42" ++ upToDate).length, contains upToDate
        ([ascii "hi Port 4", ascii "2 cdc_fuse_fs is up", ascii "-to-date!"].flatten.take n) = false := by
      decide +kernel
    rw [← contains_iff, hq, this _ hl]
    simp
  · rw [← contains_iff]
    decide +kernel
  · intro q hq hl
    rw [List.prefix_iff_eq_take] at hq
    have : ∀ n < (ascii "hi " ++ portPrefix ++ ascii "42" ++ upToDate).length, contains connectedMark
        ([ascii "hi Port 4", ascii "2 cdc_fuse_fs is up", ascii "-to-date!"].flatten.take n) = false := by
      decide +kernel
    rw [← contains_iff, hq, this _ hl]
    simp

end Verif.Fuse
