import Verif.Text.Demux
import Verif.Text.Path
/-! # C108-C112: one run of cdc_rsync (cdc_rsync/cdc_rsync_client.cc, cdc_rsync/main.cc)

Starting the server, deploying it if necessary, syncing, stopping the server, and the exit code. What the operating
system, ssh and the server process do is given by an environment; every environment is considered. -/
namespace Verif.Sync.Client
open Verif.Text
open Path (Str)

/-! ## Model -/

/-- `Tag`, common/status.h:69-91. -/
inductive Tag
  | socketEof | addressInUse | deployServer | connectionTimeout
deriving DecidableEq

/-- `absl::Status` with its tag; `WrapStatus` (common/status.h:48-63) keeps the tag. -/
inductive Status
  | ok
  | err (t : Option Tag)
deriving DecidableEq

/-- `HasTag`, common/status.cc:46-48. -/
def Status.hasTag : Status → Tag → Bool
  | .ok, _ => false
  | .err t, u => t = some u

inductive Arch
  | linux | windows
deriving DecidableEq

/-- How waiting for the connection ends (cdc_rsync_client.cc:285-305, common/client_socket.cc:52-70). -/
inductive Reach
  /-- sockets or port forwarding can't be set up -/
  | failed
  | timeout
  | reached
deriving DecidableEq

/-- What happens during one call of `StartServer`. -/
structure Attempt where
  /-- the exe directory and the component are found and the process is started (195-237) -/
  prepared : Bool
  /-- what the process prints until `RunUntil` returns -/
  reads : List Str
  /-- the status of the thread that reads the output when `RunUntil` returns is an error (common/process_win.cc:771-772) -/
  pumpError : Bool
  /-- the timeout has passed (246-249) -/
  timeout : Bool
  /-- the process has exited with this code (263-267) -/
  exit : Option Int
  reach : Reach

/-- How `Sync()` ends (cdc_rsync_client.cc:389-445) if there is a connection: no other tag is set there. -/
inductive SyncEnd
  | ok | eof | failed
deriving DecidableEq

structure Env where
  /-- a user and host have been given -/
  remote : Bool
  destination : Str
  localArch : Arch
  /-- the calls of `StartServer` in order -/
  attempt : Nat → Attempt
  /-- `DetectFromRemoteDevice`, server_arch.cc:116-168 -/
  detect : Option Arch
  /-- `DeployServer`, cdc_rsync_client.cc:447-481 -/
  deployed : Bool
  sync : SyncEnd
  /-- what the server prints after it has been started -/
  later : List Str
  /-- `StopServer` succeeds -/
  stopped : Bool
  /-- exit code of the server in the end -/
  finalCode : Int
  /-- without a connection: `Sync()` fails before the receiving thread has run -/
  early : Bool

/-- What can be seen from outside. -/
inductive Event
  | start (a : Arch)
  | detect
  | deploy (a : Arch)
  /-- port forwarding to this port of the server is set up, and a connection through it is waited for -/
  | forward (port : Int)
  | sync
  | stop
deriving DecidableEq

/-- Members of `CdcRsyncClient` (cdc_rsync_client.h:128-148) and the events so far. -/
structure State where
  /-- `is_server_error_`, `server_error_`, `server_output_`, `server_listen_port_` -/
  out : Demux.State := {}
  exitCode : Int := 0
  starts : Nat := 0
  events : List Event := []

/-- `GuessFromDestination`, server_arch.cc:75-106. -/
def guess (destination : Str) : Arch :=
  if destination.head? = some 126 ∨ destination.head? = some 47 then .linux
  else if Path.drivePrefix destination ≠ [] then .windows
  else if 47 ∈ destination ∧ 92 ∉ destination then .linux
  else if 92 ∈ destination ∧ 47 ∉ destination then .windows
  else .linux

/-- `GetServerExitStatus`, cdc_rsync_client.cc:62-91. -/
def serverExitStatus (code : Int) : Status := .err (if code = 53 then some .addressInUse else none)

section
variable (atoi : Str → Int) (connects : Bool) (env : Env)

/-- `StartServer`, cdc_rsync_client.cc:191-311. -/
def startServer (st : State) (arch : Arch) : Status × State :=
  let a := env.attempt st.starts
  let st : State := { st with starts := st.starts + 1, events := st.events ++ [.start arch] }
  if !a.prepared then (.err none, st)
  else
    let st : State := { st with out := (Demux.run atoi st.out a.reads).1 }
    if a.pumpError then (.err none, st)
    else if a.timeout then (.err (some .connectionTimeout), st)
    else match a.exit with
      | some code =>
        let st : State := { st with exitCode := code }
        if code > 51 ∧ code ≤ 53 then (serverExitStatus code, st)
        else if !env.remote then (serverExitStatus code, st)
        else (.err (some .deployServer), st)
      | none =>
        let st : State := { st with events := st.events ++ [.forward st.out.port] }
        match a.reach with
        | .failed => (.err none, st)
        | .timeout => (.err (some .connectionTimeout), st)
        | .reached => (.ok, st)

/-- The result of a run; a null pointer is dereferenced in a crash. -/
inductive Result
  | crash
  | status (s : Status)
deriving DecidableEq

/-- `Sync()`. The code never connects `socket_` (the only call of `ClientSocket::Connect` is the one on the local socket of
`WaitForConnection`, common/client_socket.cc:55-57): `connects` is false for the code. Sending or receiving without a
connection dereferences `socket_info_`, a null pointer (client_socket.cc:128-160); at the latest this happens when
the receiving thread of the message pump runs, on which every `ReceiveMessage` waits. -/
def sync : Result :=
  if connects then match env.sync with
    | .ok => .status .ok
    | .eof => .status (.err (some .socketEof))
    | .failed => .status (.err none)
  else if env.early then .status (.err none) else .crash

/-- The second half of `Run`, cdc_rsync_client.cc:156-188, with `StopServer`, 313-331. -/
def finish (st : State) : Result × State :=
  let st : State := { st with events := st.events ++ [.sync] }
  match sync connects env with
  | .crash => (.crash, st)
  | .status s =>
    let st : State := { st with out := (Demux.run atoi st.out env.later).1 }
    if s ≠ .ok ∧ s.hasTag .socketEof = false then (.status s, st)
    else
      let st : State := { st with events := st.events ++ [.stop] }
      if !env.stopped then (.status (.err none), st)
      else
        let st : State := { st with exitCode := env.finalCode }
        if st.out.err = [] ∧ s.hasTag .socketEof = true then (.status s, st)
        else if st.exitCode ≠ 0 then (.status (serverExitStatus st.exitCode), st)
        else (.status s, st)

/-- cdc_rsync_client.cc:135-150: a second attempt if the architecture was guessed wrong. The result also has the
architecture to go on with; `none`: it could not be detected. -/
def retry (arch : Arch) (r : Status × State) : Option (Status × State × Arch) × State :=
  if r.1.hasTag .deployServer ∧ env.remote ∧ r.2.exitCode ≠ 51 then
    let st : State := { r.2 with events := r.2.events ++ [.detect] }
    match env.detect with
    | none => (none, st)
    | some arch' =>
      if arch' ≠ arch then
        let r := startServer atoi env st arch'
        (some (r.1, r.2, arch'), r.2)
      else (some (r.1, st, arch'), st)
  else (some (r.1, r.2, arch), r.2)

/-- cdc_rsync_client.cc:152-163. -/
def deployIfNeeded (arch : Arch) (s : Status) (st : State) : Status × State :=
  if s.hasTag .deployServer then
    let st : State := { st with events := st.events ++ [.deploy arch] }
    if !env.deployed then (.err none, st) else startServer atoi env st arch
  else (s, st)

/-- cdc_rsync_client.cc:165-189: sync if the server has been started. -/
def andThen (r : Status × State) : Result × State := match r with
  | (.ok, st) => finish atoi connects env st
  | (.err t, st) => (.status (.err t), st)

/-- cdc_rsync_client.cc:140-163: deploy if the architecture is known. -/
def afterRetry : Option (Status × State × Arch) × State → Result × State
  | (none, st) => (.status (.err none), st)
  | (some (s, st, arch), _) => andThen atoi connects env (deployIfNeeded atoi env arch s st)

/-- The architecture of the first attempt, cdc_rsync_client.cc:123-128. -/
def firstArch : Arch := if env.remote then guess env.destination else env.localArch

/-- `CdcRsyncClient::Run`, cdc_rsync_client.cc:123-189. -/
def run : Result × State :=
  afterRetry atoi connects env
    (retry atoi env (firstArch env) (startServer atoi env {} (firstArch env)))

/-- `TagToMessage` and the end of `wmain`, cdc_rsync/main.cc:48-85 and 118-145; `none` for a crash. -/
def codeOf : Result → Option Int
  | .crash => none
  | .status .ok => some 0
  | .status (.err none) => some 1
  | .status (.err (some .connectionTimeout)) => some 2
  | .status (.err (some .socketEof)) => some 3
  | .status (.err (some .addressInUse)) => some 4
  | .status (.err (some .deployServer)) => some 5

/-- The exit code of cdc_rsync. -/
def exitCode : Option Int := codeOf (run atoi connects env).1

def events : List Event := (run atoi connects env).2.events
end

/-! ## Specification -/

/-- The server of this attempt could be started, and a connection to the forwarded port is possible. -/
def Attempt.Works (a : Attempt) : Prop :=
  a.prepared = true ∧ a.pumpError = false ∧ a.timeout = false ∧ a.exit = none ∧ a.reach = .reached

/-- The process has exited with this code before it listened. -/
def Attempt.Exits (a : Attempt) (code : Int) : Prop :=
  a.prepared = true ∧ a.pumpError = false ∧ a.timeout = false ∧ a.exit = some code

/-- The exit code says that the server is not there, can't be run or is out of date. (52 and 53 are the codes of a server
that is up to date.) -/
def Unusable (code : Int) : Prop := code ≠ 52 ∧ code ≠ 53

/-- The attempt took too long. -/
def Attempt.TimesOut (a : Attempt) : Prop :=
  a.prepared = true ∧ a.pumpError = false ∧ (a.timeout = true ∨ (a.timeout = false ∧ a.exit = none ∧ a.reach = .timeout))

def isStart : Event → Bool
  | .start _ => true
  | _ => false

def isDeploy : Event → Bool
  | .deploy _ => true
  | _ => false

/-- Number of calls of `StartServer` in a run. -/
def startsOf (es : List Event) : Nat := es.countP isStart

/-- The server has exited because it must be deployed. -/
def Attempt.Needs (a : Attempt) (code : Int) : Prop := a.Exits code ∧ Unusable code

/-! ## One attempt -/

variable (atoi : Str → Int) (connects : Bool) (env : Env)

/-- Everything about one call of `StartServer`. -/
theorem startServer_spec (st : State) (arch : Arch) :
    (startServer atoi env st arch).2.starts = st.starts + 1 ∧
    ((startServer atoi env st arch).1 = .ok ↔ (env.attempt st.starts).Works) ∧
    ((startServer atoi env st arch).1 = .err (some .connectionTimeout) ↔ (env.attempt st.starts).TimesOut) ∧
    ((startServer atoi env st arch).1 = .err (some .deployServer) ↔
      env.remote = true ∧ ∃ c, (env.attempt st.starts).Needs c) ∧
    ((startServer atoi env st arch).1 = .err (some .addressInUse) ↔ (env.attempt st.starts).Exits 53) ∧
    (startServer atoi env st arch).1 ≠ .err (some .socketEof) ∧
    (∀ c, (env.attempt st.starts).Exits c → (startServer atoi env st arch).2.exitCode = c) ∧
    (∃ fw, (fw = [] ∨ ∃ p, fw = [.forward p]) ∧
      (startServer atoi env st arch).2.events = st.events ++ [.start arch] ++ fw ∧
      ((startServer atoi env st arch).1 = .ok → fw = [.forward (Demux.run atoi st.out (env.attempt st.starts).reads).1.port]) ∧
      ((startServer atoi env st arch).1.hasTag .deployServer = true → fw = [])) := by
  unfold startServer Attempt.Works Attempt.TimesOut Attempt.Needs Attempt.Exits Unusable
  generalize env.attempt st.starts = a
  obtain ⟨prepared, reads, pumpError, timeout, exit, reach⟩ := a
  cases prepared
  · simp [Status.hasTag]
  cases pumpError
  case true => simp [Status.hasTag]
  cases timeout
  case true => simp [Status.hasTag]
  cases exit with
  | none => cases reach <;> simp [Status.hasTag]
  | some code =>
    simp only [Bool.not_true, Bool.false_eq_true, if_false]
    by_cases hc : code > 51 ∧ code ≤ 53
    · rw [if_pos hc]
      have h2 : code = 52 ∨ code = 53 := by omega
      rcases h2 with rfl | rfl <;> simp [serverExitStatus, Status.hasTag]
    · rw [if_neg hc]
      have h1 : code ≠ 52 := by omega
      have h2 : code ≠ 53 := by omega
      cases hr : env.remote <;> simp [serverExitStatus, Status.hasTag, h1, h2]

/-! ## All runs -/

/-- The part of the events that belongs to a successful start. -/
inductive Tail : List Event → Prop
  | nil : Tail []
  | forward (p : Int) : Tail [.forward p]
  | sync (p : Int) : Tail [.forward p, .sync]
  | stop (p : Int) : Tail [.forward p, .sync, .stop]

/-- What happens from the last attempt on, which is attempt number `n`. -/
structure Last (n : Nat) (es : List Event) : Prop where
  tail : Tail es
  eof : exitCode atoi connects env = some 3 → connects = true ∧ env.sync = .eof ∧ env.stopped = true
  success : exitCode atoi connects env = some 0 ↔ (env.attempt n).Works ∧ connects = true ∧ env.sync = .ok ∧
    env.stopped = true ∧ env.finalCode = 0
  timeout : exitCode atoi connects env = some 2 ↔ (env.attempt n).TimesOut
  deploy : exitCode atoi connects env = some 5 ↔ env.remote = true ∧ ∃ c, (env.attempt n).Needs c
  inUse : exitCode atoi connects env = some 4 → (env.attempt n).Exits 53 ∨
    ((env.attempt n).Works ∧ connects = true ∧ env.stopped = true ∧ env.finalCode = 53)
  inUse' : (env.attempt n).Exits 53 → exitCode atoi connects env = some 4
  crash : connects = false → env.early = false → (env.attempt n).Works → exitCode atoi connects env = none

theorem finish_spec (st : State) :
    (∃ es, (es = [.sync] ∨ es = [.sync, .stop]) ∧ (finish atoi connects env st).2.events = st.events ++ es) ∧
    ((finish atoi connects env st).1 = .status .ok ↔ connects = true ∧ env.sync = .ok ∧ env.stopped = true ∧ env.finalCode = 0) ∧
    (finish atoi connects env st).1 ≠ .status (.err (some .connectionTimeout)) ∧
    (finish atoi connects env st).1 ≠ .status (.err (some .deployServer)) ∧
    ((finish atoi connects env st).1 = .status (.err (some .addressInUse)) →
      connects = true ∧ env.stopped = true ∧ env.finalCode = 53) ∧
    ((finish atoi connects env st).1 = .status (.err (some .socketEof)) →
      connects = true ∧ env.sync = .eof ∧ env.stopped = true) := by
  unfold finish sync
  cases connects with
  | false =>
    cases hE : env.early <;> simp [Status.hasTag]
  | true =>
    cases hS : env.sync <;> simp only [if_true, Status.hasTag]
    · cases hO : env.stopped <;> simp [serverExitStatus]
      by_cases h0 : env.finalCode = 0
      · simp [h0]
      · by_cases h53 : env.finalCode = 53 <;> simp [h0, h53]
    · cases hO : env.stopped <;> simp [serverExitStatus]
      split
      · simp
      · by_cases h0 : env.finalCode = 0
        · simp [h0]
        · by_cases h53 : env.finalCode = 53 <;> simp [h0, h53]
    · simp

theorem codeOf_ok (r : Result) : codeOf r = some 0 ↔ r = .status .ok := by
  rcases r with _ | _ | _ | _ | _ <;> simp [codeOf]
theorem codeOf_timeout (r : Result) : codeOf r = some 2 ↔ r = .status (.err (some .connectionTimeout)) := by
  rcases r with _ | _ | _ | _ | _ <;> simp [codeOf]
theorem codeOf_eof (r : Result) : codeOf r = some 3 ↔ r = .status (.err (some .socketEof)) := by
  rcases r with _ | _ | _ | _ | _ <;> simp [codeOf]
theorem codeOf_inUse (r : Result) : codeOf r = some 4 ↔ r = .status (.err (some .addressInUse)) := by
  rcases r with _ | _ | _ | _ | _ <;> simp [codeOf]
theorem codeOf_deploy (r : Result) : codeOf r = some 5 ↔ r = .status (.err (some .deployServer)) := by
  rcases r with _ | _ | _ | _ | _ <;> simp [codeOf]

theorem last_of (st : State) (arch : Arch)
    (h : run atoi connects env = andThen atoi connects env (startServer atoi env st arch)) :
    ∃ es, events atoi connects env = st.events ++ [.start arch] ++ es ∧ Last atoi connects env st.starts es := by
  obtain ⟨h1, h2, h3, h4, h5, h6, h7, fw, hfw, h8, h9, h10⟩ := startServer_spec atoi env st arch
  generalize startServer atoi env st arch = r at *
  obtain ⟨s, st'⟩ := r
  cases s with
  | ok =>
    have h : run atoi connects env = finish atoi connects env st' := h
    have hx : exitCode atoi connects env = codeOf (finish atoi connects env st').1 := by unfold exitCode; rw [h]
    obtain ⟨⟨es, hes, f1⟩, f2, f3, f4, f5, f6⟩ := finish_spec atoi connects env st'
    have hw := h2.1 rfl
    refine ⟨fw ++ es, ?_, ?_⟩
    · unfold events; rw [h, f1, h8]; simp
    · have nt : ¬ (env.attempt st.starts).TimesOut := fun ht => by have := h3.2 ht; cases this
      have nd : ¬ (env.remote = true ∧ ∃ c, (env.attempt st.starts).Needs c) := fun ht => by have := h4.2 ht; cases this
      have nu : ¬ (env.attempt st.starts).Exits 53 := fun ht => by have := h5.2 ht; cases this
      refine ⟨?_, ?_, ?_, ?_, ?_, ?_, fun he => absurd he nu, ?_⟩
      · rw [h9 rfl]
        rcases hes with rfl | rfl
        · exact .sync _
        · exact .stop _
      · rw [hx, codeOf_eof]; exact f6
      · rw [hx, codeOf_ok, f2]
        exact ⟨fun e => ⟨hw, e⟩, fun e => e.2⟩
      · rw [hx, codeOf_timeout]; exact iff_of_false f3 nt
      · rw [hx, codeOf_deploy]; exact iff_of_false f4 nd
      · rw [hx, codeOf_inUse]; intro e; exact Or.inr ⟨hw, f5 e⟩
      · intro hc he _; rw [hx]; unfold finish sync; simp [hc, he, codeOf]
  | err t =>
    have h : run atoi connects env = (.status (.err t), st') := h
    have hx : exitCode atoi connects env = codeOf (.status (.err t)) := by unfold exitCode; rw [h]
    have nw : ¬ (env.attempt st.starts).Works := fun hw => by have := h2.2 hw; cases this
    refine ⟨fw, ?_, ?_⟩
    · unfold events; rw [h]; exact h8
    · refine ⟨?_, ?_, ?_, ?_, ?_, ?_, ?_, fun _ _ hw => absurd hw nw⟩
      · rcases hfw with rfl | ⟨p, rfl⟩
        · exact .nil
        · exact .forward p
      · rw [hx, codeOf_eof, Result.status.injEq]; intro e; exact absurd e h6
      · rw [hx, codeOf_ok]; exact iff_of_false (fun e => by cases e) (fun e => nw e.1)
      · rw [hx, codeOf_timeout, Result.status.injEq]; exact h3
      · rw [hx, codeOf_deploy, Result.status.injEq]; exact h4
      · rw [hx, codeOf_inUse, Result.status.injEq]; intro e; exact Or.inl (h5.1 e)
      · rw [hx, codeOf_inUse, Result.status.injEq]; exact h5.2

/-- The parts of a run after a deployment. -/
inductive Deployed (n : Nat) (arch : Arch) : List Event → Prop
  /-- deploying fails -/
  | failed : env.deployed = false → exitCode atoi connects env = some 1 → Deployed n arch []
  | again (es : List Event) : env.deployed = true → Last atoi connects env n es → Deployed n arch (.start arch :: es)

/-- All the ways a run can go. -/
inductive Way : List Event → Prop
  /-- no deployment is needed -/
  | plain (es) : ¬ (env.remote = true ∧ ∃ c, (env.attempt 0).Needs c) → Last atoi connects env 0 es →
      Way (.start (firstArch env) :: es)
  /-- the architecture can't be detected -/
  | unknown (c) : env.remote = true → (env.attempt 0).Needs c → c ≠ 51 → env.detect = none →
      exitCode atoi connects env = some 1 → Way [.start (firstArch env), .detect]
  /-- the server is out of date -/
  | outdated (es) : env.remote = true → (env.attempt 0).Needs 51 → Deployed atoi connects env 1 (firstArch env) es →
      Way (.start (firstArch env) :: .deploy (firstArch env) :: es)
  /-- the guess was right -/
  | right (c es) : env.remote = true → (env.attempt 0).Needs c → c ≠ 51 → env.detect = some (firstArch env) →
      Deployed atoi connects env 1 (firstArch env) es →
      Way (.start (firstArch env) :: .detect :: .deploy (firstArch env) :: es)
  /-- the guess was wrong, and no deployment is needed -/
  | wrong (c a es) : env.remote = true → (env.attempt 0).Needs c → c ≠ 51 → env.detect = some a → a ≠ firstArch env →
      (¬ ∃ c, (env.attempt 1).Needs c) → Last atoi connects env 1 es →
      Way (.start (firstArch env) :: .detect :: .start a :: es)
  /-- the guess was wrong, and a deployment is needed -/
  | both (c a c' es) : env.remote = true → (env.attempt 0).Needs c → c ≠ 51 → env.detect = some a → a ≠ firstArch env →
      (env.attempt 1).Needs c' → Deployed atoi connects env 2 a es →
      Way (.start (firstArch env) :: .detect :: .start a :: .deploy a :: es)

theorem deployed_of (st : State) (arch : Arch) (s : Status) (hs : s.hasTag .deployServer = true)
    (h : run atoi connects env = andThen atoi connects env (deployIfNeeded atoi env arch s st)) :
    ∃ es, events atoi connects env = st.events ++ [.deploy arch] ++ es ∧ Deployed atoi connects env st.starts arch es := by
  unfold deployIfNeeded at h
  rw [if_pos hs] at h
  cases hd : env.deployed with
  | false =>
    simp only [hd] at h
    have h : run atoi connects env = (.status (.err none), { st with events := st.events ++ [.deploy arch] }) := h
    refine ⟨[], ?_, .failed hd ?_⟩
    · unfold events; rw [h]; simp
    · unfold exitCode; rw [h]; rfl
  | true =>
    simp only [hd] at h
    obtain ⟨es, h1, h2⟩ := last_of atoi connects env _ arch h
    refine ⟨.start arch :: es, ?_, .again es hd h2⟩
    rw [h1]; simp

theorem hasTag_iff (s : Status) (t : Tag) : s.hasTag t = true ↔ s = .err (some t) := by
  cases s <;> simp [Status.hasTag]

theorem run_way : Way atoi connects env (events atoi connects env) := by
  obtain ⟨h1, h2, h3, h4, h5, h6, h7, fw, hfw, h8, h9, h10⟩ := startServer_spec atoi env {} (firstArch env)
  have hrun : run atoi connects env =
      afterRetry atoi connects env (retry atoi env (firstArch env) (startServer atoi env {} (firstArch env))) := rfl
  by_cases hn : (startServer atoi env {} (firstArch env)).1.hasTag .deployServer = true
  · obtain ⟨hrem, c, hc⟩ := h4.1 ((hasTag_iff _ _).1 hn)
    have hex := h7 c hc.1
    rw [h10 hn] at h8
    generalize hr : startServer atoi env {} (firstArch env) = r at *
    obtain ⟨s, st⟩ := r
    simp only at hn hex h1 h8
    by_cases h51 : c = 51
    · subst h51
      unfold retry at hrun
      rw [if_neg (by simp [hex])] at hrun
      simp only [afterRetry] at hrun
      obtain ⟨es, he, hd⟩ := deployed_of atoi connects env _ _ _ hn hrun
      rw [he, h8]
      rw [h1] at hd
      exact Way.outdated es hrem hc hd
    · unfold retry at hrun
      rw [if_pos ⟨hn, hrem, by rw [hex]; exact h51⟩] at hrun
      cases hdet : env.detect with
      | none =>
        simp only [hdet, afterRetry] at hrun
        have e : events atoi connects env = [.start (firstArch env), .detect] := by
          unfold events; rw [hrun]; simp [h8]
        rw [e]
        exact Way.unknown c hrem hc h51 hdet (by unfold exitCode; rw [hrun]; rfl)
      | some a =>
        by_cases ha : a = firstArch env
        · subst ha
          simp only [afterRetry, hdet, ne_eq, not_true_eq_false, if_false] at hrun
          obtain ⟨es, he, hd⟩ := deployed_of atoi connects env _ _ _ hn hrun
          rw [he]
          simp only [h8]
          simp only [h1] at hd
          exact Way.right c es hrem hc h51 hdet hd
        · simp only [afterRetry, hdet, ne_eq, ha, not_false_eq_true, if_true] at hrun
          obtain ⟨g1, g2, g3, g4, g5, g6, g7, gw, hgw, g8, g9, g10⟩ :=
            startServer_spec atoi env { st with events := st.events ++ [.detect] } a
          have hs1 : st.starts = 1 := h1
          by_cases hn2 : (startServer atoi env { st with events := st.events ++ [.detect] } a).1.hasTag .deployServer = true
          · obtain ⟨_, c', hc'⟩ := g4.1 ((hasTag_iff _ _).1 hn2)
            obtain ⟨es, he, hd⟩ := deployed_of atoi connects env _ _ _ hn2 hrun
            rw [he, g8, g10 hn2]
            simp only [h8]
            rw [g1] at hd
            simp only [h1] at hd hc'
            exact Way.both c a c' es hrem hc h51 hdet ha hc' hd
          · have hrun2 : run atoi connects env =
                andThen atoi connects env (startServer atoi env { st with events := st.events ++ [.detect] } a) := by
              rw [hrun]; unfold deployIfNeeded; rw [if_neg hn2]
            obtain ⟨es, he, hl⟩ := last_of atoi connects env _ a hrun2
            rw [he]
            simp only [h8]
            simp only [h1] at hl
            refine Way.wrong c a es hrem hc h51 hdet ha ?_ hl
            rintro ⟨c', hc'⟩
            refine hn2 ((hasTag_iff _ _).2 (g4.2 ⟨hrem, c', ?_⟩))
            simp only [h1]; exact hc'
  · have hrun2 : run atoi connects env = andThen atoi connects env (startServer atoi env {} (firstArch env)) := by
      rw [hrun]; unfold retry
      rw [if_neg (fun e => hn e.1)]
      simp only [afterRetry]
      unfold deployIfNeeded; rw [if_neg hn]
    obtain ⟨es, he, hl⟩ := last_of atoi connects env _ _ hrun2
    rw [he]
    exact Way.plain es (fun e => hn ((hasTag_iff _ _).2 (h4.2 e))) hl

/-! ## The theorems -/

/-- The last call of `StartServer` in this run. -/
def lastAttempt : Attempt := env.attempt (startsOf (events atoi connects env) - 1)

theorem tail_events {es : List Event} (h : Tail es) : startsOf es = 0 ∧ es.countP isDeploy = 0 ∧ (∀ e ∈ es, isDeploy e = false ∧ e ≠ .detect) := by
  cases h <;> simp [startsOf, isStart, isDeploy]

theorem works_not_needs {a : Attempt} {c : Int} (h : a.Works) : ¬ a.Needs c := fun e => by
  have := e.1.2.2.2; rw [h.2.2.2.1] at this; cases this

theorem needs_not_timesOut {a : Attempt} {c : Int} (h : a.Needs c) : ¬ a.TimesOut := fun e => by
  rcases e.2.2 with e | e
  · rw [h.1.2.2.1] at e; cases e
  · have := h.1.2.2.2; rw [e.2.1] at this; cases this

theorem needs_not_inUse {a : Attempt} {c : Int} (h : a.Needs c) : ¬ a.Exits 53 := fun e => by
  have := e.2.2.2; rw [h.1.2.2.2] at this
  exact h.2.2 (Option.some.inj this)

/-- A run ends with the last attempt, or because the architecture can't be detected, or because deploying failed. -/
theorem run_end :
    (∃ n, startsOf (events atoi connects env) = n + 1 ∧ (∃ es, Last atoi connects env n es) ∧
      (env.remote = true → (∃ c, (env.attempt n).Needs c) →
        env.deployed = true ∧ ∃ a, .deploy a ∈ events atoi connects env)) ∨
    (exitCode atoi connects env = some 1 ∧ env.remote = true ∧ (∃ c, (lastAttempt atoi connects env).Needs c) ∧
      ((∀ a, .deploy a ∉ events atoi connects env) ∨ env.deployed = false)) := by
  have hw := run_way atoi connects env
  generalize he : events atoi connects env = ev at hw
  have dep : ∀ n arch es, Deployed atoi connects env n arch es →
      (startsOf es = 1 ∧ (∃ es, Last atoi connects env n es) ∧ env.deployed = true) ∨
      (es = [] ∧ env.deployed = false ∧ exitCode atoi connects env = some 1) := by
    intro n arch es h
    cases h with
    | failed h1 h2 => exact Or.inr ⟨rfl, h1, h2⟩
    | again es h1 h2 =>
      refine Or.inl ⟨?_, ⟨es, h2⟩, h1⟩
      have := (tail_events h2.tail).1
      simp only [startsOf, List.countP_cons, isStart] at this ⊢
      simp [this]
  unfold lastAttempt
  rw [he]
  cases hw with
  | plain es h1 h2 =>
    have := (tail_events h2.tail).1
    refine Or.inl ⟨0, ?_, ⟨es, h2⟩, fun hr hn => absurd ⟨hr, hn⟩ h1⟩
    simp only [startsOf, List.countP_cons, isStart] at this ⊢
    simpa using this
  | unknown c h1 h2 h3 h4 h5 => exact Or.inr ⟨h5, h1, ⟨c, h2⟩, Or.inl (by simp)⟩
  | outdated es h1 h2 h3 =>
    rcases dep _ _ _ h3 with ⟨k, l, ld⟩ | ⟨rfl, k2, k3⟩
    · refine Or.inl ⟨1, ?_, l, fun _ _ => ⟨ld, _, by simp; exact Or.inl rfl⟩⟩
      simp only [startsOf, List.countP_cons, isStart] at k ⊢
      simp [k]
    · exact Or.inr ⟨k3, h1, ⟨_, h2⟩, Or.inr k2⟩
  | right c es h1 h2 h3 h4 h5 =>
    rcases dep _ _ _ h5 with ⟨k, l, ld⟩ | ⟨rfl, k2, k3⟩
    · refine Or.inl ⟨1, ?_, l, fun _ _ => ⟨ld, _, by simp; exact Or.inl rfl⟩⟩
      simp only [startsOf, List.countP_cons, isStart] at k ⊢
      simp [k]
    · exact Or.inr ⟨k3, h1, ⟨_, h2⟩, Or.inr k2⟩
  | wrong c a es h1 h2 h3 h4 h5 h6 h7 =>
    have := (tail_events h7.tail).1
    refine Or.inl ⟨1, ?_, ⟨es, h7⟩, fun _ hn => absurd hn h6⟩
    simp only [startsOf, List.countP_cons, isStart] at this ⊢
    simp [this]
  | both c a c' es h1 h2 h3 h4 h5 h6 h7 =>
    rcases dep _ _ _ h7 with ⟨k, l, ld⟩ | ⟨rfl, k2, k3⟩
    · refine Or.inl ⟨2, ?_, l, fun _ _ => ⟨ld, _, by simp; exact Or.inl rfl⟩⟩
      simp only [startsOf, List.countP_cons, isStart] at k ⊢
      simp [k]
    · exact Or.inr ⟨k3, h1, ⟨_, h6⟩, Or.inr k2⟩

/-- C108: with a connection, cdc_rsync exits with code 0 exactly if the server of the last attempt could be reached, the sync was
successful, the server could be stopped and its own exit code was 0. Missing: the code makes no connection, see
`C108_never_succeeds_violated`. -/
theorem C108_with_connection_partial :
    exitCode atoi true env = some 0 ↔
      (lastAttempt atoi true env).Works ∧ env.sync = .ok ∧ env.stopped = true ∧ env.finalCode = 0 := by
  rcases run_end atoi true env with ⟨n, h, ⟨es, hl⟩, hd⟩ | ⟨h1, h2, ⟨c, h3⟩, h4⟩
  · rw [hl.success]
    unfold lastAttempt
    rw [h]
    simp
  · rw [h1]
    exact iff_of_false (by decide) (fun e => works_not_needs e.1 h3)

/-- C108 is violated: whatever the environment does, cdc_rsync does not exit with code 0, because the code never connects the socket
it sends to. If everything else works it crashes. -/
theorem C108_never_succeeds_violated :
    (∀ env, exitCode atoi false env ≠ some 0) ∧
    (∀ env, (lastAttempt atoi false env).Works → env.early = false → exitCode atoi false env = none) := by
  constructor
  · intro env h
    rcases run_end atoi false env with ⟨n, _, ⟨es, hl⟩, _⟩ | ⟨h1, _⟩
    · cases (hl.success.1 h).2.1
    · rw [h] at h1; cases h1
  · intro env hw he
    rcases run_end atoi false env with ⟨n, h, ⟨es, hl⟩, hd⟩ | ⟨h1, h2, ⟨c, h3⟩, h4⟩
    · unfold lastAttempt at hw
      rw [h] at hw
      exact hl.crash rfl he hw
    · exact absurd h3 (works_not_needs hw)

theorem no_deploy {l b af : List Event} {a : Arch} {P : Prop} (h : ∀ e ∈ l, isDeploy e = false) (e : l = b ++ .deploy a :: af) : P := by
  have := h (.deploy a) (by rw [e]; simp)
  cases this

theorem one_deploy {pre post b af : List Event} {x a : Arch} (h1 : ∀ e ∈ pre, isDeploy e = false)
    (h2 : ∀ e ∈ post, isDeploy e = false) (e : pre ++ .deploy x :: post = b ++ .deploy a :: af) : pre = b ∧ x = a := by
  induction pre generalizing b with
  | nil =>
    cases b with
    | nil => cases e; exact ⟨rfl, rfl⟩
    | cons y b =>
      have e : post = b ++ .deploy a :: af := by injection e
      exact no_deploy h2 e
  | cons y pre ih =>
    cases b with
    | nil =>
      have e : y = .deploy a := by injection e
      have := h1 y (by simp)
      rw [e] at this; cases this
    | cons z b =>
      have e1 : y = z := by injection e
      have e2 : pre ++ .deploy x :: post = b ++ .deploy a :: af := by injection e
      obtain ⟨rfl, rfl⟩ := ih (fun e he => h1 e (by simp [he])) e2
      exact ⟨by rw [e1], rfl⟩

/-- C109: a run starts the server at most three times and deploys it at most once. It is deployed only to a remote device, only
after the latest attempt ended with the server exiting with a code that says it is not there or out of date, and for the
architecture that was detected; without detection (for the one guessed from the destination) only if the guess was confirmed by
an out-of-date server of that architecture. -/
theorem C109_deployment :
    startsOf (events atoi connects env) ≤ 3 ∧ (events atoi connects env).countP isDeploy ≤ 1 ∧
    ∀ before a after, events atoi connects env = before ++ .deploy a :: after →
      env.remote = true ∧ (∃ n, startsOf before = n + 1 ∧ ∃ c, (env.attempt n).Needs c) ∧
      (.detect ∈ before ∧ env.detect = some a ∨ .detect ∉ before ∧ a = guess env.destination ∧ (env.attempt 0).Needs 51) := by
  have hw := run_way atoi connects env
  generalize he : events atoi connects env = ev at hw
  have dep : ∀ n arch es, Deployed atoi connects env n arch es →
      startsOf es ≤ 1 ∧ es.countP isDeploy = 0 ∧ ∀ e ∈ es, isDeploy e = false := by
    intro n arch es h
    cases h with
    | failed h1 h2 => simp [startsOf]
    | again es h1 h2 =>
      obtain ⟨t1, t2, t3⟩ := tail_events h2.tail
      refine ⟨?_, ?_, ?_⟩
      · simp only [startsOf, List.countP_cons, isStart] at t1 ⊢; simp [t1]
      · simp only [List.countP_cons, isDeploy] at t2 ⊢; simp [t2]
      · intro e he
        rcases List.mem_cons.1 he with rfl | he
        · rfl
        · exact (t3 e he).1
  cases hw with
  | plain es h1 h2 =>
    obtain ⟨t1, t2, t3⟩ := tail_events h2.tail
    refine ⟨?_, ?_, ?_⟩
    · simp only [startsOf, List.countP_cons, isStart] at t1 ⊢; simp [t1]
    · simp only [List.countP_cons, isDeploy] at t2 ⊢; simp [t2]
    · intro b a af e
      refine no_deploy ?_ e
      intro x hx
      rcases List.mem_cons.1 hx with rfl | hx
      · rfl
      · exact (t3 x hx).1
  | unknown c h1 h2 h3 h4 h5 =>
    refine ⟨by simp [startsOf, isStart, List.countP_cons], by simp [isDeploy, List.countP_cons], ?_⟩
    intro b a af e
    refine no_deploy ?_ e
    intro x hx
    simp only [List.mem_cons, List.not_mem_nil, or_false] at hx
    rcases hx with rfl | rfl <;> rfl
  | outdated es h1 h2 h3 =>
    obtain ⟨t1, t2, t3⟩ := dep _ _ _ h3
    refine ⟨?_, ?_, ?_⟩
    · simp only [startsOf, List.countP_cons, isStart] at t1 ⊢; simp; omega
    · simp only [List.countP_cons, isDeploy] at t2 ⊢; simp [t2]
    · intro b a af e
      obtain ⟨rfl, rfl⟩ := one_deploy (pre := [.start (firstArch env)]) (by simp [isDeploy]) t3 e
      refine ⟨h1, ⟨0, by simp [startsOf, isStart, List.countP_cons], 51, h2⟩, Or.inr ⟨by simp, by simp [firstArch, h1], h2⟩⟩
  | right c es h1 h2 h3 h4 h5 =>
    obtain ⟨t1, t2, t3⟩ := dep _ _ _ h5
    refine ⟨?_, ?_, ?_⟩
    · simp only [startsOf, List.countP_cons, isStart] at t1 ⊢; simp; omega
    · simp only [List.countP_cons, isDeploy] at t2 ⊢; simp [t2]
    · intro b a af e
      obtain ⟨rfl, rfl⟩ := one_deploy (pre := [.start (firstArch env), .detect]) (by simp [isDeploy]) t3 e
      exact ⟨h1, ⟨0, by simp [startsOf, isStart, List.countP_cons], c, h2⟩, Or.inl ⟨by simp, h4⟩⟩
  | wrong c a es h1 h2 h3 h4 h5 h6 h7 =>
    obtain ⟨t1, t2, t3⟩ := tail_events h7.tail
    refine ⟨?_, ?_, ?_⟩
    · simp only [startsOf, List.countP_cons, isStart] at t1 ⊢; simp [t1]
    · simp only [List.countP_cons, isDeploy] at t2 ⊢; simp [t2]
    · intro b a af e
      refine no_deploy ?_ e
      intro x hx
      simp only [List.mem_cons] at hx
      rcases hx with rfl | rfl | rfl | hx
      · rfl
      · rfl
      · rfl
      · exact (t3 x hx).1
  | both c a c' es h1 h2 h3 h4 h5 h6 h7 =>
    obtain ⟨t1, t2, t3⟩ := dep _ _ _ h7
    refine ⟨?_, ?_, ?_⟩
    · simp only [startsOf, List.countP_cons, isStart] at t1 ⊢; simp; omega
    · simp only [List.countP_cons, isDeploy] at t2 ⊢; simp [t2]
    · intro b a' af e
      obtain ⟨rfl, rfl⟩ := one_deploy (pre := [.start (firstArch env), .detect, .start a]) (by simp [isDeploy]) t3 e
      exact ⟨h1, ⟨1, by simp [startsOf, isStart, List.countP_cons], c', h6⟩, Or.inl ⟨by simp, h4⟩⟩

/-- `c:…` or `\\\\computer\\share…`. -/
def Drive (d : Str) : Prop :=
  (∃ c r, d = c :: 58 :: r ∧ c ≠ 58 ∧ c ≠ 92) ∨
  ∃ s b r, d = 92 :: 92 :: (s ++ 92 :: b :: r) ∧ s ≠ [] ∧ 92 ∉ s ∧ b ≠ 92

/-- Destinations that are taken for paths of Windows. -/
def LooksWindows (d : Str) : Prop := d.head? ≠ some 126 ∧ d.head? ≠ some 47 ∧ (Drive d ∨ 92 ∈ d ∧ 47 ∉ d)

theorem find_split {c : UInt8} {s : Str} {n : Nat} (h : s.findIdx? (· == c) = some n) :
    ∃ a b, s = a ++ c :: b ∧ c ∉ a ∧ a.length = n := by
  induction s generalizing n with
  | nil => cases h
  | cons x s ih =>
    rw [List.findIdx?_cons] at h
    by_cases hx : x = c
    · subst hx
      simp at h
      exact ⟨[], s, rfl, List.not_mem_nil, h⟩
    · rw [if_neg (by simpa using hx)] at h
      obtain ⟨m, h1, h2⟩ := Option.map_eq_some_iff.1 h
      obtain ⟨a, b, e1, e2, e3⟩ := ih h1
      refine ⟨x :: a, b, by rw [e1]; rfl, fun hm => ?_, by rw [List.length_cons, e3]; exact h2⟩
      rcases List.mem_cons.1 hm with hm | hm
      · exact hx hm.symm
      · exact e2 hm

theorem find_at {c : UInt8} (a b : Str) (h : c ∉ a) : (a ++ c :: b).findIdx? (· == c) = some a.length := by
  induction a with
  | nil => simp [List.findIdx?_cons]
  | cons x a ih =>
    have hx : x ≠ c := fun e => h (by simp [e])
    rw [List.cons_append, List.findIdx?_cons, if_neg (by simpa using hx), ih fun hm => h (List.mem_cons_of_mem _ hm)]
    rfl

theorem drive_iff (d : Str) : Path.drivePrefix d ≠ [] ↔ Drive d := by
  constructor
  · intro h
    cases d with
    | nil => exact absurd rfl h
    | cons c rest =>
      unfold Path.drivePrefix at h
      simp only at h
      split at h
      · rename_i hc
        split at h
        · rename_i hf
          obtain ⟨n, h1, h2⟩ := Option.map_eq_some_iff.1 hf
          obtain ⟨a, b, e1, e2, e3⟩ := find_split h1
          rw [List.drop_zero] at e1
          have : a.length = 1 := by omega
          obtain ⟨x, rfl⟩ := List.length_eq_one_iff.1 this
          cases e1
          exact Or.inl ⟨_, _, rfl, fun e => e2 (by simp [e]), hc⟩
        · exact absurd rfl h
      · rename_i hc
        have hc : c = 92 := Decidable.not_not.1 hc
        cases rest with
        | nil => exact absurd rfl h
        | cons c1 t =>
          simp only at h
          split at h
          · exact absurd rfl h
          · rename_i hc1
            have hc1 : c1 = 92 := Decidable.not_not.1 hc1
            split at h
            · exact absurd rfl h
            · rename_i third h3
              obtain ⟨n, h1, h2⟩ := Option.map_eq_some_iff.1 h3
              obtain ⟨s, u, e1, e2, e3⟩ := find_split h1
              have e1 : t = s ++ 92 :: u := e1
              split at h
              · exact absurd rfl h
              · rename_i hl
                have hs : s ≠ [] := by rintro rfl; exact hl (Or.inl (by simp at e3; omega))
                cases u with
                | nil => exact absurd (Or.inr (by rw [e1]; simp; omega)) hl
                | cons b r =>
                  refine Or.inr ⟨s, b, r, by rw [hc, hc1, e1], hs, e2, ?_⟩
                  rintro rfl
                  have hd : (c :: c1 :: t).drop (third + 1) = 92 :: r := by
                    have : third + 1 = (c :: c1 :: (s ++ [92])).length := by simp; omega
                    rw [this, e1]
                    have := List.drop_left (l₁ := c :: c1 :: (s ++ [92])) (l₂ := 92 :: r)
                    simpa using this
                  have hf : Path.findFrom 92 (c :: c1 :: t) (third + 1) = some (third + 1) := by
                    unfold Path.findFrom
                    rw [hd, List.findIdx?_cons]; simp
                  rw [hf] at h
                  simp at h
  · rintro (⟨c, r, rfl, h1, h2⟩ | ⟨s, b, r, rfl, h1, h2, h3⟩) h
    · unfold Path.drivePrefix at h
      have hf : Path.findFrom 58 (c :: 58 :: r) 0 = some 1 := by
        unfold Path.findFrom
        rw [List.drop_zero, List.findIdx?_cons, if_neg (by simpa using h1)]; simp [List.findIdx?_cons]
      simp [h2, hf] at h
    · have hf : Path.findFrom 92 (92 :: 92 :: (s ++ 92 :: b :: r)) 2 = some (s.length + 2) := by
        unfold Path.findFrom
        rw [List.drop_succ_cons, List.drop_succ_cons, List.drop_zero, find_at s _ h2]; rfl
      have hs : s.length ≠ 0 := fun e => h1 (List.length_eq_zero_iff.1 e)
      have hd : (92 :: 92 :: (s ++ 92 :: b :: r)).drop (s.length + 2 + 1) = b :: r := by
        have := List.drop_left (l₁ := 92 :: 92 :: (s ++ [92])) (l₂ := b :: r)
        simpa using this
      unfold Path.drivePrefix at h
      simp only [ne_eq, not_true_eq_false, ite_false, hf] at h
      rw [if_neg (by simp; omega)] at h
      split at h
      · cases h
      · rename_i fourth h4
        rw [Path.findFrom, hd, List.findIdx?_cons, if_neg (by simpa using h3)] at h4
        obtain ⟨n, e1, e2⟩ := Option.map_eq_some_iff.1 h4
        obtain ⟨m, e3, e4⟩ := Option.map_eq_some_iff.1 e1
        rw [if_neg (by omega)] at h
        have : fourth ≠ 0 := by omega
        rw [List.take_eq_nil_iff] at h
        rcases h with h | h
        · exact this h
        · cases h

theorem guess_iff (d : Str) : guess d = .windows ↔ LooksWindows d := by
  unfold guess LooksWindows
  rw [← drive_iff]
  by_cases h1 : d.head? = some 126 <;> by_cases h2 : d.head? = some 47 <;> by_cases h3 : Path.drivePrefix d = [] <;>
    by_cases h4 : 47 ∈ d <;> by_cases h5 : 92 ∈ d <;> simp [h1, h2, h3, h4, h5]

/-- C109: the first server that is started is the one for this computer if the destination is local, and else the one for
Windows if and only if the destination looks like a path of Windows. -/
theorem C109_first_server : ∃ a es, events atoi connects env = .start a :: es ∧
    (env.remote = false → a = env.localArch) ∧ (env.remote = true → (a = .windows ↔ LooksWindows env.destination)) := by
  have h : ∃ es, events atoi connects env = .start (firstArch env) :: es := by
    have hw := run_way atoi connects env
    generalize events atoi connects env = ev at hw
    cases hw <;> exact ⟨_, rfl⟩
  obtain ⟨es, he⟩ := h
  refine ⟨firstArch env, es, he, fun h => by simp [firstArch, h], fun h => ?_⟩
  rw [← guess_iff]
  simp [firstArch, h]

private def bytes (s : String) : Str := s.toList.map (·.toNat.toUInt8)

/-- Examples of guesses. -/
example : LooksWindows (bytes "C:\\x/y") ∧ LooksWindows (bytes "a\\b") ∧ ¬ LooksWindows (bytes "~\\b") ∧
    ¬ LooksWindows (bytes "a/b") ∧ LooksWindows (bytes "\\\\pc\\s/x") := by
  simp only [← guess_iff]; decide +kernel

/-- C109: the other direction. If the first attempt on a remote device shows that the server must be deployed, then it is deployed
unless the architecture can't be detected or the server of the detected architecture, which was not the guessed one, does not have
to be deployed. -/
theorem C109_deploys_if_needed (hr : env.remote = true) (c : Int) (h0 : (env.attempt 0).Needs c) :
    (∃ a, .deploy a ∈ events atoi connects env) ∨
    (c ≠ 51 ∧ env.detect = none ∧ exitCode atoi connects env = some 1) ∨
    (c ≠ 51 ∧ ∃ a, env.detect = some a ∧ a ≠ guess env.destination ∧ .start a ∈ events atoi connects env ∧
      ¬ ∃ c, (env.attempt 1).Needs c) := by
  have hw := run_way atoi connects env
  have uniq : ∀ d, (env.attempt 0).Needs d → d = c := fun d h => Option.some.inj (h.1.2.2.2.symm.trans h0.1.2.2.2)
  have hg : firstArch env = guess env.destination := by simp [firstArch, hr]
  generalize he : events atoi connects env = ev at hw
  cases hw with
  | plain es h1 h2 => exact absurd ⟨hr, c, h0⟩ h1
  | unknown c h1 h2 h3 h4 h5 => rw [← uniq _ h2]; exact Or.inr (Or.inl ⟨h3, h4, h5⟩)
  | outdated es h1 h2 h3 => exact Or.inl ⟨firstArch env, by simp⟩
  | right c es h1 h2 h3 h4 h5 => exact Or.inl ⟨firstArch env, by simp⟩
  | wrong c a es h1 h2 h3 h4 h5 h6 h7 =>
    rw [← uniq _ h2]; rw [hg] at h5; exact Or.inr (Or.inr ⟨h3, a, h4, h5, by simp, h6⟩)
  | both c a c' es h1 h2 h3 h4 h5 h6 h7 => exact Or.inl ⟨a, by simp⟩

/-- C110: what the other exit codes of cdc_rsync say. 2 (timeout): exactly if the last attempt took too long. 5 (deploy): exactly if
the server has been deployed and still exits as if it had to be deployed. 4 (port in use): the server said so. 3: the connection
was lost while syncing. -/
theorem C110_exit_codes :
    (exitCode atoi connects env = some 2 ↔ (lastAttempt atoi connects env).TimesOut) ∧
    (exitCode atoi connects env = some 5 ↔
      env.remote = true ∧ env.deployed = true ∧ (∃ a, .deploy a ∈ events atoi connects env) ∧
        ∃ c, (lastAttempt atoi connects env).Needs c) ∧
    ((lastAttempt atoi connects env).Exits 53 → exitCode atoi connects env = some 4) ∧
    (exitCode atoi connects env = some 4 → (lastAttempt atoi connects env).Exits 53 ∨
      ((lastAttempt atoi connects env).Works ∧ env.stopped = true ∧ env.finalCode = 53)) ∧
    (exitCode atoi connects env = some 3 → env.sync = .eof) := by
  rcases run_end atoi connects env with ⟨n, h, ⟨es, hl⟩, hd⟩ | ⟨h1, h2, ⟨c, h3⟩, h4⟩
  · have e : lastAttempt atoi connects env = env.attempt n := by unfold lastAttempt; rw [h]; rfl
    rw [e]
    refine ⟨hl.timeout, ?_, hl.inUse', ?_, fun h => (hl.eof h).2.1⟩
    · rw [hl.deploy]
      exact ⟨fun ⟨h1, h2⟩ => ⟨h1, (hd h1 h2).1, (hd h1 h2).2, h2⟩, fun ⟨h1, _, _, h2⟩ => ⟨h1, h2⟩⟩
    · intro h4
      rcases hl.inUse h4 with h | ⟨a, b, c, d⟩
      · exact Or.inl h
      · exact Or.inr ⟨a, c, d⟩
  · rw [h1]
    refine ⟨iff_of_false (by decide) (needs_not_timesOut h3), iff_of_false (by decide) ?_,
      fun h => absurd h (needs_not_inUse h3), fun h => absurd h (by decide), fun h => absurd h (by decide)⟩
    rintro ⟨_, hdep, ⟨a, ha⟩, _⟩
    rcases h4 with h4 | h4
    · exact h4 a ha
    · rw [h4] at hdep; cases hdep

/-! ## The port -/

/-- What the servers of the first `n` attempts print, in order. -/
def printed (n : Nat) : List Str :=
  (List.range n).flatMap (fun i => if (env.attempt i).prepared then (env.attempt i).reads else [])

theorem printed_succ (n : Nat) :
    printed env (n + 1) = printed env n ++ (if (env.attempt n).prepared then (env.attempt n).reads else []) := by
  simp [printed, List.range_succ]

theorem run_append (st : Demux.State) (a b : List Str) :
    (Demux.run atoi st (a ++ b)).1 = (Demux.run atoi (Demux.run atoi st a).1 b).1 := by
  induction a generalizing st with
  | nil => rfl
  | cons r a ih => simp only [List.cons_append, Demux.run]; exact ih _

/-- Every port that is forwarded is the one found in everything that has been printed so far. -/
def Ports (es : List Event) : Prop := ∀ before p after, es = before ++ .forward p :: after →
  ∃ n, startsOf before = n + 1 ∧ (env.attempt n).prepared = true ∧ p = (Demux.run atoi {} (printed env (n + 1))).1.port

structure PInv (st : State) : Prop where
  out : st.out = (Demux.run atoi {} (printed env st.starts)).1
  starts : startsOf st.events = st.starts
  ports : Ports atoi env st.events

theorem ports_snoc {es : List Event} {e : Event} (h : Ports atoi env es) (he : ∀ p, e ≠ .forward p) :
    Ports atoi env (es ++ [e]) := by
  intro b p af heq
  rcases List.eq_nil_or_concat af with rfl | ⟨af, x, rfl⟩
  · exact absurd (by have := (List.append_inj' heq rfl).2; simpa using this) (he p)
  · rw [List.concat_eq_append, ← List.cons_append, ← List.append_assoc] at heq
    exact h b p af (List.append_inj' heq rfl).1

theorem ports_forward {es : List Event} {q : Int} (h : Ports atoi env es) {n : Nat} (h1 : startsOf es = n + 1)
    (h2 : (env.attempt n).prepared = true) (h3 : q = (Demux.run atoi {} (printed env (n + 1))).1.port) :
    Ports atoi env (es ++ [.forward q]) := by
  intro b p af heq
  rcases List.eq_nil_or_concat af with rfl | ⟨af, x, rfl⟩
  · obtain ⟨e1, e2⟩ := List.append_inj' heq rfl
    subst e1
    have : q = p := by simpa using e2
    subst this
    exact ⟨n, h1, h2, h3⟩
  · rw [List.concat_eq_append, ← List.cons_append, ← List.append_assoc] at heq
    exact h b p af (List.append_inj' heq rfl).1

theorem startsOf_append (a b : List Event) : startsOf (a ++ b) = startsOf a + startsOf b := List.countP_append ..

theorem startServer_ports (st : State) (arch : Arch) (h : PInv atoi env st) :
    PInv atoi env (startServer atoi env st arch).2 := by
  have hp : Ports atoi env (st.events ++ [.start arch]) := ports_snoc atoi env h.ports (by simp)
  have hs : startsOf (st.events ++ [.start arch]) = st.starts + 1 := by
    rw [startsOf_append, h.starts]; simp [startsOf, isStart]
  unfold startServer
  by_cases hpr : (env.attempt st.starts).prepared = true
  · have ho : (Demux.run atoi st.out (env.attempt st.starts).reads).1 =
        (Demux.run atoi {} (printed env (st.starts + 1))).1 := by
      rw [printed_succ, if_pos hpr, run_append, ← h.out]
    have base : ∀ code, PInv atoi env (State.mk (Demux.run atoi st.out (env.attempt st.starts).reads).1 code
        (st.starts + 1) (st.events ++ [.start arch])) := fun _ => ⟨ho, hs, hp⟩
    have fwd : PInv atoi env (State.mk (Demux.run atoi st.out (env.attempt st.starts).reads).1 st.exitCode
        (st.starts + 1) ((st.events ++ [.start arch]) ++
          [.forward (Demux.run atoi st.out (env.attempt st.starts).reads).1.port])) := by
      refine ⟨ho, ?_, ports_forward atoi env hp hs hpr (by rw [ho])⟩
      rw [startsOf_append, hs]; simp [startsOf, isStart]
    simp only [hpr, Bool.not_true, Bool.false_eq_true, if_false]
    split
    · exact base _
    split
    · exact base _
    split
    · split
      · exact base _
      split
      · exact base _
      · exact base _
    · split <;> exact fwd
  · have hpr' : (env.attempt st.starts).prepared = false := by simpa using hpr
    simp only [hpr', Bool.not_false, if_true]
    refine ⟨?_, hs, hp⟩
    show st.out = _
    rw [printed_succ, if_neg hpr, List.append_nil]; exact h.out

theorem pinv_event {st : State} {e : Event} (h : PInv atoi env st) (he : ∀ p, e ≠ .forward p) (hs : isStart e = false) :
    PInv atoi env { st with events := st.events ++ [e] } := by
  refine ⟨h.out, ?_, ports_snoc atoi env h.ports he⟩
  show startsOf (st.events ++ [e]) = st.starts
  rw [startsOf_append, h.starts]; simp [startsOf, hs]

theorem run_ports : Ports atoi env (events atoi connects env) := by
  have h0 : PInv atoi env {} := by
    refine ⟨rfl, rfl, ?_⟩
    intro b p af h
    have h : ([] : List Event) = b ++ .forward p :: af := h
    simp at h
  have h1 := startServer_ports atoi env {} (firstArch env) h0
  have hthen : ∀ r : Status × State, PInv atoi env r.2 → Ports atoi env (andThen atoi connects env r).2.events := by
    rintro ⟨s, st⟩ h
    cases s with
    | err t => exact h.ports
    | ok =>
      show Ports atoi env (finish atoi connects env st).2.events
      have hp := ports_snoc atoi env (e := .sync) h.ports (by simp)
      have hp2 := ports_snoc atoi env (e := .stop) hp (by simp)
      unfold finish
      simp only
      split
      · exact hp
      split
      · exact hp
      split
      · exact hp2
      split
      · exact hp2
      split <;> exact hp2
  have hdep : ∀ arch s st, PInv atoi env st → PInv atoi env (deployIfNeeded atoi env arch s st).2 := by
    intro arch s st h
    unfold deployIfNeeded
    split
    · have := pinv_event atoi env (e := .deploy arch) h (by simp) rfl
      simp only
      split
      · exact this
      · exact startServer_ports atoi env _ _ this
    · exact h
  unfold events run
  unfold retry
  generalize startServer atoi env {} (firstArch env) = r at h1 ⊢
  split
  · have h2 := pinv_event atoi env (e := .detect) h1 (by simp) rfl
    simp only
    split
    · exact h2.ports
    · split
      · exact hthen _ (hdep _ _ _ (startServer_ports atoi env _ _ h2))
      · exact hthen _ (hdep _ _ _ h2)
  · exact hthen _ (hdep _ _ _ h1)

theorem inv_bytes_even (t : Str) (e : Bool) (err out : Str) :
    (Demux.bytes e err out t).1 = (e != decide (t.count Demux.marker % 2 = 1)) := by
  induction t generalizing e err out with
  | nil => simp [Demux.bytes]
  | cons c t ih =>
    simp only [Demux.bytes]
    by_cases hc : c = Demux.marker
    · rw [if_pos hc, ih, hc, List.count_cons_self]
      rcases Nat.mod_two_eq_zero_or_one (t.count Demux.marker) with h | h
      · rw [h, show (t.count Demux.marker + 1) % 2 = 1 by omega]; cases e <;> rfl
      · rw [h, show (t.count Demux.marker + 1) % 2 = 0 by omega]; cases e <;> rfl
    · rw [if_neg hc, List.count_cons_of_ne hc]
      split
      · rename_i he; subst he; exact ih ..
      · rename_i he; rw [Bool.not_eq_true] at he; subst he; exact ih ..

theorem normalText_append (t s : Str) (h : t.count Demux.marker % 2 = 0) :
    Demux.normalText (t ++ s) = Demux.normalText t ++ Demux.normalText s := by
  have e1 := congrArg Prod.snd (Demux.bytes_false (t ++ s))
  have e2 := congrArg Prod.snd (Demux.bytes_false t)
  have e3 := congrArg Prod.snd (Demux.bytes_false s)
  simp only at e1 e2 e3
  rw [← e1, ← e2, ← e3, Demux.bytes_append]
  simp only
  rw [inv_bytes_even]
  rw [show decide (t.count Demux.marker % 2 = 1) = false from by simp [h]]
  rw [Demux.bytes_acc s]
  simp

theorem portField_append {t s f : Str} (ht : t = [] ∨ t.getLast? = some 10)
    (hn : ∀ i, ¬ Demux.OccursAt Demux.listeningKey t i) (h : Demux.PortField s f) : Demux.PortField (t ++ s) f := by
  obtain ⟨l, p, h1, h2, h3, h4, h5, h6⟩ := h
  have shift : ∀ k i, Demux.OccursAt k (t ++ s) (t.length + i) ↔ Demux.OccursAt k s i := by
    intro k i
    rw [Demux.occurs_iff, Demux.occurs_iff, List.drop_length_add_append]
    simp
  refine ⟨t.length + l, t.length + p, (shift _ _).2 h1, ?_, (shift _ _).2 h3, by omega, ?_, ?_⟩
  · intro i hi ho
    by_cases hl : t.length ≤ i
    · obtain ⟨j, rfl⟩ : ∃ j, i = t.length + j := ⟨i - t.length, by omega⟩
      exact h2 j (by omega) ((shift _ _).1 ho)
    · rcases ht with rfl | ht
      · simp at hl
      · by_cases hin : i + 19 ≤ t.length
        · refine hn i ?_
          rw [Demux.occurs_iff] at ho ⊢
          refine ⟨by omega, ?_⟩
          exact (Demux.prefix_drop_append _ _ _ _ (by simp [Demux.listeningKey]; omega)).1 ho.2
        · -- the last byte of `t`, a newline, would be in the key
          obtain ⟨a, b, e, ha⟩ := ho
          have hj : (t ++ s)[t.length - 1]? = some 10 := by
            rw [List.getElem?_append_left (by omega), ← List.getLast?_eq_getElem?]; exact ht
          rw [e, List.append_assoc, List.getElem?_append_right (by omega), List.getElem?_append_left
            (by simp [Demux.listeningKey]; omega)] at hj
          have := List.mem_of_getElem? hj
          revert this
          decide
  · intro i hi1 hi2 ho
    obtain ⟨j, rfl⟩ : ∃ j, i = t.length + j := ⟨i - t.length, by omega⟩
    exact h5 j (by omega) (by omega) ((shift _ _).1 ho)
  · rw [h6]
    have : t.length + l - (t.length + p) = l - p := by omega
    rw [this, Nat.add_assoc, List.drop_length_add_append]

/-- C111: the client connects to the port the server it has just started announces, provided that what earlier servers of this
run printed is complete lines of normal output and complete error messages and contains no announcement. Missing: the case that an
earlier server of the run announced a port before it exited, see `C111_stale_port_violated`. -/
theorem C111_port_partial (before after : List Event) (p : Int) (n : Nat) (f : Str)
    (hev : events atoi connects env = before ++ .forward p :: after) (hn : startsOf before = n + 1)
    (h0 : ∀ r ∈ printed env (n + 1), (0 : UInt8) ∉ r)
    (heven : (printed env n).flatten.count Demux.marker % 2 = 0)
    (hline : Demux.normalText (printed env n).flatten = [] ∨ (Demux.normalText (printed env n).flatten).getLast? = some 10)
    (hsilent : ∀ i, ¬ Demux.OccursAt Demux.listeningKey (Demux.normalText (printed env n).flatten) i)
    (hf : Demux.PortField (Demux.normalText (env.attempt n).reads.flatten) f) (hnz : atoi f ≠ 0) : p = atoi f := by
  obtain ⟨m, h1, h2, h3⟩ := run_ports atoi connects env before p after hev
  obtain rfl : m = n := by omega
  have hd := (Demux.C40_demux atoi (printed env (m + 1)) h0).2.2.1
  rw [h3]
  refine (hd _ hnz).2 ⟨f, ?_, rfl⟩
  rw [printed_succ, if_pos h2, List.flatten_append, normalText_append _ _ heven]
  exact portField_append hline hsilent hf

/-! ## Examples -/

/-- "Port 7: Server is listening\n" -/
def announce7 : Str :=
  [80, 111, 114, 116, 32, 55, 58, 32, 83, 101, 114, 118, 101, 114, 32, 105, 115, 32, 108, 105, 115, 116, 101, 110, 105, 110, 103, 10]

/-- "Port 8: Server is listening\n" -/
def announce8 : Str :=
  [80, 111, 114, 116, 32, 56, 58, 32, 83, 101, 114, 118, 101, 114, 32, 105, 115, 32, 108, 105, 115, 116, 101, 110, 105, 110, 103, 10]

/-- `atoi` on one digit. -/
def digit : Str → Int
  | c :: _ => if 48 ≤ c ∧ c ≤ 57 then (c.toNat - 48 : Nat) else 0
  | [] => 0

/-- The server is not there ("no\n", code 127), is deployed and announces port 8. -/
def exampleEnv : Env where
  remote := true
  destination := [126, 47, 120]
  localArch := .windows
  attempt n := if n = 0 then
      { prepared := true, reads := [[110, 111], [10]], pumpError := false, timeout := false, exit := some 127, reach := .failed }
    else
      { prepared := true, reads := [announce8], pumpError := false, timeout := false, exit := none, reach := .reached }
  detect := some .linux
  deployed := true
  sync := .ok
  later := []
  stopped := true
  finalCode := 0
  early := false

theorem example_run :
    events digit true exampleEnv =
      [.start .linux, .detect, .deploy .linux, .start .linux, .forward 8, .sync, .stop] ∧
    exitCode digit true exampleEnv = some 0 ∧ exitCode digit false exampleEnv = none := by
  decide +kernel

/-- The hypotheses of `C111_port_partial` are met by this run. -/
theorem example_port : ∃ f, Demux.PortField (Demux.normalText (exampleEnv.attempt 1).reads.flatten) f ∧ digit f = 8 ∧
    (printed exampleEnv 1).flatten.count Demux.marker % 2 = 0 ∧
    (Demux.normalText (printed exampleEnv 1).flatten).getLast? = some 10 ∧
    (∀ i, ¬ Demux.OccursAt Demux.listeningKey (Demux.normalText (printed exampleEnv 1).flatten) i) := by
  have h : Demux.PortField (Demux.normalText (exampleEnv.attempt 1).reads.flatten) [56, 58, 32, 83, 101, 114, 118, 101] := by
    have h1 : Demux.find Demux.listeningKey (Demux.normalText (exampleEnv.attempt 1).reads.flatten) = some 8 := by decide +kernel
    have h2 : Demux.rfind Demux.portKey (Demux.normalText (exampleEnv.attempt 1).reads.flatten) 8 = some 0 := by decide +kernel
    obtain ⟨a1, a2, a3⟩ := (Demux.find_some_iff _ _ _).1 h1
    obtain ⟨b1, b2, b3⟩ := (Demux.rfind_some_iff _ _ _ _).1 h2
    exact ⟨8, 0, (Demux.occurs_iff _ _ _).2 ⟨a1, a2⟩, fun i hi ho => a3 i hi ((Demux.occurs_iff _ _ _).1 ho).2,
      (Demux.occurs_iff _ _ _).2 ⟨by omega, b2⟩, b1, fun i a b ho => b3 i a b ((Demux.occurs_iff _ _ _).1 ho).2,
      by decide +kernel⟩
  refine ⟨_, h, by decide, by decide, by decide, ?_⟩
  intro i
  rw [Demux.occurs_iff]
  exact (Demux.find_none_iff _ _).1 (by decide +kernel) i |> fun h e => h e.1 e.2

/-- C111 is violated if an earlier server of the run announced a port: the port is not forgotten. Here the first server announces
port 7 and exits with code 255 (the connection broke); after deploying, the second server announces port 8, but the client forwards
to port 7. -/
theorem C111_stale_port_violated : ∃ env : Env,
    (env.attempt 0).reads = [announce7] ∧ (env.attempt 1).reads = [announce8] ∧
    events digit true env = [.start .linux, .detect, .deploy .linux, .start .linux, .forward 7, .sync, .stop] :=
  ⟨{ exampleEnv with attempt := fun n => if n = 0 then
      { prepared := true, reads := [announce7], pumpError := false, timeout := false, exit := some 255, reach := .failed }
    else
      { prepared := true, reads := [announce8], pumpError := false, timeout := false, exit := none, reach := .reached } },
    rfl, rfl, by decide +kernel⟩

end Verif.Sync.Client
