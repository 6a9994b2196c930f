import Verif.Stream.Service
import Verif.Text.Flags

/-!
# The commands of cdc_stream (C119-C121): cdc_stream/start_command.cc, stop_command.cc,
local_assets_stream_manager_client.cc, local_assets_stream_manager_service_impl.cc

What a command does to the sessions of the service: the argument is split into host and directory,
sent to the service, put together again to the name of an instance there, and given to the session
manager (Stream/Sessions.lean).

Not modelled: flags (Text/Flags.lean), metrics, logging, the ssh and sftp commands.  A source
directory is the key the manager gives it, see Stream/Sessions.lean.
-/

namespace Verif.Commands

open Verif.Sessions
open Verif.Text.Filter (Str Matches FewFixed star qmark)
open Verif.Text.Flags (split isSpace)

def str (s : String) : Str := s.toList.map (·.toNat.toUInt8)

def colon : UInt8 := 58
def slash : UInt8 := 47
def dash : UInt8 := 45

/-! ## Model: parsing -/

/-- `toupper(c) >= 'A' && toupper(c) <= 'Z'`, local_assets_stream_manager_client.cc:71-72, in the "C"
locale. -/
def isLetter (c : UInt8) : Bool := (65 ≤ c && c ≤ 90) || (97 ≤ c && c ≤ 122)

/-- `absl::StrSplit(s, absl::MaxSplits(':', 1))`: what is before and after the first colon. -/
def splitColon : Str → Option (Str × Str)
  | [] => none
  | c :: s => if c = colon then some ([], s) else (splitColon s).map fun (a, b) => (c :: a, b)

/-- `LocalAssetsStreamManagerClient::ParseUserHostDir`,
local_assets_stream_manager_client.cc:66-83. -/
def parseUserHostDir (x : Str) : Option (Str × Str) :=
  match splitColon x with
  | none => none
  | some ([c], d) => if isLetter c then none else some ([c], d)
  | some (h, d) => some (h, d)

/-- `ParseInstanceName`, local_assets_stream_manager_service_impl.cc:48-66: the instance id, the project
and the organization. -/
def parseInstanceName (name : Str) : Option (Str × Str × Str) :=
  match split slash name with
  | [p0, p1, p2, p3, p4, p5, p6, p7, p8, p9] =>
    if p0 ≠ str "organizations" ∨ p1 = [] then none
    else if p2 ≠ str "projects" ∨ p3 = [] then none
    else if p4 ≠ str "pools" ∨ p5 = [] then none
    else if p6 ≠ str "gamelets" ∨ p7 = [] ∨ p8 = [] ∨ p9 = [] then none
    else some (p7 ++ slash :: p8 ++ slash :: p9, p3, p1)
  | _ => none

/-- The lines `std::getline` gives. -/
def getLines (cur : Str) : Str → List Str
  | [] => if cur = [] then [] else [cur]
  | c :: s => if c = 10 then cur :: getLines [] s else getLines (cur ++ [c]) s

/-- `ParseValue`, local_assets_stream_manager_service_impl.cc:71-92. -/
def parseValueLines (key : Str) : List Str → Option Str
  | [] => none
  | line :: ls =>
    if (key ++ [colon]).isPrefixOf line then
      some (((line.drop (key.length + 1)).dropWhile isSpace).reverse.dropWhile isSpace).reverse
    else parseValueLines key ls

def parseValue (data key : Str) : Option Str := parseValueLines key (getLines [] data)

/-! ## Model: the service -/

/-- `StartSessionRequest` (proto/local_assets_stream_manager.proto:29-56): the fields that decide
which session is started; `key` stands for `workstation_directory`. -/
structure StartRequest where
  gameletName : Str := []
  userHost : Str := []
  mountDir : Str
  key : Nat

/-- `StopSessionRequest` (proto/local_assets_stream_manager.proto:61-70). -/
structure StopRequest where
  gameletId : Str := []
  userHost : Str := []
  mountDir : Str := []

/-- `SessionTarget` (cdc_stream/session.h:36-45): where the session mounts. -/
structure Target where
  userHost : Str
  mountDir : Str
  deriving DecidableEq

inductive Reply
  | ok
  /-- `InvalidArgument` -/
  | invalid
  | notFound
  /-- any error but those here -/
  | error
  /-- `Unavailable`: no service answers -/
  | unavailable
  deriving DecidableEq

/-- `GetTargetForStadia`, `GetTarget` and the checks of `StartSessionInternal`
(local_assets_stream_manager_service_impl.cc:167-236): the instance id and the target, or the reply.
`ggp` is the output of `ggp ssh init` (255-307), `none` if that fails. -/
def resolve (ggp : Option Str) (r : StartRequest) : Except Reply (Str × Target) :=
  if decide (r.gameletName = []) = decide (r.userHost = []) then .error .invalid
  else if r.mountDir = [] then .error .invalid
  else if r.gameletName ≠ [] then
    match parseInstanceName r.gameletName with
    | none => .error .invalid
    | some (id, _, _) =>
      match ggp with
      | none => .error .error
      | some out =>
        match parseValue out (str "Host") with
        | none => .error .error
        | some ip => .ok (id, ⟨str "cloudcast@" ++ ip, r.mountDir⟩)
  else .ok (r.userHost ++ colon :: r.mountDir, ⟨r.userHost, r.mountDir⟩)

/-- The state of the machine: the sessions of the service, if there is one. -/
abbrev World := Option State

/-- A reply for the manager's status.  An error may carry the code `Unavailable` itself
(`unav`); if the process crashes, the caller sees `Unavailable`. -/
def reply (unav : Bool) : Status → Reply
  | .ok => .ok
  | .notFound => .notFound
  | .error => if unav then .unavailable else .error
  | .crash => .unavailable

/-- A service that has crashed is gone. -/
def survives (s : State) (st : Status) : World := if st = .crash then none else some s

/-- What a call of the service depends on. -/
structure CallEnv where
  env : Env
  /-- whether an error has the code `Unavailable` -/
  unav : Bool
  ggp : Option Str

/-- `LocalAssetsStreamManagerServiceImpl::StartSession`
(local_assets_stream_manager_service_impl.cc:113-145, 167-201), called by a client. -/
def callStart (e : CallEnv) (r : StartRequest) : World → World × Reply
  | none => (none, .unavailable)
  | some s => match resolve e.ggp r with
    | .error rep => (some s, rep)
    | .ok (id, _) =>
      (survives (startSession e.env id r.key s).1 (startSession e.env id r.key s).2,
        reply e.unav (startSession e.env id r.key s).2)

/-- The filter of a stop request, local_assets_stream_manager_service_impl.cc:152-155. -/
def stopFilter (r : StopRequest) : Str :=
  if r.gameletId ≠ [] then r.gameletId else r.userHost ++ colon :: r.mountDir

/-- `LocalAssetsStreamManagerServiceImpl::StopSession`
(local_assets_stream_manager_service_impl.cc:147-164), called by a client. -/
def callStop (e : CallEnv) (r : StopRequest) : World → World × Reply
  | none => (none, .unavailable)
  | some s =>
    (survives (stopSession e.env (stopFilter r) s).1 (stopSession e.env (stopFilter r) s).2,
      reply e.unav (stopSession e.env (stopFilter r) s).2)

/-! ## Model: the commands -/

/-- `StartCommand::StartStreamingService` (start_command.cc:166-204). -/
inductive Launch
  /-- the process cannot be started -/
  | failed
  /-- it does not become healthy in time and is terminated -/
  | timeout
  | healthy
  deriving DecidableEq

/-- `PosArgValidator` (base_command.cc:72-81) and `CommandHandler` (85-91): an argument that begins with a dash is
refused. -/
def posArg (x : Str) : Option Str := if x.head? = some dash then none else some x

/-- `StartCommand::Run` (start_command.cc:112-164). `StartStreamingService` leaves a service behind if it
succeeds: the one that was there or an empty one. -/
def startCommand (e1 e2 : CallEnv) (l : Launch) (x : Str) (k : Nat) (w : World) : World × Reply :=
  match (posArg x).bind parseUserHostDir with
  | none => (w, .invalid)
  | some (h, d) =>
    if (callStart e1 { userHost := h, mountDir := d, key := k } w).2 = .unavailable then
      match l with
      | .failed => ((callStart e1 { userHost := h, mountDir := d, key := k } w).1, .error)
      | .timeout => ((callStart e1 { userHost := h, mountDir := d, key := k } w).1, .error)
      | .healthy => callStart e2 { userHost := h, mountDir := d, key := k }
          (some ((callStart e1 { userHost := h, mountDir := d, key := k } w).1.getD []))
    else callStart e1 { userHost := h, mountDir := d, key := k } w

/-- `StopCommand::Run` (stop_command.cc:61-88). -/
def stopCommand (e : CallEnv) (x : Str) (w : World) : World × Reply :=
  match posArg x with
  | none => (w, .invalid)
  | some x =>
    if x = [star] then callStop e { userHost := [star], mountDir := [star] } w
    else match parseUserHostDir x with
      | none => (w, .invalid)
      | some (h, d) => callStop e { userHost := h, mountDir := d } w

/-! ## Specification -/

/-- The letters a drive can have. -/
def DriveLetter (c : UInt8) : Prop := c ∈ str "ABCDEFGHIJKLMNOPQRSTUVWXYZabcdefghijklmnopqrstuvwxyz"

/-- `x` is of the form `[user@]host:dir`: there is a host, which is not the letter of a drive, and a
directory. -/
def WellFormed (x : Str) : Prop :=
  ∃ h d, x = h ++ colon :: d ∧ colon ∉ h ∧ h ≠ [] ∧ d ≠ [] ∧ (∀ c, h = [c] → ¬ DriveLetter c) ∧ h.head? ≠ some dash

/-- Instance `id` is streamed to from directory `k`, by the service if there is one. -/
def Streaming (w : World) (id : Str) (k : Nat) : Prop := ∃ s, w = some s ∧ Streams s id k

/-- No wildcards. -/
def Literal (x : Str) : Prop := star ∉ x ∧ qmark ∉ x

/-- What can happen to the service of a user of the command line.  Arguments are C strings: they have no zero in them. -/
inductive Event
  | start (e1 e2 : CallEnv) (l : Launch) (x : Str) (k : Nat)
  | stop (e : CallEnv) (x : Str)
  /-- `cdc_stream start-service` -/
  | startService
  /-- `cdc_stream stop-service`: ends the service if its sessions can be shut down -/
  | stopService (env : Env)
  | runnerFails (k : Nat)
  /-- the process is killed -/
  | dies

/-- `stop-service`, see `exitCall` in Stream/Service.lean. -/
def stopServiceCommand (env : Env) : World → World
  | none => none
  | some s => if (shutdown env s).2 = .ok then none else some (shutdown env s).1

def after : Event → World → World
  | .start e1 e2 l x k, w => (startCommand e1 e2 l x k w).1
  | .stop e x, w => (stopCommand e x w).1
  | .startService, w => some (w.getD [])
  | .stopService env, w => stopServiceCommand env w
  | .runnerFails k, w => w.map (runnerFails k)
  | .dies, _ => none

def Event.arg : Event → Str
  | .start _ _ _ x _ => x
  | .stop _ x => x
  | _ => []

/-- Histories of commands; the hash maps may be reordered before each. -/
inductive Hist : World → Prop
  | init : Hist none
  | event {w} (ev : Event) : Hist w → 0 ∉ ev.arg → Hist (after ev w)
  | reorder {s t} : Hist (some s) → Reorder t s → Hist (some t)

/-! ## Proofs -/

theorem splitColon_eq (h d : Str) (hh : colon ∉ h) : splitColon (h ++ colon :: d) = some (h, d) := by
  induction h with
  | nil => simp [splitColon]
  | cons c h ih =>
    have hc : c ≠ colon := fun e => hh (by rw [e]; exact List.mem_cons_self ..)
    rw [List.cons_append, splitColon, if_neg hc, ih fun hm => hh (List.mem_cons_of_mem _ hm)]
    rfl

theorem splitColon_inv {x h d : Str} (e : splitColon x = some (h, d)) : x = h ++ colon :: d ∧ colon ∉ h := by
  induction x generalizing h d with
  | nil => cases e
  | cons c x ih =>
    rw [splitColon] at e
    split at e
    · rename_i hc
      simp only [Option.some.injEq, Prod.mk.injEq] at e
      rw [← e.1, ← e.2, hc]
      exact ⟨rfl, List.not_mem_nil⟩
    · rename_i hc
      obtain ⟨⟨a, b⟩, e1, e2⟩ := Option.map_eq_some_iff.1 e
      simp only [Prod.mk.injEq] at e2
      obtain ⟨h1, h2⟩ := ih e1
      rw [← e2.1, ← e2.2, h1]
      refine ⟨rfl, fun hm => ?_⟩
      rcases List.mem_cons.1 hm with hm | hm
      · exact hc hm.symm
      · exact h2 hm

theorem splitColon_none {x : Str} (e : splitColon x = none) : colon ∉ x := by
  intro hm
  obtain ⟨a, b, rfl, ha⟩ : ∃ a b, x = a ++ colon :: b ∧ colon ∉ a := by
    clear e
    induction x with
    | nil => cases hm
    | cons c x ih =>
      by_cases hc : c = colon
      · exact ⟨[], x, by rw [hc]; rfl, List.not_mem_nil⟩
      · rcases List.mem_cons.1 hm with hm | hm
        · exact absurd hm.symm hc
        · obtain ⟨a, b, e, ha⟩ := ih hm
          refine ⟨c :: a, b, by rw [e]; rfl, fun hm => ?_⟩
          rcases List.mem_cons.1 hm with hm | hm
          · exact hc hm.symm
          · exact ha hm
  rw [splitColon_eq a b ha] at e
  cases e

theorem isLetter_iff (c : UInt8) : isLetter c = false ↔ ¬ DriveLetter c := by
  have h : ∀ n : Fin 256, isLetter (UInt8.ofNat n.val) = false ↔
      UInt8.ofNat n.val ∉ str "ABCDEFGHIJKLMNOPQRSTUVWXYZabcdefghijklmnopqrstuvwxyz" := by decide +kernel
  have := h ⟨c.toNat, c.toNat_lt⟩
  rwa [UInt8.ofNat_toNat] at this

/-- What the parser accepts. -/
theorem parse_iff (x h d : Str) : parseUserHostDir x = some (h, d) ↔
    x = h ++ colon :: d ∧ colon ∉ h ∧ ∀ c, h = [c] → ¬ DriveLetter c := by
  simp only [← isLetter_iff]
  unfold parseUserHostDir
  constructor
  · intro e
    split at e
    · cases e
    · rename_i c d' hs
      obtain ⟨h1, h2⟩ := splitColon_inv hs
      split at e
      · cases e
      · rename_i hl
        simp only [Option.some.injEq, Prod.mk.injEq] at e
        rw [← e.1, ← e.2]
        refine ⟨h1, h2, fun c' hc => ?_⟩
        simp only [List.cons.injEq, and_true] at hc
        rw [← hc]; simpa using hl
    · rename_i h' d' hn hs
      obtain ⟨h1, h2⟩ := splitColon_inv hs
      simp only [Option.some.injEq, Prod.mk.injEq] at e
      rw [← e.1, ← e.2]
      refine ⟨h1, h2, fun c hc => ?_⟩
      exact absurd hc (hn c)
  · rintro ⟨rfl, hc, hl⟩
    rw [splitColon_eq h d hc]
    match h with
    | [] => rfl
    | [c] => simp only [hl c rfl]; rfl
    | _ :: _ :: _ => rfl

theorem posArg_some {x y : Str} : posArg x = some y ↔ y = x ∧ x.head? ≠ some dash := by
  unfold posArg
  split
  · rename_i h; simp [h]
  · rename_i h; simp only [Option.some.injEq]; constructor
    · rintro rfl; exact ⟨rfl, h⟩
    · rintro ⟨rfl, _⟩; rfl

/-- Both together. -/
theorem arg_iff (x h d : Str) : (posArg x).bind parseUserHostDir = some (h, d) ↔
    x.head? ≠ some dash ∧ x = h ++ colon :: d ∧ colon ∉ h ∧ ∀ c, h = [c] → ¬ DriveLetter c := by
  rw [Option.bind_eq_some_iff]
  constructor
  · rintro ⟨y, h1, h2⟩
    obtain ⟨rfl, h3⟩ := posArg_some.1 h1
    exact ⟨h3, (parse_iff _ _ _).1 h2⟩
  · rintro ⟨h1, h2⟩
    exact ⟨x, posArg_some.2 ⟨rfl, h1⟩, (parse_iff _ _ _).2 h2⟩

theorem wellFormed_iff {x h d : Str} (e : (posArg x).bind parseUserHostDir = some (h, d)) :
    WellFormed x ↔ h ≠ [] ∧ d ≠ [] := by
  obtain ⟨h1, h2, h3, h4⟩ := (arg_iff x h d).1 e
  constructor
  · rintro ⟨h', d', e1, e2, e3, e4, _⟩
    have e5 := splitColon_eq h d h3
    rw [← h2, e1, splitColon_eq h' d' e2] at e5
    simp only [Option.some.injEq, Prod.mk.injEq] at e5
    rw [← e5.1, ← e5.2]
    exact ⟨e3, e4⟩
  · rintro ⟨e1, e2⟩
    refine ⟨h, d, h2, h3, e1, e2, h4, ?_⟩
    rw [h2] at h1
    cases h with
    | nil => exact absurd rfl e1
    | cons c h => exact h1

theorem wellFormed_parses {x : Str} (h : WellFormed x) : ∃ h d, (posArg x).bind parseUserHostDir = some (h, d) := by
  obtain ⟨h, d, e1, e2, e3, e4, e5, e6⟩ := h
  refine ⟨h, d, (arg_iff x h d).2 ⟨?_, e1, e2, e5⟩⟩
  rw [e1]
  cases h with
  | nil => exact absurd rfl e3
  | cons c h => exact e6

theorem resolve_host (ggp : Option Str) (h d : Str) (k : Nat) :
    resolve ggp { userHost := h, mountDir := d, key := k } =
      if h = [] ∨ d = [] then .error .invalid else .ok (h ++ colon :: d, ⟨h, d⟩) := by
  unfold resolve
  by_cases e1 : h = []
  · rw [if_pos (by simp [e1]), if_pos (.inl e1)]
  · rw [if_neg (by simp [e1])]
    by_cases e2 : d = []
    · rw [if_pos e2, if_pos (.inr e2)]
    · rw [if_neg e2, if_neg (by simp), if_neg (by simp [e1, e2])]

theorem callStart_good (e : CallEnv) (h d : Str) (k : Nat) (s : State) (h1 : h ≠ []) (h2 : d ≠ []) :
    callStart e { userHost := h, mountDir := d, key := k } (some s) =
      (survives (startSession e.env (h ++ colon :: d) k s).1 (startSession e.env (h ++ colon :: d) k s).2,
        reply e.unav (startSession e.env (h ++ colon :: d) k s).2) := by
  simp only [callStart]
  rw [resolve_host, if_neg (by simp [h1, h2])]

theorem callStart_bad (e : CallEnv) (h d : Str) (k : Nat) (s : State) (h1 : h = [] ∨ d = []) :
    callStart e { userHost := h, mountDir := d, key := k } (some s) = (some s, .invalid) := by
  simp only [callStart]
  rw [resolve_host, if_pos h1]

theorem reply_ok {u : Bool} {st : Status} : reply u st = .ok ↔ st = .ok := by
  cases st <;> cases u <;> simp [reply]

theorem reply_notFound {u : Bool} {st : Status} : reply u st = .notFound ↔ st = .notFound := by
  cases st <;> cases u <;> simp [reply]

theorem reply_invalid {u : Bool} {st : Status} : reply u st ≠ .invalid := by
  cases st <;> cases u <;> simp [reply]

theorem streaming_some {s : State} {id : Str} {k : Nat} : Streaming (some s) id k ↔ Streams s id k := by
  constructor
  · rintro ⟨t, e, h⟩; cases e; exact h
  · exact fun h => ⟨s, rfl, h⟩

theorem streaming_none {id : Str} {k : Nat} : ¬ Streaming none id k := by
  rintro ⟨t, e, h⟩; cases e

/-- The service's state is one of the manager's. -/
def Reached (w : World) : Prop := ∀ s, w = some s → Reach s

theorem reach_reorder {s t : State} (h : Reach s) (r : Reorder t s) : Reach t := by
  have key : Reach (apply fine (.runnerFails (t.map (·.key) |>.foldl Nat.max 0 |>.succ)) t).1 := .step fine _ h r
  have e : ∀ x ∈ t, x.key ≤ (t.map (·.key)).foldl Nat.max 0 := by
    have gen : ∀ (l : List Nat) (a : Nat), a ≤ l.foldl Nat.max a ∧ ∀ y ∈ l, y ≤ l.foldl Nat.max a := by
      intro l
      induction l with
      | nil => intro a; exact ⟨Nat.le_refl _, fun y hy => (by cases hy)⟩
      | cons b l ih =>
        intro a
        obtain ⟨h1, h2⟩ := ih (Nat.max a b)
        refine ⟨Nat.le_trans (Nat.le_max_left a b) h1, fun y hy => ?_⟩
        rcases List.mem_cons.mp hy with rfl | hy
        · exact Nat.le_trans (Nat.le_max_right a _) h1
        · exact h2 y hy
    intro x hx
    exact (gen _ 0).2 _ (List.mem_map_of_mem hx)
  have e2 : runnerFails (t.map (·.key) |>.foldl Nat.max 0 |>.succ) t = t := by
    unfold runnerFails
    conv => rhs; rw [← List.map_id t]
    apply List.map_congr_left
    intro x hx
    rw [if_neg, id]
    have := e x hx
    omega
  simpa only [apply, e2] using key

theorem survives_reached {s : State} {st : Status} (h : Reach s) : Reached (survives s st) := by
  intro t e
  unfold survives at e
  split at e
  · cases e
  · cases e; exact h

theorem survives_streaming {s : State} {st : Status} {id : Str} {k : Nat} :
    Streaming (survives s st) id k ↔ st ≠ .crash ∧ Streams s id k := by
  unfold survives
  split
  · rename_i h; exact ⟨fun h => absurd h streaming_none, fun h' => absurd h h'.1⟩
  · rename_i h; rw [streaming_some]; exact ⟨fun h' => ⟨h, h'⟩, fun h' => h'.2⟩

theorem callStart_reached (e : CallEnv) (r : StartRequest) {w : World} (h : Reached w) :
    Reached (callStart e r w).1 := by
  match w with
  | none => exact fun s e => (by cases e)
  | some s =>
    simp only [callStart]
    split
    · exact h
    · rename_i id _ _
      exact survives_reached (.step e.env (.start id r.key) (h s rfl) (.refl _))

theorem callStop_reached (e : CallEnv) (r : StopRequest) {w : World} (h : Reached w) :
    Reached (callStop e r w).1 := by
  match w with
  | none => exact fun s e => (by cases e)
  | some s =>
    unfold callStop
    exact survives_reached (.step e.env (.stop _) (h s rfl) (.refl _))

theorem getD_reached {w : World} (h : Reached w) : Reached (some (w.getD [])) := by
  intro s e
  cases w with
  | none => cases e; exact .init
  | some t => exact h s e

theorem startCommand_reached (e1 e2 : CallEnv) (l : Launch) (x : Str) (k : Nat) {w : World} (h : Reached w) :
    Reached (startCommand e1 e2 l x k w).1 := by
  unfold startCommand
  split
  · exact h
  · split
    · split
      · exact callStart_reached _ _ h
      · exact callStart_reached _ _ h
      · exact callStart_reached _ _ (getD_reached (callStart_reached _ _ h))
    · exact callStart_reached _ _ h

theorem stopCommand_reached (e : CallEnv) (x : Str) {w : World} (h : Reached w) : Reached (stopCommand e x w).1 := by
  unfold stopCommand
  split
  · exact h
  · split
    · exact callStop_reached _ _ h
    · split
      · exact h
      · exact callStop_reached _ _ h

/-- A start adds at most the session it names. -/
theorem callStart_adds (e : CallEnv) (h d : Str) (k : Nat) {w : World} (hw : Reached w) (id : Str) (k' : Nat)
    (hs : Streaming (callStart e { userHost := h, mountDir := d, key := k } w).1 id k') :
    Streaming w id k' ∨ id = h ++ colon :: d ∧ h ≠ [] ∧ d ≠ [] := by
  match w with
  | none => exact absurd hs streaming_none
  | some s =>
    by_cases hb : h = [] ∨ d = []
    · rw [callStart_bad e h d k s hb] at hs; exact .inl hs
    · have h1 : h ≠ [] := fun e => hb (.inl e)
      have h2 : d ≠ [] := fun e => hb (.inr e)
      rw [callStart_good e h d k s h1 h2] at hs
      have := (survives_streaming.1 hs).2
      by_cases hid : id = h ++ colon :: d
      · exact .inr ⟨hid, h1, h2⟩
      · exact .inl (streaming_some.2 (((C50_start (hw s rfl) e.env _ k).2.2.2 id k' hid).1 this))

theorem getD_streaming {w : World} {id : Str} {k : Nat} : Streaming (some (w.getD [])) id k ↔ Streaming w id k := by
  cases w with
  | none => exact ⟨fun h => absurd (streaming_some.1 h) not_streams_nil, fun h => absurd h streaming_none⟩
  | some s => exact .rfl

theorem startCommand_adds (e1 e2 : CallEnv) (l : Launch) (x : Str) (k : Nat) {w : World} (hw : Reached w)
    (id : Str) (k' : Nat) (hs : Streaming (startCommand e1 e2 l x k w).1 id k') :
    Streaming w id k' ∨ id = x ∧ WellFormed x := by
  unfold startCommand at hs
  split at hs
  · exact .inl hs
  · rename_i h d he
    have fin : ∀ id, id = h ++ colon :: d ∧ h ≠ [] ∧ d ≠ [] → id = x ∧ WellFormed x := by
      rintro id ⟨rfl, h1, h2⟩
      exact ⟨((arg_iff x h d).1 he).2.1.symm, (wellFormed_iff he).2 ⟨h1, h2⟩⟩
    split at hs
    · split at hs
      · exact (callStart_adds _ _ _ _ hw id k' hs).imp_right (fin id)
      · exact (callStart_adds _ _ _ _ hw id k' hs).imp_right (fin id)
      · rcases callStart_adds _ _ _ _ (getD_reached (callStart_reached _ _ hw)) id k' hs with hs | hs
        · exact (callStart_adds _ _ _ _ hw id k' (getD_streaming.1 hs)).imp_right (fin id)
        · exact .inr (fin id hs)
    · exact (callStart_adds _ _ _ _ hw id k' hs).imp_right (fin id)

theorem callStop_sub (e : CallEnv) (r : StopRequest) {w : World} (hw : Reached w) (id : Str) (k : Nat)
    (hs : Streaming (callStop e r w).1 id k) : Streaming w id k := by
  match w with
  | none => exact absurd hs streaming_none
  | some s =>
    exact streaming_some.2 ((C50_stop (hw s rfl) e.env _).2.2.2.2.1 id k (survives_streaming.1 hs).2)

theorem stopCommand_sub (e : CallEnv) (x : Str) {w : World} (hw : Reached w) (id : Str) (k : Nat)
    (hs : Streaming (stopCommand e x w).1 id k) : Streaming w id k := by
  unfold stopCommand at hs
  split at hs
  · exact hs
  · split at hs
    · exact callStop_sub _ _ hw id k hs
    · split at hs
      · exact hs
      · exact callStop_sub _ _ hw id k hs

theorem Hist.reached {w : World} (h : Hist w) : Reached w := by
  induction h with
  | init => exact fun s e => (by cases e)
  | @event w ev _ _ ih =>
    cases ev with
    | start e1 e2 l x k => exact startCommand_reached e1 e2 l x k ih
    | stop e x => exact stopCommand_reached e x ih
    | startService => exact getD_reached ih
    | stopService env =>
      match w with
      | none => exact fun s e => (by cases e)
      | some s =>
        simp only [after, stopServiceCommand]
        split
        · exact fun s e => (by cases e)
        · intro t e; cases e; exact .step env .shutdown (ih s rfl) (.refl _)
    | runnerFails k =>
      match w with
      | none => exact fun s e => (by cases e)
      | some s => intro t e; cases e; exact .step fine (.runnerFails k) (ih s rfl) (.refl _)
    | dies => exact fun s e => (by cases e)
  | reorder _ r ih => intro u e; cases e; exact reach_reorder (ih _ rfl) r

/-- Every session was started by a command: its name is of the form `[user@]host:dir`. -/
theorem Hist.names {w : World} (h : Hist w) : ∀ id k, Streaming w id k → WellFormed id ∧ 0 ∉ id := by
  induction h with
  | init => exact fun id k h => absurd h streaming_none
  | @event w ev hw h0 ih =>
    intro id k hs
    cases ev with
    | start e1 e2 l x k' =>
      rcases startCommand_adds e1 e2 l x k' hw.reached id k hs with h | ⟨rfl, h⟩
      · exact ih id k h
      · exact ⟨h, h0⟩
    | stop e x => exact ih id k (stopCommand_sub e x hw.reached id k hs)
    | startService => exact ih id k (getD_streaming.1 hs)
    | stopService env =>
      match w with
      | none => exact absurd hs streaming_none
      | some s =>
        simp only [after, stopServiceCommand] at hs
        split at hs
        · exact absurd hs streaming_none
        · exact ih id k (streaming_some.2 ((C50_shutdown env).2 id k (streaming_some.1 hs)))
    | runnerFails k' =>
      match w with
      | none => exact absurd hs streaming_none
      | some s => exact ih id k (streaming_some.2 ((runnerFails_streams k' s id k).1 (streaming_some.1 hs)))
    | dies => exact absurd hs streaming_none
  | reorder _ r ih =>
    intro id k hs
    exact ih id k (streaming_some.2 ((r.keep.2.1 id k).1 (streaming_some.1 hs)))

/-! ## C119: starting and stopping -/

/-- What a start does, if it is given an argument it can parse. -/
theorem start_good (e1 e2 : CallEnv) (l : Launch) (x : Str) (k : Nat) (w : World) (hw : Reached w) (hx : WellFormed x)
    (hok : (startCommand e1 e2 l x k w).2 = .ok) : ∃ e s, Reach s ∧
      (startCommand e1 e2 l x k w).1 = some (startSession e x k s).1 ∧ (startSession e x k s).2 = .ok ∧
      (∀ id k', Streaming (some s) id k' → Streaming w id k' ∨ id = x) ∧
      ((∀ t, w = some t → (startSession e1.env x k t).2 ≠ .crash) →
        ∀ id k', id ≠ x → (Streaming (some s) id k' ↔ Streaming w id k')) := by
  obtain ⟨h, d, he⟩ := wellFormed_parses hx
  obtain ⟨hh, hd⟩ := (wellFormed_iff he).1 hx
  have hxe := ((arg_iff x h d).1 he).2.1
  have ok_call : ∀ (e : CallEnv) (s : State),
      (callStart e { userHost := h, mountDir := d, key := k } (some s)).2 = .ok →
      (callStart e { userHost := h, mountDir := d, key := k } (some s)).1 = some (startSession e.env x k s).1 ∧
        (startSession e.env x k s).2 = .ok := by
    intro e s
    rw [callStart_good e h d k s hh hd, ← hxe]
    intro hr
    have := reply_ok.1 hr
    refine ⟨?_, this⟩
    show survives _ _ = _
    unfold survives
    rw [if_neg (by rw [this]; decide)]
  unfold startCommand at hok ⊢
  rw [he] at hok ⊢
  simp only at hok ⊢
  split at hok
  · rename_i hu
    rw [if_pos hu]
    cases l with
    | failed => cases hok
    | timeout => cases hok
    | healthy =>
      simp only at hok ⊢
      obtain ⟨a, b⟩ := ok_call e2 _ hok
      refine ⟨e2.env, _, getD_reached (callStart_reached e1 { userHost := h, mountDir := d, key := k } hw) _ rfl, a, b, ?_, ?_⟩
      · intro id k' hs
        refine (callStart_adds e1 h d k hw id k' (getD_streaming.1 hs)).imp_right fun hp => ?_
        rw [hp.1, hxe]
      · intro hc id k' hid
        rw [getD_streaming]
        match w with
        | none => exact .rfl
        | some t =>
          rw [callStart_good e1 h d k t hh hd, ← hxe]
          rw [survives_streaming, streaming_some]
          have := (C50_start (hw t rfl) e1.env x k).2.2.2 id k' hid
          exact ⟨fun hp => this.1 hp.2, fun hp => ⟨hc t rfl, this.2 hp⟩⟩
  · rename_i hu
    rw [if_neg hu]
    match w with
    | none => exact absurd rfl hu
    | some t =>
      obtain ⟨a, b⟩ := ok_call e1 t hok
      exact ⟨e1.env, t, hw t rfl, a, b, fun id k' hs => .inl hs, fun _ id k' _ => .rfl⟩

/-- **C119.**  `cdc_stream start dir x`, after any history of commands.  If it reports success then `x` is of the form
`[user@]host:dir`, and that host and directory are streamed to from the given source directory and from no other; no
other session is started, and none is lost unless the service crashes.  If `x` is not of that form, the command reports
an error, and all sessions are as before. -/
theorem C119_start {w : World} (h : Hist w) (e1 e2 : CallEnv) (l : Launch) (x : Str) (k : Nat) :
    ((startCommand e1 e2 l x k w).2 = .ok → WellFormed x ∧
      (∀ k', Streaming (startCommand e1 e2 l x k w).1 x k' ↔ k' = k) ∧
      (∀ id k', id ≠ x → Streaming (startCommand e1 e2 l x k w).1 id k' → Streaming w id k') ∧
      ((∀ s, w = some s → (startSession e1.env x k s).2 ≠ .crash) →
        ∀ id k', id ≠ x → Streaming w id k' → Streaming (startCommand e1 e2 l x k w).1 id k')) ∧
    (¬ WellFormed x → (startCommand e1 e2 l x k w).2 ≠ .ok ∧
      ∀ id k', Streaming (startCommand e1 e2 l x k w).1 id k' ↔ Streaming w id k') := by
  have hw := h.reached
  have bad : ¬ WellFormed x → (startCommand e1 e2 l x k w).2 ≠ .ok ∧
      ∀ id k', Streaming (startCommand e1 e2 l x k w).1 id k' ↔ Streaming w id k' := by
    intro hx
    unfold startCommand
    cases he : (posArg x).bind parseUserHostDir with
    | none => exact ⟨fun h => (by cases h), fun _ _ => .rfl⟩
    | some hd =>
      obtain ⟨u, d⟩ := hd
      have hb : u = [] ∨ d = [] := by
        by_cases h1 : u = []
        · exact .inl h1
        · by_cases h2 : d = []
          · exact .inr h2
          · exact absurd ((wellFormed_iff he).2 ⟨h1, h2⟩) hx
      simp only
      match w with
      | some s =>
        rw [callStart_bad e1 u d k s hb]
        exact ⟨fun h => (by cases h), fun _ _ => .rfl⟩
      | none =>
        have : ∀ e, callStart e { userHost := u, mountDir := d, key := k } none = (none, .unavailable) := fun _ => rfl
        rw [this, if_pos rfl]
        cases l with
        | failed => exact ⟨fun h => (by cases h), fun _ _ => .rfl⟩
        | timeout => exact ⟨fun h => (by cases h), fun _ _ => .rfl⟩
        | healthy =>
          simp only
          rw [callStart_bad e2 u d k _ hb]
          exact ⟨by decide, fun _ _ => getD_streaming⟩
  refine ⟨fun hok => ?_, bad⟩
  have hx : WellFormed x := Decidable.byContradiction (dec := Classical.propDecidable _) fun hx => (bad hx).1 hok
  obtain ⟨e, s, hr, h1, h2, h3, h4⟩ := start_good e1 e2 l x k w hw hx hok
  obtain ⟨c1, _, _, c4⟩ := C50_start hr e x k
  refine ⟨hx, fun k' => ?_, fun id k' hid hs => ?_, fun hc id k' hid hs => ?_⟩
  · rw [h1, streaming_some]; exact c1 h2 k'
  · rw [h1, streaming_some] at hs
    exact (h3 id k' (streaming_some.2 ((c4 id k' hid).1 hs))).resolve_right hid
  · rw [h1, streaming_some]
    exact (c4 id k' hid).2 (streaming_some.1 ((h4 hc id k' hid).2 hs))

theorem matches_literal {p s : Str} (h : Literal p) : Matches p s ↔ s = p := by
  induction p generalizing s with
  | nil => exact Verif.Text.Filter.matches_nil s
  | cons c p ih =>
    have h1 : c ≠ star := fun e => h.1 (by rw [e]; exact List.mem_cons_self ..)
    have h2 : c ≠ qmark := fun e => h.2 (by rw [e]; exact List.mem_cons_self ..)
    have h3 : Literal p := ⟨fun hm => h.1 (List.mem_cons_of_mem _ hm), fun hm => h.2 (List.mem_cons_of_mem _ hm)⟩
    constructor
    · intro hm
      cases hm with
      | any => exact absurd rfl h2
      | star => exact absurd rfl h1
      | lit _ _ hm => rw [(ih h3).1 hm]
    · rintro rfl
      exact .lit h2 h1 ((ih h3).2 rfl)

theorem literal_fewFixed {p : Str} (h : Literal p) : FewFixed p := by
  intro q r e _
  exact absurd (by rw [e]; simp) h.1

theorem isMatch_iff {x id : Str} (hf : FewFixed x) (hx : 0 ∉ x) (h0 : 0 ∉ id) (hne : id ≠ []) :
    isMatch x id = true ↔ Matches x id := by
  obtain ⟨b, hb, _⟩ := Verif.Text.Filter.C42_simple_patterns x id hx h0 hne hf
  exact C50_filter x id hx h0 hne hb

theorem wellFormed_ne {x : Str} (h : WellFormed x) : x ≠ [] := by
  obtain ⟨h, d, rfl, _⟩ := h
  simp

/-- The filter a stop sends. -/
def sent (x : Str) : Option Str :=
  if x = [star] then some [star, colon, star]
  else if x.head? = some dash then none else (parseUserHostDir x).map fun _ => x

theorem stop_eq (e : CallEnv) (x : Str) (w : World) : stopCommand e x w = match sent x with
    | none => (w, .invalid)
    | some f => match w with
      | none => (none, .unavailable)
      | some s => (some (stopSession e.env f s).1, reply e.unav (stopSession e.env f s).2) := by
  have key : ∀ (r : StopRequest), callStop e r w = match w with
      | none => (none, .unavailable)
      | some s => (some (stopSession e.env (stopFilter r) s).1, reply e.unav (stopSession e.env (stopFilter r) s).2) := by
    intro r
    match w with
    | none => rfl
    | some s => simp only [callStop, survives, if_neg (stopSession_nocrash e.env (stopFilter r) s)]
  unfold stopCommand sent posArg
  by_cases hd : x.head? = some dash
  · rw [if_pos hd, if_neg (by rintro rfl; revert hd; decide), if_pos hd]
  · rw [if_neg hd, if_neg hd]
    simp only
    by_cases hs : x = [star]
    · rw [if_pos hs, if_pos hs, key]; rfl
    · rw [if_neg hs, if_neg hs]
      cases hp : parseUserHostDir x with
      | none => rfl
      | some p =>
        obtain ⟨h, d⟩ := p
        simp only [Option.map]
        rw [key]
        have e1 := ((parse_iff x h d).1 hp).1
        have : stopFilter { userHost := h, mountDir := d } = x := by
          rw [e1]; rfl
        rw [this]

/-- What the commands have to do with a filter `f`: those that match it are stopped. -/
theorem stop_filter {w : World} (h : Hist w) (e : CallEnv) (x f : Str) (hf : sent x = some f) (hff : FewFixed f)
    (h0 : 0 ∉ f) :
    ((stopCommand e x w).2 = .ok →
      ∀ id k, Streaming (stopCommand e x w).1 id k ↔ Streaming w id k ∧ ¬ Matches f id) ∧
    ((stopCommand e x w).2 = .notFound → (stopCommand e x w).1 = w ∧ ∀ id k, Streaming w id k → ¬ Matches f id) ∧
    ((∃ s, w = some s) → (∀ id k, Streaming w id k → ¬ Matches f id) → (stopCommand e x w).2 = .notFound) ∧
    (∀ id k, Streaming w id k → ¬ Matches f id → Streaming (stopCommand e x w).1 id k) ∧
    (∀ id k, Streaming (stopCommand e x w).1 id k → Streaming w id k) := by
  rw [stop_eq, hf]
  match w with
  | none =>
    exact ⟨fun h => (by cases h), fun h => (by cases h), fun ⟨s, h⟩ => (by cases h), fun _ _ h _ => h, fun _ _ h => h⟩
  | some s =>
    have hr := h.reached s rfl
    have hm : ∀ id k, Streams s id k → (isMatch f id = false ↔ ¬ Matches f id) := by
      intro id k hs
      obtain ⟨h1, h2⟩ := h.names id k (streaming_some.2 hs)
      rw [← isMatch_iff hff h0 h2 (wellFormed_ne h1)]
      cases isMatch f id <;> simp
    obtain ⟨c1, c2, c3, c4, c5, _⟩ := C50_stop hr e.env f
    simp only [streaming_some]
    refine ⟨fun hok id k => ?_, fun hn => ?_, fun _ hn => ?_, fun id k hs hnm => ?_, c5⟩
    · rw [c1 (reply_ok.1 hok) id k]
      exact ⟨fun hp => ⟨hp.1, (hm id k hp.1).1 hp.2⟩, fun hp => ⟨hp.1, (hm id k hp.1).2 hp.2⟩⟩
    · have := reply_notFound.1 hn
      exact ⟨by rw [c3 this], fun id k hs => (hm id k hs).1 (c2.1 this id k hs)⟩
    · exact reply_notFound.2 (c2.2 fun id k hs => (hm id k hs).2 (hn id k hs))
    · exact (c4 id k ((hm id k hs).2 hnm)).2 hs

theorem sent_literal {x : Str} (hx : WellFormed x) (hl : Literal x) : sent x = some x := by
  obtain ⟨h, d, he⟩ := wellFormed_parses hx
  obtain ⟨h1, h2⟩ := (arg_iff x h d).1 he
  unfold sent
  rw [if_neg (fun e => hl.1 (by rw [e]; exact List.mem_cons_self ..)), if_neg h1, (parse_iff x h d).2 h2]
  rfl

/-- **C119.**  `cdc_stream stop x`, after any history of commands, stops exactly the session that was started under the
name `x`: if it reports success then that session is gone, if it reports that there is none then there was none, and
all others are as before.  (Missing: names with `*` or `?` in them, see `C119_wildcard_violated`.) -/
theorem C119_stop_partial {w : World} (h : Hist w) (e : CallEnv) (x : Str) (hx : WellFormed x) (hl : Literal x)
    (h0 : 0 ∉ x) :
    ((stopCommand e x w).2 = .ok → ∀ k, ¬ Streaming (stopCommand e x w).1 x k) ∧
    ((stopCommand e x w).2 = .notFound → ∀ k, ¬ Streaming w x k) ∧
    ((∃ s, w = some s) → (∀ k, ¬ Streaming w x k) → (stopCommand e x w).2 = .notFound) ∧
    (∀ id k, id ≠ x → (Streaming (stopCommand e x w).1 id k ↔ Streaming w id k)) := by
  obtain ⟨c1, c2, c3, c4, c5⟩ := stop_filter h e x x (sent_literal hx hl) (literal_fewFixed hl) h0
  refine ⟨fun hok k hs => ?_, fun hn k hs => ?_, fun hs hn => ?_, fun id k hid => ⟨c5 id k, fun hs => ?_⟩⟩
  · exact ((c1 hok x k).1 hs).2 ((matches_literal hl).2 rfl)
  · exact (c2 hn).2 x k hs ((matches_literal hl).2 rfl)
  · refine c3 hs fun id k hst hm => ?_
    rw [(matches_literal hl).1 hm] at hst
    exact hn k hst
  · exact c4 id k hs fun hm => hid ((matches_literal hl).1 hm)

/-- **C119.**  After a start that succeeded, a stop with the same argument succeeds if the session can be stopped and
streaming of no directory has failed; the session is gone then. -/
theorem C119_start_stop {w : World} (h : Hist w) (e1 e2 e : CallEnv) (l : Launch) (x : Str) (k : Nat) (hl : Literal x)
    (h0 : 0 ∉ x) (hok : (startCommand e1 e2 l x k w).2 = .ok) (hs : e.env.stop x = true)
    (hf : ∀ s, (startCommand e1 e2 l x k w).1 = some s → ∀ m ∈ s, m.err = false) :
    (stopCommand e x (startCommand e1 e2 l x k w).1).2 = .ok ∧
      ∀ k', ¬ Streaming (stopCommand e x (startCommand e1 e2 l x k w).1).1 x k' := by
  obtain ⟨hx, hst, _⟩ := (C119_start h e1 e2 l x k).1 hok
  have h' : Hist (startCommand e1 e2 l x k w).1 := .event (.start e1 e2 l x k) h h0
  have hk := (hst k).2 rfl
  obtain ⟨c1, c2, _⟩ := C119_stop_partial h' e x hx hl h0
  suffices (stopCommand e x (startCommand e1 e2 l x k w).1).2 = .ok from ⟨this, c1 this⟩
  obtain ⟨s, hs', hstr⟩ := hk
  rw [hs'] at c2 h' ⊢
  have hr := h'.reached s rfl
  rw [stop_eq, sent_literal hx hl] at c2 ⊢
  simp only at c2 ⊢
  obtain ⟨_, _, _, _, _, c6⟩ := C50_stop hr e.env x
  -- the only instance that matches is `x`
  have nf : (stopSession e.env x s).2 ≠ .notFound := fun hn =>
    c2 (reply_notFound.2 hn) k (streaming_some.2 hstr)
  have nc := stopSession_nocrash e.env x s
  cases hst2 : (stopSession e.env x s).2 with
  | ok => exact reply_ok.2 rfl
  | notFound => exact absurd hst2 nf
  | crash => exact absurd hst2 nc
  | error =>
    exfalso
    -- the ids that are stopped are those that stream
    have hnd := matches_nodup (filter := x) hr.inv
    have sp := stopAll_spec e.env _ s hr.inv hnd fun id h => (mem_matches.mp h).2
    obtain ⟨_, _, _, _, _, h6⟩ := sp
    unfold stopSession at hst2
    simp only at hst2
    split at hst2
    · cases hst2
    · rcases h6 hst2 with ⟨id, hid, hfalse⟩ | ⟨m, hm, he⟩
      · obtain ⟨hm, k', hs2⟩ := mem_matches.mp hid
        obtain ⟨n1, n2⟩ := h'.names id k' (streaming_some.2 hs2)
        have := (isMatch_iff (literal_fewFixed hl) h0 n2 (wellFormed_ne n1)).1 hm
        rw [(matches_literal hl).1 this, hs] at hfalse
        cases hfalse
      · rw [hf s hs' m hm] at he
        cases he

/-- **C119.**  A stop with wildcards stops exactly the sessions whose names match, as long as there is nothing but one
character and stars in front of a star that is not the last character (for other patterns see C42). -/
theorem C119_stop_pattern {w : World} (h : Hist w) (e : CallEnv) (x : Str) (h0 : 0 ∉ x)
    (hx : (parseUserHostDir x).isSome) (hd : x.head? ≠ some dash) (hf : FewFixed x)
    (hok : (stopCommand e x w).2 = .ok) (id : Str) (k : Nat) :
    Streaming (stopCommand e x w).1 id k ↔ Streaming w id k ∧ ¬ Matches x id := by
  have hs : sent x = some x := by
    unfold sent
    rw [if_neg (by rintro rfl; revert hx; decide), if_neg hd]
    obtain ⟨p, hp⟩ := Option.isSome_iff_exists.1 hx
    rw [hp]; rfl
  exact (stop_filter h e x x hs hf h0).1 hok id k

/-- **C119.**  `cdc_stream stop *` stops all sessions. -/
theorem C119_stop_all {w : World} (h : Hist w) (e : CallEnv) (hok : (stopCommand e [star] w).2 = .ok) (id : Str) (k : Nat) :
    ¬ Streaming (stopCommand e [star] w).1 id k := by
  have hff : FewFixed [star, colon, star] := by
    intro q r e hr
    match q with
    | [] => simp
    | [_] => simp only [List.cons_append, List.nil_append, List.cons.injEq] at e; exact absurd e.2.1 (by decide)
    | [_, _] =>
      simp only [List.cons_append, List.nil_append, List.cons.injEq] at e; exact absurd e.2.2.2.symm hr
    | _ :: _ :: _ :: q =>
      have := congrArg List.length e
      simp only [List.length_cons, List.length_append, List.length_nil] at this
      omega
  intro hs
  have := ((stop_filter h e [star] [star, colon, star] rfl hff (by decide)).1 hok id k).1 hs
  obtain ⟨⟨h', d, rfl, _⟩, _⟩ := h.names id k this.1
  refine this.2 (.star h' (.lit (by decide) (by decide) ?_))
  have : d = d ++ [] := by simp
  rw [this]
  exact .star d .nil

/-- Nothing fails. -/
def good : CallEnv := ⟨fine, false, none⟩

/-- Two sessions from directory 1 and one from directory 2, the first command starts the service. -/
def three : World :=
  some [⟨2, [str "root@h:/c"], false, false⟩, ⟨1, [str "u@h:/a", str "u@h:/b"], false, false⟩]

theorem three_hist : Hist three := by
  have h1 : Hist _ := .event (.start good good .healthy (str "u@h:/a") 1) .init (by decide +kernel)
  have h2 : Hist _ := .event (.start good good .failed (str "u@h:/b") 1) h1 (by decide +kernel)
  have h3 : Hist _ := .event (.start good good .failed (str "root@h:/c") 2) h2 (by decide +kernel)
  have e : after (.start good good .failed (str "root@h:/c") 2)
      (after (.start good good .failed (str "u@h:/b") 1)
        (after (.start good good .healthy (str "u@h:/a") 1) none)) = three := by decide +kernel
  rwa [e] at h3

theorem wellFormed_example : WellFormed (str "u@h:/a") :=
  ⟨str "u@h", str "/a", by decide +kernel, by decide +kernel, by decide +kernel, by decide +kernel,
    fun c h => absurd (show (str "u@h").length = 1 from congrArg List.length h) (by decide +kernel), by decide +kernel⟩

/-- Not vacuous: the hypotheses of the theorems above are met, and the commands do what they say. -/
theorem C119_example : Hist three ∧ WellFormed (str "u@h:/a") ∧ Literal (str "u@h:/a") ∧ 0 ∉ str "u@h:/a" ∧
    startCommand good good .failed (str "u@h:/a") 3 three =
      (some [⟨3, [str "u@h:/a"], false, false⟩, ⟨2, [str "root@h:/c"], false, false⟩, ⟨1, [str "u@h:/b"], false, false⟩], .ok) ∧
    stopCommand good (str "u@h:/a") three =
      (some [⟨2, [str "root@h:/c"], false, false⟩, ⟨1, [str "u@h:/b"], false, false⟩], .ok) ∧
    stopCommand good (str "u@h:*") three = (some [⟨2, [str "root@h:/c"], false, false⟩], .ok) ∧
    stopCommand good [star] three = (some [], .ok) ∧
    stopCommand good (str "u@h:/c") three = (three, .notFound) ∧
    startCommand good good .healthy (str "C:/a") 3 three = (three, .invalid) := by
  refine ⟨three_hist, wellFormed_example, ⟨by decide +kernel, by decide +kernel⟩, by decide +kernel, by decide +kernel,
    by decide +kernel, by decide +kernel, by decide +kernel, by decide +kernel, by decide +kernel⟩

/-- **C119** is violated for directories with wildcards in their names: stopping the session to `/a?` also stops the one
to `/ab`. -/
theorem C119_wildcard_violated : ∃ w, Hist w ∧ Streaming w (str "u@h:/a?") 1 ∧ Streaming w (str "u@h:/ab") 1 ∧
    (stopCommand good (str "u@h:/a?") w).2 = .ok ∧
    ∀ k, ¬ Streaming (stopCommand good (str "u@h:/a?") w).1 (str "u@h:/ab") k := by
  have h1 : Hist _ := .event (.start good good .healthy (str "u@h:/a?") 1) .init (by decide +kernel)
  have h2 : Hist _ := .event (.start good good .failed (str "u@h:/ab") 1) h1 (by decide +kernel)
  have e : after (.start good good .failed (str "u@h:/ab") 1)
      (after (.start good good .healthy (str "u@h:/a?") 1) none) =
        some [⟨1, [str "u@h:/a?", str "u@h:/ab"], false, false⟩] := by decide +kernel
  rw [e] at h2
  refine ⟨_, h2, streaming_some.2 ⟨_, List.mem_cons_self .., rfl, by decide +kernel⟩,
    streaming_some.2 ⟨_, List.mem_cons_self .., rfl, by decide +kernel⟩, by decide +kernel, fun k hs => ?_⟩
  have e2 : (stopCommand good (str "u@h:/a?") (some [⟨1, [str "u@h:/a?", str "u@h:/ab"], false, false⟩])).1 = some [] := by
    decide +kernel
  rw [e2, streaming_some] at hs
  exact not_streams_nil hs

/-! ## C120: one session for a directory of a host -/

/-- The names in a path: what is between the slashes, without `.`. -/
def pathNames (d : Str) : List Str := (split slash d).filter fun n => n ≠ [] ∧ n ≠ [46]

/-- Both name the same directory of the same host. -/
def SamePlace (x y : Str) : Prop :=
  ∃ h d d', x = h ++ colon :: d ∧ y = h ++ colon :: d' ∧ colon ∉ h ∧
    (d.head? = some slash ↔ d'.head? = some slash) ∧ pathNames d = pathNames d'

/-- **C120.**  After any history of commands, two sessions to the same directory of the same host come from the same
source directory.  (Missing: the same directory written in another way, see `C120_spelling_violated`.) -/
theorem C120_one_source_partial {w : World} (h : Hist w) (x y : Str) (he : x = y) (a b : Nat) :
    Streaming w x a → Streaming w y b → a = b := by
  subst he
  rintro ⟨s, rfl, h1⟩ h2
  exact C50_at_most_one (h.reached s rfl) x a b h1 (streaming_some.1 h2)

/-- **C120** is violated if the directory is written in another way: two directories are streamed to `/m`. -/
theorem C120_spelling_violated : ∃ w, Hist w ∧ SamePlace (str "u@h:/m") (str "u@h:/m/") ∧
    Streaming w (str "u@h:/m") 1 ∧ Streaming w (str "u@h:/m/") 2 := by
  have h1 : Hist _ := .event (.start good good .healthy (str "u@h:/m") 1) .init (by decide +kernel)
  have h2 : Hist _ := .event (.start good good .failed (str "u@h:/m/") 2) h1 (by decide +kernel)
  have e : after (.start good good .failed (str "u@h:/m/") 2)
      (after (.start good good .healthy (str "u@h:/m") 1) none) =
        some [⟨2, [str "u@h:/m/"], false, false⟩, ⟨1, [str "u@h:/m"], false, false⟩] := by decide +kernel
  rw [e] at h2
  exact ⟨_, h2, ⟨str "u@h", str "/m", str "/m/", by decide +kernel, by decide +kernel, by decide +kernel,
      by decide +kernel, by decide +kernel⟩,
    streaming_some.2 ⟨⟨1, [str "u@h:/m"], false, false⟩, by decide +kernel, rfl, by decide +kernel⟩,
    streaming_some.2 ⟨⟨2, [str "u@h:/m/"], false, false⟩, by decide +kernel, rfl, by decide +kernel⟩⟩

/-- **C120** is violated for every place and every two ways to write it: starting a second source directory with the other spelling
leaves both sessions running. -/
theorem C120_every_spelling_violated {x y : Str} (hx : WellFormed x) (hy : WellFormed y) (x0 : 0 ∉ x) (y0 : 0 ∉ y) (hne : x ≠ y) :
    ∃ w, Hist w ∧ Streaming w x 1 ∧ Streaming w y 2 := by
  obtain ⟨h, d, he⟩ := wellFormed_parses hx
  obtain ⟨hh, hd⟩ := (wellFormed_iff he).1 hx
  have hxe := ((arg_iff x h d).1 he).2.1
  obtain ⟨h', d', he'⟩ := wellFormed_parses hy
  obtain ⟨hh', hd'⟩ := (wellFormed_iff he').1 hy
  have hye := ((arg_iff y h' d').1 he').2.1
  have e1 : after (.start good good .healthy x 1) none = some [⟨1, [x], false, false⟩] := by
    simp only [after, startCommand, he, callStart, if_true, Option.getD_none]
    change (callStart good { userHost := h, mountDir := d, key := 1 } (some [])).1 = _
    rw [callStart_good good h d 1 [] hh hd, ← hxe]
    rfl
  have st : startSession fine y 2 [⟨1, [x], false, false⟩] = ([⟨2, [y], false, false⟩, ⟨1, [x], false, false⟩], .ok) := by
    simp [startSession, fine, Sessions.get, stopInternal, MS.start, Ne.symm hne]
  have e2 : after (.start good good .healthy y 2) (some [⟨1, [x], false, false⟩]) =
      some [⟨2, [y], false, false⟩, ⟨1, [x], false, false⟩] := by
    simp only [after, startCommand, he']
    rw [callStart_good good h' d' 2 _ hh' hd', ← hye]
    simp only [good, st, reply, survives]
    rfl
  have h1 : Hist _ := .event (.start good good .healthy x 1) .init x0
  have h2 : Hist _ := .event (.start good good .healthy y 2) h1 y0
  rw [e1, e2] at h2
  exact ⟨_, h2, streaming_some.2 ⟨⟨1, [x], false, false⟩, by simp, rfl, by simp⟩,
    streaming_some.2 ⟨⟨2, [y], false, false⟩, by simp, rfl, by simp⟩⟩

/-! ## C121: instances with a resource name -/

theorem split_no {sep : UInt8} {s : Str} (h : sep ∉ s) : split sep s = [s] := by
  induction s with
  | nil => rfl
  | cons c s ih =>
    have hc : c ≠ sep := fun e => h (by rw [e]; exact List.mem_cons_self ..)
    rw [split, if_neg hc, ih fun hm => h (List.mem_cons_of_mem _ hm)]

theorem split_cons {sep : UInt8} {s t : Str} (h : sep ∉ s) : split sep (s ++ sep :: t) = s :: split sep t := by
  induction s with
  | nil => rw [List.nil_append, split, if_pos rfl]
  | cons c s ih =>
    have hc : c ≠ sep := fun e => h (by rw [e]; exact List.mem_cons_self ..)
    rw [List.cons_append, split, if_neg hc, ih fun hm => h (List.mem_cons_of_mem _ hm)]

/-- The parts put together again. -/
def unsplit (sep : UInt8) : List Str → Str
  | [] => []
  | [p] => p
  | p :: ps => p ++ sep :: unsplit sep ps

theorem split_ne (sep : UInt8) (s : Str) : split sep s ≠ [] := by
  cases s with
  | nil => simp [split]
  | cons c s =>
    rw [split]
    split
    · simp
    · split <;> simp

theorem unsplit_cons (sep c : UInt8) (p : Str) (ps : List Str) :
    unsplit sep ((c :: p) :: ps) = c :: unsplit sep (p :: ps) := by
  cases ps <;> rfl

theorem split_spec (sep : UInt8) (s : Str) : (∀ p ∈ split sep s, sep ∉ p) ∧ unsplit sep (split sep s) = s := by
  induction s with
  | nil => exact ⟨by simp [split], rfl⟩
  | cons c s ih =>
    rw [split]
    split
    · rename_i hc
      refine ⟨fun p hp => ?_, ?_⟩
      · rcases List.mem_cons.1 hp with rfl | hp
        · exact List.not_mem_nil
        · exact ih.1 p hp
      · have : unsplit sep ([] :: split sep s) = sep :: unsplit sep (split sep s) := by
          cases h : split sep s with
          | nil => exact absurd h (split_ne sep s)
          | cons p ps => rfl
        rw [this, ih.2, hc]
    · rename_i hc
      cases h : split sep s with
      | nil => exact absurd h (split_ne sep s)
      | cons p ps =>
        rw [h] at ih
        simp only
        refine ⟨fun q hq => ?_, ?_⟩
        · rcases List.mem_cons.1 hq with rfl | hq
          · intro hm
            rcases List.mem_cons.1 hm with hm | hm
            · exact hc hm.symm
            · exact ih.1 p (List.mem_cons_self ..) hm
          · exact ih.1 q (List.mem_cons_of_mem _ hq)
        · rw [unsplit_cons, ih.2]

/-- `name` is of the form `organizations/{org}/projects/{project}/pools/{pool}/gamelets/{id}`, where the id consists of
three parts. -/
def InstanceName (name id project org : Str) : Prop :=
  ∃ pool a b c, name = str "organizations/" ++ org ++ str "/projects/" ++ project ++ str "/pools/" ++ pool ++
      str "/gamelets/" ++ id ∧ id = a ++ slash :: b ++ slash :: c ∧
    ∀ p ∈ [org, project, pool, a, b, c], p ≠ [] ∧ slash ∉ p

/-- **C121.**  The service accepts exactly the resource names of the documented form, and takes the right parts. -/
theorem C121_names (name id project org : Str) :
    parseInstanceName name = some (id, project, org) ↔ InstanceName name id project org := by
  have e0 : str "organizations/" = str "organizations" ++ [slash] := by decide +kernel
  have e1 : str "/projects/" = slash :: str "projects" ++ [slash] := by decide +kernel
  have e2 : str "/pools/" = slash :: str "pools" ++ [slash] := by decide +kernel
  have e3 : str "/gamelets/" = slash :: str "gamelets" ++ [slash] := by decide +kernel
  constructor
  · intro h
    unfold parseInstanceName at h
    obtain ⟨hs1, hs2⟩ := split_spec slash name
    split at h
    · rename_i p0 p1 p2 p3 p4 p5 p6 p7 p8 p9 hs
      rw [hs] at hs1 hs2
      split at h
      · cases h
      split at h
      · cases h
      split at h
      · cases h
      split at h
      · cases h
      rename_i h0 h2 h4 h6
      simp only [Option.some.injEq, Prod.mk.injEq] at h
      obtain ⟨rfl, rfl, rfl⟩ := h
      simp only [not_or, Decidable.not_not, ne_eq] at h0 h2 h4 h6
      refine ⟨p5, p7, p8, p9, ?_, rfl, ?_⟩
      · rw [← hs2, e0, e1, e2, e3, h0.1, h2.1, h4.1, h6.1]
        simp [unsplit]
      · intro p hp
        refine ⟨?_, hs1 p ?_⟩
        · simp only [List.mem_cons, List.not_mem_nil, or_false] at hp
          rcases hp with rfl | rfl | rfl | rfl | rfl | rfl
          · exact h0.2
          · exact h2.2
          · exact h4.2
          · exact h6.2.1
          · exact h6.2.2.1
          · exact h6.2.2.2
        · simp only [List.mem_cons, List.not_mem_nil, or_false] at hp ⊢
          rcases hp with rfl | rfl | rfl | rfl | rfl | rfl <;> simp
    · cases h
  · rintro ⟨pool, a, b, c, rfl, rfl, hp⟩
    simp only [List.mem_cons, List.not_mem_nil, or_false, forall_eq_or_imp, forall_eq] at hp
    obtain ⟨⟨o1, o2⟩, ⟨p1, p2⟩, ⟨q1, q2⟩, ⟨a1, a2⟩, ⟨b1, b2⟩, ⟨c1, c2⟩⟩ := hp
    have hs : split slash (str "organizations/" ++ org ++ str "/projects/" ++ project ++ str "/pools/" ++ pool ++
        str "/gamelets/" ++ (a ++ slash :: b ++ slash :: c)) =
        [str "organizations", org, str "projects", project, str "pools", pool, str "gamelets", a, b, c] := by
      rw [e0, e1, e2, e3]
      simp only [List.append_assoc, List.cons_append, List.nil_append]
      rw [split_cons (by decide +kernel), split_cons o2, split_cons (by decide +kernel), split_cons p2,
        split_cons (by decide +kernel), split_cons q2, split_cons (by decide +kernel), split_cons a2, split_cons b2,
        split_no c2]
    unfold parseInstanceName
    rw [hs]
    simp [o1, p1, q1, a1, b1, c1]

/-- `v` is what stands behind the first "`key`:" at the beginning of a line, without the white space around it. -/
def FirstValue (data key v : Str) : Prop :=
  ∃ before line after a b, split 10 data = before ++ line :: after ∧ (∀ l ∈ before, ¬ (key ++ [colon] <+: l)) ∧
    line = key ++ [colon] ++ a ++ v ++ b ∧ (∀ c ∈ a ++ b, isSpace c = true) ∧
    (∀ c, v.head? = some c → isSpace c = false) ∧ (∀ c, v.getLast? = some c → isSpace c = false)

theorem getLines_split (cur s : Str) : ∃ l, (split 10 s = [l] ∧ getLines cur s = if cur ++ l = [] then [] else [cur ++ l]) ∨
    ∃ ls, ls ≠ [] ∧ split 10 s = l :: ls ∧ ∃ e, getLines cur s ++ e = (cur ++ l) :: ls ∧ (e = [] ∨ e = [[]]) := by
  induction s generalizing cur with
  | nil => exact ⟨[], .inl ⟨rfl, by simp [getLines]⟩⟩
  | cons c s ih =>
    rw [split, getLines]
    split
    · rename_i hc
      refine ⟨[], .inr ⟨split 10 s, split_ne 10 s, rfl, ?_⟩⟩
      obtain ⟨l, ⟨h1, h2⟩ | ⟨ls, _, h1, e, h2, h3⟩⟩ := ih []
      · rw [h1, h2]
        by_cases hl : l = []
        · refine ⟨[[]], ?_, .inr rfl⟩
          subst hl; simp
        · refine ⟨[], ?_, .inl rfl⟩
          simp [hl]
      · exact ⟨e, by rw [h1]; simp only [List.nil_append, List.append_nil] at h2 ⊢; rw [List.cons_append, h2], h3⟩
    · rename_i hc
      obtain ⟨l, ⟨h1, h2⟩ | ⟨ls, h0, h1, e, h2, h3⟩⟩ := ih (cur ++ [c])
      · refine ⟨c :: l, .inl ⟨by rw [h1], ?_⟩⟩
        rw [h2]; simp
      · exact ⟨c :: l, .inr ⟨ls, h0, by rw [h1], e, by rw [h2]; simp, h3⟩⟩

theorem dropWhile_spec (p : UInt8 → Bool) (s : Str) : ∃ a, s = a ++ s.dropWhile p ∧ (∀ c ∈ a, p c = true) ∧
    ∀ c, (s.dropWhile p).head? = some c → p c = false := by
  refine ⟨s.takeWhile p, (List.takeWhile_append_dropWhile ..).symm, fun c hc => ?_, fun c hc => ?_⟩
  · exact List.all_eq_true.1 (List.all_takeWhile (p := p) (l := s)) c hc
  · have := List.head?_dropWhile_not p s
    rw [hc] at this
    simpa using this

/-- Without the white space around it. -/
def trim (s : Str) : Str := ((s.dropWhile isSpace).reverse.dropWhile isSpace).reverse

theorem dropWhile_all {p : UInt8 → Bool} {a s : Str} (ha : ∀ c ∈ a, p c = true) : (a ++ s).dropWhile p = s.dropWhile p := by
  induction a with
  | nil => rfl
  | cons c a ih =>
    rw [List.cons_append, List.dropWhile_cons, if_pos (ha c (List.mem_cons_self ..))]
    exact ih fun d hd => ha d (List.mem_cons_of_mem _ hd)

theorem dropWhile_none {p : UInt8 → Bool} {s : Str} (h : ∀ c, s.head? = some c → p c = false) : s.dropWhile p = s := by
  cases s with
  | nil => rfl
  | cons c s => rw [List.dropWhile_cons, if_neg]; rw [h c rfl]; decide

theorem trim_spec (s v : Str) : trim s = v ↔ ∃ a b, s = a ++ v ++ b ∧ (∀ c ∈ a ++ b, isSpace c = true) ∧
    (∀ c, v.head? = some c → isSpace c = false) ∧ (∀ c, v.getLast? = some c → isSpace c = false) := by
  constructor
  · rintro rfl
    obtain ⟨a, h1, h2, h3⟩ := dropWhile_spec isSpace s
    obtain ⟨b, h4, h5, h6⟩ := dropWhile_spec isSpace (s.dropWhile isSpace).reverse
    have e : s.dropWhile isSpace = trim s ++ b.reverse := by
      have := congrArg List.reverse h4
      rw [List.reverse_reverse, List.reverse_append] at this
      exact this
    refine ⟨a, b.reverse, ?_, fun c hc => ?_, fun c hc => ?_, fun c hc => ?_⟩
    · rw [List.append_assoc, ← e]; exact h1
    · rcases List.mem_append.1 hc with hc | hc
      · exact h2 c hc
      · exact h5 c (List.mem_reverse.1 hc)
    · refine h3 c ?_
      rw [e]
      cases ht : trim s with
      | nil => rw [ht] at hc; cases hc
      | cons d t => rw [ht] at hc; exact hc
    · refine h6 c ?_
      rw [← List.getLast?_reverse]; exact hc
  · rintro ⟨a, b, rfl, h1, h2, h3⟩
    unfold trim
    rw [List.append_assoc, dropWhile_all fun c hc => h1 c (List.mem_append_left _ hc)]
    cases v with
    | nil =>
      have hb : (b ++ []).dropWhile isSpace = [] := by
        rw [dropWhile_all fun c hc => h1 c (List.mem_append_right _ hc)]; rfl
      rw [List.append_nil] at hb
      rw [List.nil_append, hb]; rfl
    | cons c v =>
      rw [List.cons_append, dropWhile_none (s := c :: (v ++ b)) fun d hd => h2 d hd]
      rw [← List.cons_append, List.reverse_append,
        dropWhile_all fun d hd => h1 d (List.mem_append_right _ (List.mem_reverse.1 hd)),
        dropWhile_none (fun d hd => h3 d (by rwa [List.head?_reverse] at hd)), List.reverse_reverse]

theorem lines_spec (key v : Str) (ls : List Str) : parseValueLines key ls = some v ↔
    ∃ before line after, ls = before ++ line :: after ∧ (∀ l ∈ before, ¬ (key ++ [colon] <+: l)) ∧
      ∃ rest, line = key ++ [colon] ++ rest ∧ trim rest = v := by
  induction ls with
  | nil =>
    constructor
    · intro h; cases h
    · rintro ⟨b, l, a, h, _⟩; simp at h
  | cons l ls ih =>
    rw [parseValueLines]
    by_cases hp : (key ++ [colon]).isPrefixOf l = true
    · rw [if_pos hp]
      have hp' := List.isPrefixOf_iff_prefix.1 hp
      obtain ⟨rest, hr⟩ := hp'
      have hd : l.drop (key.length + 1) = rest := by
        rw [← hr, List.drop_append_of_le_length (by simp)]
        have : (key ++ [colon]).drop (key.length + 1) = [] := List.drop_eq_nil_of_le (by simp)
        rw [this, List.nil_append]
      rw [hd]
      constructor
      · intro h
        exact ⟨[], l, ls, rfl, fun _ h => (by cases h), rest, hr.symm, Option.some.inj h⟩
      · rintro ⟨before, line, after, h1, h2, rest', h3, h4⟩
        cases before with
        | nil =>
          simp only [List.nil_append, List.cons.injEq] at h1
          rw [← h1.1, ← hr] at h3
          rw [List.append_cancel_left h3]
          exact congrArg some h4
        | cons x before =>
          simp only [List.cons_append, List.cons.injEq] at h1
          exact absurd ⟨rest, by rw [hr, h1.1]⟩ (h2 x (List.mem_cons_self ..))
    · rw [if_neg hp, ih]
      have hp' : ¬ (key ++ [colon] <+: l) := fun h => hp (List.isPrefixOf_iff_prefix.2 h)
      constructor
      · rintro ⟨before, line, after, h1, h2, h3⟩
        refine ⟨l :: before, line, after, by rw [h1]; rfl, fun x hx => ?_, h3⟩
        rcases List.mem_cons.1 hx with rfl | hx
        · exact hp'
        · exact h2 x hx
      · rintro ⟨before, line, after, h1, h2, rest, h3, h4⟩
        cases before with
        | nil =>
          simp only [List.nil_append, List.cons.injEq] at h1
          exact absurd ⟨rest, by rw [h1.1, h3]⟩ hp'
        | cons x before =>
          simp only [List.cons_append, List.cons.injEq] at h1
          exact ⟨before, line, after, h1.2, fun y hy => h2 y (List.mem_cons_of_mem _ hy), rest, h3, h4⟩

theorem lines_empty (key : Str) (ls e : List Str) (he : e = [] ∨ e = [[]]) :
    parseValueLines key (ls ++ e) = parseValueLines key ls := by
  rcases he with rfl | rfl
  · rw [List.append_nil]
  · induction ls with
    | nil =>
      have : (key ++ [colon]).isPrefixOf [] = false := by cases key <;> rfl
      simp [parseValueLines, this]
    | cons l ls ih => rw [List.cons_append, parseValueLines, parseValueLines, ih]

theorem parseValue_spec (data key v : Str) : parseValue data key = some v ↔ FirstValue data key v := by
  have e : parseValue data key = parseValueLines key (split 10 data) := by
    unfold parseValue
    obtain ⟨l, ⟨h1, h2⟩ | ⟨ls, _, h1, e, h2, h3⟩⟩ := getLines_split [] data
    · rw [h1, h2]
      by_cases hl : l = []
      · subst hl
        exact (lines_empty key [] [[]] (.inr rfl)).symm
      · simp [hl]
    · rw [← lines_empty key _ e h3, h2, h1]; rfl
  rw [e, lines_spec]
  constructor
  · rintro ⟨before, line, after, h1, h2, rest, h3, h4⟩
    obtain ⟨a, b, h5, h6, h7, h8⟩ := (trim_spec rest v).1 h4
    exact ⟨before, line, after, a, b, h1, h2, by rw [h3, h5]; simp only [List.append_assoc], h6, h7, h8⟩
  · rintro ⟨before, line, after, a, b, h1, h2, h3, h4, h5, h6⟩
    exact ⟨before, line, after, h1, h2, a ++ v ++ b, by rw [h3]; simp only [List.append_assoc],
      (trim_spec _ v).2 ⟨a, b, rfl, h4, h5, h6⟩⟩

/-- **C121.**  A request with a resource name leads to a session if and only if it also has a directory and no host, the
name is of the documented form, and `ggp ssh init` succeeds and prints a line with the host.  The session gets the
instance's id and goes to the given directory of that host. -/
theorem C121_target (ggp : Option Str) (r : StartRequest) (id : Str) (t : Target) (hn : r.gameletName ≠ []) :
    resolve ggp r = .ok (id, t) ↔ r.userHost = [] ∧ r.mountDir ≠ [] ∧
      (∃ project org, InstanceName r.gameletName id project org) ∧
      ∃ out ip, ggp = some out ∧ FirstValue out (str "Host") ip ∧ t = ⟨str "cloudcast@" ++ ip, r.mountDir⟩ := by
  unfold resolve
  by_cases h1 : r.userHost = []
  · rw [if_neg (by simp [hn, h1])]
    by_cases h2 : r.mountDir = []
    · rw [if_pos h2]
      exact ⟨fun h => (by cases h), fun h => absurd h2 h.2.1⟩
    · rw [if_neg h2, if_pos hn]
      cases hp : parseInstanceName r.gameletName with
      | none =>
        refine ⟨fun h => (by cases h), ?_⟩
        rintro ⟨_, _, ⟨p, o, h⟩, _⟩
        rw [(C121_names _ _ _ _).2 h] at hp; cases hp
      | some x =>
        obtain ⟨id', p, o⟩ := x
        have hi := (C121_names _ _ _ _).1 hp
        have huniq : ∀ id p' o', InstanceName r.gameletName id p' o' → id = id' := by
          intro id p' o' h
          rw [(C121_names _ _ _ _).2 h] at hp
          simp only [Option.some.injEq, Prod.mk.injEq] at hp
          exact hp.1
        simp only
        cases ggp with
        | none =>
          refine ⟨fun h => (by cases h), ?_⟩
          rintro ⟨_, _, _, out, ip, h, _⟩; cases h
        | some out =>
          simp only
          cases hv : parseValue out (str "Host") with
          | none =>
            refine ⟨fun h => (by cases h), ?_⟩
            rintro ⟨_, _, _, out', ip, h, h', _⟩
            cases h
            rw [(parseValue_spec _ _ _).2 h'] at hv; cases hv
          | some ip =>
            constructor
            · intro h
              cases h
              exact ⟨h1, h2, ⟨p, o, hi⟩, out, ip, rfl, (parseValue_spec _ _ _).1 hv, rfl⟩
            · rintro ⟨_, _, ⟨p', o', h⟩, out', ip', h', hv', rfl⟩
              cases h'
              rw [(parseValue_spec _ _ _).2 hv'] at hv
              cases hv
              rw [huniq id p' o' h]
  · rw [if_pos (by simp [hn, h1])]
    exact ⟨fun h => (by cases h), fun h => absurd h.1 h1⟩

/-- A resource name and the output of `ggp ssh init`. -/
def gamelet : StartRequest where
  gameletName := str "organizations/o/projects/p/pools/q/gamelets/edge/e-west/49d0"
  mountDir := str "/m"
  key := 1

def ggpOutput : Str := str "User: me\nHost:  10.0.0.7 \r\nPort: 44722\n"

/-- Not vacuous. -/
theorem C121_example :
    resolve (some ggpOutput) gamelet = .ok (str "edge/e-west/49d0", ⟨str "cloudcast@10.0.0.7", str "/m"⟩) ∧
    InstanceName gamelet.gameletName (str "edge/e-west/49d0") (str "p") (str "o") ∧
    resolve (some ggpOutput) { gamelet with gameletName := str "organizations/o/projects/p/gamelets/x/y/z" } =
      .error .invalid := by
  refine ⟨by with_unfolding_all rfl, (C121_names _ _ _ _).1 (by decide +kernel), by with_unfolding_all rfl⟩

/-- **C119** is violated for a service that is also used with resource names: `cdc_stream stop *` does not stop such a
session, because its name has no colon. -/
theorem C119_stop_all_gamelet_violated : ∃ w, callStart { good with ggp := some ggpOutput } gamelet (some []) = (w, .ok) ∧
    Streaming w (str "edge/e-west/49d0") 1 ∧ stopCommand good [star] w = (w, .notFound) := by
  refine ⟨some [⟨1, [str "edge/e-west/49d0"], false, false⟩], by decide +kernel,
    streaming_some.2 ⟨_, List.mem_cons_self .., rfl, by decide +kernel⟩, by decide +kernel⟩

end Verif.Commands
