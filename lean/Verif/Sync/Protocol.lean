/-!
# The client/server conversation of cdc_rsync (C39)

Model of the order in which `CdcRsyncClient::Sync` (cdc_rsync/cdc_rsync_client.cc:389-445) and
`CdcRsyncServer::Sync` (cdc_rsync_server/cdc_rsync_server.cc:326-400) send and receive messages,
including the second server thread that receives the patch commands.

What is kept: the sequence of sends and receives of each thread, the message types, the end
markers, the counters and indices that are checked on receipt, the options that choose phases, the
batching of file indices, the timing freedom of `CanReceive()` on the client, and back-pressure
(a send blocks while the queue is full).

What is simplified: message payloads other than counters and indices; file-system actions between
the messages (an error there ends the session and is not part of this property); the chain
"outgoing pump queue, socket, incoming pump queue" of each direction is one FIFO queue (that the
chain delivers every message, in order, is C12); compression toggles only as messages.
-/

namespace Verif.Protocol

/-- `SetOptionsRequest` (cdc_rsync/protos/messages.proto), the three flags that change the
conversation. -/
structure POpts where
  delete : Bool
  dryRun : Bool
  compress : Bool
  deriving DecidableEq, Repr

/-- Packets (cdc_rsync/base/message_pump.h:40-103 `PacketType`) with the part of the payload the
receiver looks at to decide what comes next.  A zero count is the end marker of its phase.
`header` and `sigs` share the packet type `kAddSignatures` in the code; their payloads are different
messages. -/
inductive Msg
  | options (o : POpts)
  | files (f d : Nat)
  | stats
  | deleted (f d : Nat)
  | indices (l : List Nat)
  | toggle
  | missing (k : Nat)
  | raw (n : Nat)
  | header (i : Nat)
  | sigs (n : Nat)
  | patch (n : Nat)
  | shutdown
  deriving DecidableEq, Repr

/-- What a synchronisation run depends on: the options, how the client's file list is cut into
messages, what the server decides to delete, which files it finds missing and changed, how the
client's files are cut into raw packets, how the server's signatures are cut into messages, and
what the client does while it computes the diff of a file. -/
structure Input where
  opts : POpts
  /-- files and directories per `AddFilesRequest` -/
  files : List (Nat × Nat)
  /-- files and directories per `AddDeletedFilesResponse` -/
  deleted : List (Nat × Nat)
  /-- client indices of missing files -/
  missing : List Nat
  /-- client indices of changed files -/
  changed : List Nat
  /-- sizes of the raw packets a client file is sent in -/
  content : Nat → List Nat
  /-- numbers of chunks in the signature messages of a changed file -/
  sigs : Nat → List Nat
  /-- what the client does for a changed file: `some n` sends a message of `n` patch commands,
  `none` receives a signature message (unless all are received).  Every outcome of the
  `CanReceive()` tests in the client is such a word. -/
  ops : Nat → List (Option Nat)

/-- Number of files the client announces (`files_.size()`). -/
def Input.numFiles (I : Input) : Nat := (I.files.map Prod.fst).sum

/-- The inputs that occur: no message but the end markers is empty, and indices are indices of
announced files (the comparison only returns files the client sent, C34). -/
structure Input.OK (I : Input) : Prop where
  files : ∀ b ∈ I.files, b.1 ≠ 0 ∨ b.2 ≠ 0
  deleted : ∀ b ∈ I.deleted, b.1 ≠ 0 ∨ b.2 ≠ 0
  missing : ∀ i ∈ I.missing, i < I.numFiles
  changed : ∀ i ∈ I.changed, i < I.numFiles
  content : ∀ i ∈ I.missing, ∀ n ∈ I.content i, n ≠ 0
  sigs : ∀ i ∈ I.changed, ∀ n ∈ I.sigs i, n ≠ 0
  ops : ∀ i ∈ I.changed, ∀ n, some n ∈ I.ops i → n ≠ 0

/-- One thing a thread does next. -/
inductive Action (σ : Type)
  | send (m : Msg) (s : σ)
  | recv (f : Msg → σ)
  | tau (s : σ)
  | spawn (s : σ)
  | join (s : σ)
  | halt

/-! ## Client -/

/-- Program points of the client. -/
inductive Cli
  | options
  | files (l : List (Nat × Nat))
  | stats
  | deleted
  | missing (acc : List Nat)
  | toggle1 (l : List Nat)
  | file (k : Nat) (l : List Nat)
  | raw (k : Nat) (c : List Nat) (l : List Nat)
  | toggleWait1
  | changed (acc : List Nat)
  | toggle2 (l : List Nat)
  | header (l : List Nat)
  | diff (w : List (Option Nat)) (all : Bool) (l : List Nat)
  | toggleWait2
  | shutdown
  | shutdownResp
  | done
  | failed
  deriving DecidableEq

/-- Start of `SendMissingFiles` (cdc_rsync_client.cc:625-646): nothing to do if the list is empty
or in a dry run, otherwise the compression stream is started if requested. -/
def cMissing (I : Input) (l : List Nat) : Cli :=
  if l = [] ∨ I.opts.dryRun = true then .changed []
  else if I.opts.compress then .toggle1 l else .file 0 l

/-- Start of `ReceiveSignaturesAndSendDelta` (cdc_rsync_client.cc:696-719). -/
def cChanged (I : Input) (l : List Nat) : Cli :=
  if l = [] ∨ I.opts.dryRun = true then .shutdown
  else if I.opts.compress then .toggle2 l else .header l

/-- The client, `CdcRsyncClient::Sync` (cdc_rsync_client.cc:389-445) with the functions it calls:
`SendOptions` (477-510), `FindAndSendAllSourceFiles` (512-536), `ReceiveFileStats` (538-557),
`ReceiveDeletedFiles` (559-588), `ReceiveFileIndices` (590-622), `SendMissingFiles` (624-693),
`ReceiveSignaturesAndSendDelta` (695-771), `StartCompressionStream` (773-802),
`StopCompressionStream` (804-826); and `ReceiveSignatureAndCreateAndSendDiff`
(cdc_rsync/base/cdc_interface.cc:508-581) with `ServerChunkReceiver::Receive` (168-216) and
`PatchSender` (230-400) for the diff of one file. -/
def cAct (I : Input) : Cli → Action Cli
  | .options => .send (.options I.opts) (.files I.files)
  | .files [] => .send (.files 0 0) .stats
  | .files (b :: l) => .send (.files b.1 b.2) (.files l)
  | .stats => .recv fun
      | .stats => if I.opts.delete then .deleted else .missing []
      | _ => .failed
  | .deleted => .recv fun
      | .deleted f d => if f = 0 ∧ d = 0 then .missing [] else .deleted
      | _ => .failed
  | .missing acc => .recv fun
      | .indices l =>
        if l = [] then
          if ∀ i ∈ acc, i < I.numFiles then cMissing I acc else .failed
        else .missing (acc ++ l)
      | _ => .failed
  | .toggle1 l => .send .toggle (.file 0 l)
  | .file _ [] => .tau (if I.opts.compress then .toggleWait1 else .changed [])
  | .file k (i :: l) => .send (.missing k) (.raw k (I.content i) l)
  | .raw k [] l => .send (.raw 0) (.file (k + 1) l)
  | .raw k (n :: c) l => .send (.raw n) (.raw k c l)
  | .toggleWait1 => .recv fun
      | .toggle => .changed []
      | _ => .failed
  | .changed acc => .recv fun
      | .indices l =>
        if l = [] then
          if ∀ i ∈ acc, i < I.numFiles then cChanged I acc else .failed
        else .changed (acc ++ l)
      | _ => .failed
  | .toggle2 l => .send .toggle (.header l)
  | .header [] => .tau (if I.opts.compress then .toggleWait2 else .shutdown)
  | .header (i :: l) => .recv fun
      | .header j => if j = i then .diff (I.ops i) false l else .failed
      | _ => .failed
  | .diff (some n :: w) all l => .send (.patch n) (.diff w all l)
  | .diff (none :: w) true l => .tau (.diff w true l)
  | .diff (none :: w) false l => .recv fun
      | .sigs n => .diff w (n == 0) l
      | _ => .failed
  | .diff [] false l => .recv fun
      | .sigs n => .diff [] (n == 0) l
      | _ => .failed
  | .diff [] true l => .send (.patch 0) (.header l)
  | .toggleWait2 => .recv fun
      | .toggle => .shutdown
      | _ => .failed
  | .shutdown => .send .shutdown .shutdownResp
  | .shutdownResp => .recv fun
      | .shutdown => .done
      | _ => .failed
  | .done => .halt
  | .failed => .halt

/-! ## Server -/

/-- Program points of the server's main thread. -/
inductive SPc
  | options
  | files
  | stats
  | deleted (l : List (Nat × Nat))
  | missing (l : List Nat)
  | toggle1
  | file (k : Nat) (l : List Nat)
  | raw (k : Nat) (l : List Nat)
  | toggleResp1
  | changed (l : List Nat)
  | toggle2
  | header (l : List Nat)
  | sigs (c : List Nat) (l : List Nat)
  | spawn (l : List Nat)
  | join
  | toggleResp2
  | shutdown
  | shutdownResp
  | done
  | failed
  deriving DecidableEq

/-- The server's main thread: the options it has received and where it is. -/
structure Srv where
  o : POpts
  pc : SPc
  deriving DecidableEq

/-- What follows the indices of missing files (cdc_rsync_server.cc:373-380, 644-660). -/
def sMissing (I : Input) (o : POpts) : Srv :=
  if o.dryRun = true ∨ I.missing = [] then ⟨o, .changed I.changed⟩
  else if o.compress then ⟨o, .toggle1⟩ else ⟨o, .file 0 I.missing⟩

/-- What follows the indices of changed files (cdc_rsync_server.cc:386-391, 769-785). -/
def sChanged (I : Input) (o : POpts) : Srv :=
  if o.dryRun = true ∨ I.changed = [] then ⟨o, .shutdown⟩
  else if o.compress then ⟨o, .toggle2⟩ else ⟨o, .header I.changed⟩

/-- The server's main thread, `CdcRsyncServer::Sync` (cdc_rsync_server.cc:326-400) with the
functions it calls: `HandleSetOptions` (402-476), `HandleSendAllFiles` (478-512), `DiffFiles`
(514-538), `RemoveExtraneousFilesAndDirs` (540-577), `SendFileIndices` (602-642, batches of 4000),
`HandleSendMissingFileData` (644-767), `SyncChangedFiles` (769-868), `HandleShutdown` (871-888);
and `CreateAndSendSignature` (cdc_interface.cc:405-506).  `spawn` is
`patch_pool.QueueTask` (831-832), `join` is `patch_pool.Wait()` (835-838). -/
def sAct (I : Input) (s : Srv) : Action Srv :=
  match s.pc with
  | .options => .recv fun
      | .options o => ⟨o, .files⟩
      | _ => ⟨s.o, .failed⟩
  | .files => .recv fun
      | .files f d => if f = 0 ∧ d = 0 then ⟨s.o, .stats⟩ else ⟨s.o, .files⟩
      | _ => ⟨s.o, .failed⟩
  | .stats => .send .stats (if s.o.delete then ⟨s.o, .deleted I.deleted⟩ else ⟨s.o, .missing I.missing⟩)
  | .deleted [] => .send (.deleted 0 0) ⟨s.o, .missing I.missing⟩
  | .deleted (b :: l) => .send (.deleted b.1 b.2) ⟨s.o, .deleted l⟩
  | .missing l =>
    if l = [] then .send (.indices []) (sMissing I s.o)
    else .send (.indices (l.take 4000)) ⟨s.o, .missing (l.drop 4000)⟩
  | .toggle1 => .recv fun
      | .toggle => ⟨s.o, .file 0 I.missing⟩
      | _ => ⟨s.o, .failed⟩
  | .file _ [] => .tau (if s.o.compress then ⟨s.o, .toggleResp1⟩ else ⟨s.o, .changed I.changed⟩)
  | .file k (_ :: l) => .recv fun
      | .missing j => if j = k then ⟨s.o, .raw k l⟩ else ⟨s.o, .failed⟩
      | _ => ⟨s.o, .failed⟩
  | .raw k l => .recv fun
      | .raw n => if n = 0 then ⟨s.o, .file (k + 1) l⟩ else ⟨s.o, .raw k l⟩
      | _ => ⟨s.o, .failed⟩
  | .toggleResp1 => .send .toggle ⟨s.o, .changed I.changed⟩
  | .changed l =>
    if l = [] then .send (.indices []) (sChanged I s.o)
    else .send (.indices (l.take 4000)) ⟨s.o, .changed (l.drop 4000)⟩
  | .toggle2 => .recv fun
      | .toggle => ⟨s.o, .header I.changed⟩
      | _ => ⟨s.o, .failed⟩
  | .header [] => .tau ⟨s.o, .join⟩
  | .header (i :: l) => .send (.header i) ⟨s.o, .sigs (I.sigs i) l⟩
  | .sigs [] l => .send (.sigs 0) ⟨s.o, .spawn l⟩
  | .sigs (n :: c) l => .send (.sigs n) ⟨s.o, .sigs c l⟩
  | .spawn l => .spawn ⟨s.o, .header l⟩
  | .join => .join (if s.o.compress then ⟨s.o, .toggleResp2⟩ else ⟨s.o, .shutdown⟩)
  | .toggleResp2 => .send .toggle ⟨s.o, .shutdown⟩
  | .shutdown => .recv fun
      | .shutdown => ⟨s.o, .shutdownResp⟩
      | _ => ⟨s.o, .failed⟩
  | .shutdownResp => .send .shutdown ⟨s.o, .done⟩
  | .done => .halt
  | .failed => .halt

/-! ## The two sides together -/

/-- The whole session: the client, the server's main thread, the server's patcher thread (number
of queued patch tasks, and whether one of them received something else than patch commands) and the
two queues. -/
structure State where
  c : Cli
  s : Srv
  pend : Nat
  pfail : Bool
  cs : List Msg
  sc : List Msg

/-- When a queue accepts another message, given what is in it: to the server and to the client. -/
structure Rooms where
  cs : List Msg → Bool
  sc : List Msg → Bool

/-- The three threads. -/
inductive Proc
  | client
  | server
  | patcher
  deriving DecidableEq

/-- `MessagePump::SendMessage` waits in `QueuePacket` (cdc_rsync/base/message_pump.cc:165-187) until
the queue has room; `ReceiveMessage` (message_pump.cc:232-264) waits for a packet.  The patcher runs
`ReceiveDiffAndPatch` (cdc_interface.cc:583-668) for each queued task: it receives until an empty
list of patch commands ends the task. -/
def next (R : Rooms) (I : Input) : Proc → State → Option State
  | .client, t =>
    match cAct I t.c with
    | .send m c => if R.cs t.cs then some { t with c := c, cs := t.cs ++ [m] } else none
    | .recv f =>
      match t.sc with
      | [] => none
      | m :: q => some { t with c := f m, sc := q }
    | .tau c => some { t with c := c }
    | .spawn _ => none
    | .join _ => none
    | .halt => none
  | .server, t =>
    match sAct I t.s with
    | .send m s => if R.sc t.sc then some { t with s := s, sc := t.sc ++ [m] } else none
    | .recv f =>
      match t.cs with
      | [] => none
      | m :: q => some { t with s := f m, cs := q }
    | .tau s => some { t with s := s }
    | .spawn s => some { t with s := s, pend := t.pend + 1 }
    | .join s => if t.pend = 0 then some { t with s := s } else none
    | .halt => none
  | .patcher, t =>
    if t.pend = 0 ∨ t.pfail = true then none
    else
      match t.cs with
      | [] => none
      | .patch 0 :: q => some { t with pend := t.pend - 1, cs := q }
      | .patch (_ + 1) :: q => some { t with cs := q }
      | _ :: q => some { t with pfail := true, cs := q }

/-- The start: both sides at their beginning, nothing sent.  (The server's options are overwritten by
the first message.) -/
def init : State := ⟨.options, ⟨⟨false, false, false⟩, .options⟩, 0, false, [], []⟩

/-- Runs of exactly `n` steps, in any interleaving. -/
inductive Run (R : Rooms) (I : Input) : Nat → State → State → Prop
  | nil (a : State) : Run R I 0 a a
  | cons {n : Nat} {a b c : State} (p : Proc) :
      next R I p a = some b → Run R I n b c → Run R I (n + 1) a c

/-- No thread can move. -/
def Stuck (R : Rooms) (I : Input) (a : State) : Prop := ∀ p, next R I p a = none

/-- The session has ended well on both sides: both are done, no patch task is open and nothing is
left in the queues. -/
def Finished (a : State) : Prop :=
  a.c = .done ∧ a.s.pc = .done ∧ a.pend = 0 ∧ a.pfail = false ∧ a.cs = [] ∧ a.sc = []

/-- Some thread has received something it did not expect. -/
def WrongMessage (a : State) : Prop := a.c = .failed ∨ a.s.pc = .failed ∨ a.pfail = true

/-- Removing the oldest message of a queue never makes it full. -/
structure Rooms.OK (R : Rooms) : Prop where
  cs : ∀ m q, R.cs (m :: q) = true → R.cs q = true
  sc : ∀ m q, R.sc (m :: q) = true → R.sc q = true
  cs0 : R.cs [] = true
  sc0 : R.sc [] = true

/-- Queues that are never full. -/
def Rooms.unlimited : Rooms := ⟨fun _ => true, fun _ => true⟩

/-- Queues limited in bytes, as in `QueuePacket` (message_pump.cc:165-187): a message is accepted
while what is queued is smaller than the limit. -/
def Rooms.bytes (size : Msg → Nat) (capC capS : Nat) : Rooms :=
  ⟨fun q => decide ((q.map size).sum < capC), fun q => decide ((q.map size).sum < capS)⟩

/-! ## When the diff of a file cannot block both sides -/

/-- The signature messages of file `i`, with the end marker. -/
def Input.sigMsgs (I : Input) (i : Nat) : List Msg := (I.sigs i).map .sigs ++ [.sigs 0]

/-- The patch messages in a word. -/
def patchesOf (w : List (Option Nat)) : List Msg := w.filterMap (Option.map .patch)

/-- Whenever the client wants to send a patch message of file `i` before it has received all
signature messages of the file (`u` is what it has done before), there is room for it although
nobody has taken any of its earlier patch messages of this file, or the server can send all the
remaining signature messages although the client takes none of them. -/
def Fits (R : Rooms) (I : Input) (i : Nat) : Prop :=
  ∀ u n v, I.ops i = u ++ some n :: v → u.count none < (I.sigMsgs i).length →
    R.cs (patchesOf u) = true ∨
      ∀ p, p <+: (I.sigMsgs i).drop (u.count none) → p ≠ (I.sigMsgs i).drop (u.count none) →
        R.sc p = true

end Verif.Protocol
