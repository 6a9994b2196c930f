import Verif.FastCdc.Model

/-!
# Model of the delta sync pipeline (`cdc_rsync/base/cdc_interface.cc`)

Server: chunk the old file and send signatures. Client: chunk the new file, receive signatures
while chunking, send patch commands. Server: apply the patch commands to the old file.

The chunk hash is a parameter `hash : Bytes → α`. Thread timing (how many hash tasks are finished
when the sender looks, whether a signature packet is available when the client looks) is an explicit
schedule argument over which the theorems quantify. Failing to send a message is not modelled;
failing file reads are (`none`).
-/
namespace Verif.Delta

abbrev Bytes := List UInt8

/-- `path::StreamReadFileContents`, common/path.cc:763-800, for a file that can be read: the
handler is called with consecutive blocks of `n` bytes, the last one possibly shorter (and once
more with no data at the end, which the callers below model themselves). -/
def readBlocks (n : Nat) (data : Bytes) : List Bytes :=
  if _h : n = 0 ∨ data = [] then []
  else data.take n :: readBlocks n (data.drop n)
termination_by data.length
decreasing_by
  simp only [not_or] at _h
  have := List.length_pos_iff.mpr _h.2
  simp; omega

/-- The tunable constants, cdc_rsync/base/cdc_interface.cc:55-58, 96-100, 239-240.
The theorems hold for all values (with positivity where stated). -/
structure Params where
  /-- `kCombinedChunkSizeThreshold` -/
  combine : Nat := 64 * 1024
  /-- `kPatchRequestSizeThreshold` -/
  request : Nat := 65536
  /-- `kMinNumChunksPerBatch` -/
  sigBatch : Nat := 1024
  /-- `kMaxNumHashTasks` -/
  maxTasks : Nat := 64
  /-- `kPatchMetadataSize` -/
  metaSize : Nat := 13

/-! ## Server: signatures -/

/-- `AddSignaturesResponse`: pairs (chunk size, chunk hash). The two SOA arrays of the proto are
filled in lockstep by `HashTask::AppendHash` (cdc_interface.cc:140-144). -/
abbrev SigMsg (α : Type) := List (Nat × α)

/-- `HashTask::AppendHash`, cdc_interface.cc:140-148. -/
def sigOf {α : Type} (hash : Bytes → α) (c : Bytes) : Nat × α := (c.length, hash c)

/-- State of `CreateAndSendSignature`: chunks handed to the (single, FIFO) hash worker and not yet
collected, the response under construction, and the messages sent. -/
structure SigState (α : Type) where
  inFlight : List Bytes := []
  response : SigMsg α := []
  sent : List (SigMsg α) := []

/-- One call of `read_handler`, cdc_interface.cc:443-471. `chunks` are the chunks the chunker emits
for the block, `k` is how many finished tasks the loop 450-458 happens to find; the loop blocks
while `kMaxNumHashTasks` are in flight, so it collects at least all but `maxTasks - 1`. -/
def sigStep {α : Type} (P : Params) (hash : Bytes → α) (st : SigState α) (ev : List Bytes × Nat) :
    SigState α :=
  let q := st.inFlight ++ ev.1
  let n := max ev.2 (q.length - (P.maxTasks - 1))
  let resp := st.response ++ (q.take n).map (sigOf hash)
  if resp.length ≥ P.sigBatch then
    { inFlight := q.drop n, response := [], sent := st.sent ++ [resp] }
  else { inFlight := q.drop n, response := resp, sent := st.sent }

/-- `CdcInterface::CreateAndSendSignature`, cdc_interface.cc:405-506: the messages sent for a file
whose chunks are delivered by the chunker as described by `evs`. The last chunks (from
`chunker.Finalize()`, 479) are `last`. -/
def createSignature {α : Type} (P : Params) (hash : Bytes → α) (evs : List (List Bytes × Nat))
    (last : List Bytes) : List (SigMsg α) :=
  let st := evs.foldl (sigStep P hash) {}
  let resp := st.response ++ (st.inFlight ++ last).map (sigOf hash)
  st.sent ++ (if resp.length > 0 then [resp] else []) ++ [[]]

/-! ## Client: receiving signatures -/

section
variable {α : Type} [DecidableEq α]

/-- `ServerChunkReceiver`, cdc_interface.cc:155-235. -/
structure Recv (α : Type) where
  offsets : α → Option Nat := fun _ => none
  cur : Nat := 0
  all : Bool := false

/-- `chunk_offsets_.insert({hash, curr_offset_}); curr_offset_ += size;`, cdc_interface.cc:206-211.
`insert` keeps an existing entry. -/
def Recv.add (r : Recv α) (s : Nat × α) : Recv α :=
  { r with
    offsets := fun h => if h = s.2 then (r.offsets h).or (some r.cur) else r.offsets h
    cur := r.cur + s.1 }

/-- `ServerChunkReceiver::Receive`, cdc_interface.cc:168-214. `avail` is the answer of
`CanReceive()`; a blocking receive from a stream that has ended fails (`none`). -/
def Recv.receive (r : Recv α) (block avail : Bool) (inbox : List (SigMsg α)) :
    Option (Recv α × List (SigMsg α)) :=
  if r.all then some (r, inbox)
  else if !block && (!avail || inbox.isEmpty) then some (r, inbox)
  else match inbox with
    | [] => none
    | m :: rest => if m.length = 0 then some ({ r with all := true }, rest)
                   else some (m.foldl Recv.add r, rest)

/-! ## Client: patch commands -/

/-- `AddPatchCommandsRequest::Source`; protobuf enums are open, so any other number may arrive. -/
inductive Src where
  | data | basis | other (n : Int)
deriving DecidableEq, Repr

/-- One entry of the SOA arrays of `AddPatchCommandsRequest`, as the sender sees it. -/
structure Cmd where
  src : Src
  off : Nat
  size : Nat
deriving DecidableEq, Repr

/-- `AddPatchCommandsRequest` under construction: the three arrays always grow together
(cdc_interface.cc:332-334, 350-352). -/
structure Req where
  cmds : List Cmd := []
  data : Bytes := []
deriving DecidableEq, Repr

/-- `PatchSender`, cdc_interface.cc:237-398, and the messages it has sent. -/
structure Sender where
  req : Req := {}
  reqSize : Nat := 0
  fileOffset : Nat := 0
  idx : Nat := 0
  sent : List Req := []

/-- `OnChunkAdded`, cdc_interface.cc:372-388. -/
def Sender.onChunkAdded (P : Params) (s : Sender) (size : Nat) : Sender :=
  let s := { s with fileOffset := s.fileOffset + size }
  if s.reqSize > P.request then { s with sent := s.sent ++ [s.req], reqSize := 0, req := {} } else s

/-- `AddExistingChunk`, cdc_interface.cc:321-339. -/
def Sender.addExisting (P : Params) (s : Sender) (off size : Nat) : Sender :=
  let fresh := { s with
    req := { s.req with cmds := s.req.cmds ++ [(⟨.basis, off, size⟩ : Cmd)] }
    reqSize := s.reqSize + P.metaSize }
  let s' := match s.req.cmds.getLast? with
    | none => fresh
    | some l =>
      if l.src = Src.basis ∧ l.off + l.size = off ∧ l.size < P.combine then
        { s with req := { s.req with cmds := s.req.cmds.dropLast ++ [{ l with size := l.size + size }] } }
      else fresh
  s'.onChunkAdded P size

/-- `AddNewChunk`, cdc_interface.cc:341-370; `none` if the file has become too short. -/
def Sender.addNew (P : Params) (file : Bytes) (s : Sender) (size : Nat) : Option Sender :=
  let fresh := { s with
    req := { s.req with cmds := s.req.cmds ++ [(⟨.data, s.req.data.length, size⟩ : Cmd)] }
    reqSize := s.reqSize + P.metaSize }
  let s' := match s.req.cmds.getLast? with
    | none => fresh
    | some l =>
      if l.src = Src.data then
        { s with req := { s.req with cmds := s.req.cmds.dropLast ++ [{ l with size := l.size + size }] } }
      else fresh
  let piece := (file.drop s.fileOffset).take size
  if piece.length ≠ size then none
  else
    let s'' := { s' with
      req := { s'.req with data := s'.req.data ++ piece }
      reqSize := s'.reqSize + size }
    some (s''.onChunkAdded P size)

/-- `TryAddChunks`, cdc_interface.cc:253-288. The list holds the client chunks (hash, size) from
`curr_chunk_idx_` on. -/
def Sender.tryAdd (P : Params) (file : Bytes) (r : Recv α) :
    Sender → List (α × Nat) → Option Sender
  | s, [] => some s
  | s, c :: cs =>
    match r.offsets c.1 with
    | none =>
      if !r.all then some s
      else (s.addNew P file c.2).map fun s' => { s' with idx := s'.idx + 1 }
    | some off =>
      let s' := s.addExisting P off c.2
      let s'' := { s' with idx := s'.idx + 1 }
      if r.all then some s'' else tryAdd P file r s'' cs

/-- `Flush`, cdc_interface.cc:291-310: the complete list of messages sent for the file. -/
def Sender.flush (s : Sender) : List Req :=
  if s.reqSize > 0 then s.sent ++ [s.req] ++ [Req.mk [] []] else s.sent ++ [s.req]

/-- The client's state in `ReceiveSignatureAndCreateAndSendDiff`, cdc_interface.cc:508-563. -/
structure Client (α : Type) where
  chunks : List (α × Nat) := []
  recv : Recv α := {}
  snd : Sender := {}
  inbox : List (SigMsg α)

/-- `client_chunks.emplace_back(ComputeHash(data, size), size)`, cdc_interface.cc:518-521. -/
def chunkOf (hash : Bytes → α) (c : Bytes) : α × Nat := (hash c, c.length)

/-- Loop body 539-557: receive, then try to send. -/
def Client.round (P : Params) (file : Bytes) (block avail : Bool) (c : Client α) :
    Option (Client α) :=
  match c.recv.receive block avail c.inbox with
  | none => none
  | some (r, inbox) =>
    match c.snd.tryAdd P file r (c.chunks.drop c.snd.idx) with
    | none => none
    | some s => some { c with recv := r, inbox := inbox, snd := s }

/-- One call of `read_handler` with data, cdc_interface.cc:527-560: `new` are the chunks emitted for
the block, `avail` the answer of `CanReceive()`. -/
def Client.onBlock (P : Params) (hash : Bytes → α) (file : Bytes) (c : Client α)
    (ev : List Bytes × Bool) : Option (Client α) :=
  Client.round P file false ev.2 { c with chunks := c.chunks ++ ev.1.map (chunkOf hash) }

/-- The `do`-`while` loop of the final `read_handler` call, cdc_interface.cc:539-560, with blocking
receives. `none`: failed, or the iteration budget was too small. -/
def Client.finalLoop (P : Params) (file : Bytes) : Nat → Client α → Option (Client α)
  | 0, _ => none
  | f + 1, c =>
    match Client.round P file true true c with
    | none => none
    | some c' =>
      if !c'.recv.all || c'.snd.idx < c'.chunks.length then Client.finalLoop P file f c'
      else some c'

/-- `ReceiveSignatureAndCreateAndSendDiff`, cdc_interface.cc:508-581: the patch messages sent and
the messages left in the inbox. Each iteration of the final loop receives a message or processes a
chunk, so the budget is never the reason for failing. -/
def createDiff (P : Params) (hash : Bytes → α) (file : Bytes) (evs : List (List Bytes × Bool))
    (last : List Bytes) (inbox : List (SigMsg α)) : Option (List Req × List (SigMsg α)) :=
  match evs.foldlM (Client.onBlock P hash file) { inbox := inbox } with
  | none => none
  | some c =>
    let c := { c with chunks := c.chunks ++ last.map (chunkOf hash) }
    (Client.finalLoop P file (c.inbox.length + c.chunks.length + 1) c).map
      fun c' => (c'.snd.flush, c'.inbox)

end

/-! ## Server: applying the patch -/

/-- `AddPatchCommandsRequest` as received: three arrays of independent length, 64-bit offsets and
32-bit sizes (messages.proto). -/
structure WireReq where
  sources : List Src
  offsets : List UInt64
  sizes : List UInt32
  data : Bytes
deriving Repr, DecidableEq

/-- What the sender puts on the wire. -/
def Req.toWire (r : Req) : WireReq :=
  { sources := r.cmds.map (·.src)
    offsets := r.cmds.map (fun c => UInt64.ofNat c.off)
    sizes := r.cmds.map (fun c => UInt32.ofNat c.size)
    data := r.data }

/-- Outcome of fetching the bytes of one command. -/
inductive Fetch where
  | bytes (b : Bytes)
  | error
  /-- undefined behaviour: memory outside the received message is read -/
  | outOfBounds
deriving Repr, DecidableEq

/-- The two branches 631-652 of `ReceiveDiffAndPatch`. Basis file: `fseek64` takes a signed offset
and succeeds beyond the end, `fread` must deliver everything. Data: the guard 645 adds a 64-bit and
a 32-bit unsigned number modulo 2^64. Unknown sources take the data branch (the `assert` 644 is not
compiled into release builds). -/
def fetch (basis data : Bytes) (src : Src) (off : UInt64) (size : UInt32) : Fetch :=
  if src = .basis then
    if off.toNat ≥ 2 ^ 63 then .error
    else
      let b := (basis.drop off.toNat).take size.toNat
      if b.length ≠ size.toNat then .error else .bytes b
  else
    if UInt64.ofNat data.length < off + size.toUInt64 then .error
    else if off.toNat + size.toNat ≤ data.length then
      .bytes ((data.drop off.toNat).take size.toNat)
    else .outOfBounds

/-- `Util::IsExecutable`, common/util.cc:150-163. -/
def isExecutable (d : Bytes) : Bool :=
  if d.length < 4 then false
  else d.take 4 == [0x7f, 0x45, 0x4c, 0x46] || d.take 3 == [0x23, 0x21, 0x2f] ||
    d.take 2 == [0x4d, 0x5a]

/-- Server state while patching: bytes written, `first_chunk`, `*is_executable`. -/
structure Patched where
  out : Bytes := []
  first : Bool := true
  exec : Bool := false
deriving Repr, DecidableEq

inductive Outcome (β : Type) where
  | ok (b : β)
  | error
  | outOfBounds
  /-- the connection ended without an end marker -/
  | starved
deriving Repr, DecidableEq

/-- The command loop 625-663. -/
def applyCmds (basis data : Bytes) : Patched → List (Src × UInt64 × UInt32) → Outcome Patched
  | p, [] => .ok p
  | p, (src, off, size) :: cs =>
    match fetch basis data src off size with
    | .error => .error
    | .outOfBounds => .outOfBounds
    | .bytes b =>
      let p' := if p.first && decide (size.toNat > 0)
        then { p with first := false, exec := isExecutable b } else p
      applyCmds basis data { p' with out := p'.out ++ b } cs

/-- `ReceiveDiffAndPatch`, cdc_interface.cc:583-668: result and remaining inbox. -/
def receiveDiff (basis : Bytes) : Patched → List WireReq → Outcome (Patched × List WireReq)
  | _, [] => .starved
  | p, m :: rest =>
    if m.sources.length ≠ m.offsets.length ∨ m.sources.length ≠ m.sizes.length then .error
    else if m.sources.length = 0 then .ok (p, rest)
    else match applyCmds basis m.data p (m.sources.zip (m.offsets.zip m.sizes)) with
      | .ok p' => receiveDiff basis p' rest
      | .error => .error
      | .outOfBounds => .outOfBounds
      | .starved => .starved

/-! ## Server: receiving a missing file -/

/-- The handler of `HandleSendMissingFileData` and `StreamWriteFileContents`,
cdc_rsync_server/cdc_rsync_server.cc:707-732 and common/path.cc:802-822: raw packets until an empty
one. -/
def receiveCopy : Patched → List Bytes → Outcome (Patched × List Bytes)
  | _, [] => .starved
  | p, b :: rest =>
    if b.length = 0 then .ok (p, rest)
    else
      let p' := if p.first then { p with first := false, exec := isExecutable b } else p
      receiveCopy { p' with out := p'.out ++ b } rest

/-! ## Feeding the chunker -/

/-- The chunks emitted by each `chunker.Process` call for the given blocks, and those emitted by the
final calls (`Process(nullptr, 0)` from the end-of-file handler call and `Finalize()`,
cdc_interface.cc:447, 479, 531, 536). -/
def chunkEvents {w : Nat} (gear : UInt8 → BitVec w) (c : FastCdc.Config) :
    Bytes → List Bytes → Option (List (List Bytes) × List Bytes)
  | buf, [] =>
    match FastCdc.process gear c buf [] with
    | none => none
    | some (cs, buf') =>
      match FastCdc.process gear c buf' [] with
      | none => none
      | some (cs', _) => some ([], cs ++ cs')
  | buf, d :: ds =>
    match FastCdc.process gear c buf d with
    | none => none
    | some (cs, buf') => (chunkEvents gear c buf' ds).map fun (ev, last) => (cs :: ev, last)

/-- Attach to the `i`-th element what the schedule says about step `i`. -/
def withSched {β γ : Type} (l : List β) (sched : Nat → γ) : List (β × γ) :=
  l.zipIdx.map fun (e, i) => (e, sched i)

/-- The whole delta sync of one file: the server chunks `oldBlocks` and sends signatures
(SyncChangedFiles, cdc_rsync_server.cc:825), the client chunks `newBlocks` and sends the diff
(cdc_rsync_client.cc:754), the server applies it to the old file (cdc_rsync_server.cc:105-119).
`tasks` and `avail` are the timing; `restSig` and `restPatch` are whatever follows in the two
message streams. Result: what is left of the client's inbox, and the outcome on the server. -/
def syncFile {α : Type} [DecidableEq α] {w : Nat} (gear : UInt8 → BitVec w) (c : FastCdc.Config)
    (P : Params) (hash : Bytes → α) (oldBlocks newBlocks : List Bytes) (tasks : Nat → Nat)
    (avail : Nat → Bool) (restSig : List (SigMsg α)) (restPatch : List WireReq) :
    Option (List (SigMsg α) × Outcome (Patched × List WireReq)) :=
  match chunkEvents gear c [] oldBlocks, chunkEvents gear c [] newBlocks with
  | some (evS, lastS), some (evC, lastC) =>
    let sig := createSignature P hash (withSched evS tasks) lastS
    match createDiff P hash newBlocks.flatten (withSched evC avail) lastC (sig ++ restSig) with
    | some (reqs, inbox) =>
      some (inbox, receiveDiff oldBlocks.flatten {} (reqs.map Req.toWire ++ restPatch))
    | none => none
  | _, _ => none

end Verif.Delta
