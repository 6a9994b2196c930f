import Verif.Manifest.Proto
import Verif.Provider.Model

/-!
# Model of `Asset` (cdc_fuse_fs/asset.cc)

An asset is used by many threads. The state shared by them is the cache of fetched chunk lists, the
list of fetched asset lists and the name lookup; every access is one atomic step (it holds `mutex_`),
and between any two steps of a call other threads may take steps of theirs.
`UpdateProto` is only called while no other call runs (cdc_fuse_fs.cc) and starts from a fresh state.
-/
namespace Verif.Asset
open Verif.Manifest

/-- What the asset's data store reader delivers for list protos (`GetProto`, data_store_reader.h:115-125). -/
structure Store where
  chunkLists : Id → Option (List Ref)
  assetLists : Id → Option (List Manifest.Asset)
  /-- whether requests can fail although the data is there -/
  fails : Prop
  /-- whether other threads take steps during the call under consideration -/
  conc : Prop

/-- `file_chunk_lists_`, `dir_asset_lists_`, `proto_lookup_`, asset.h:164-177. -/
structure State where
  chunkLists : List (Option (List Ref)) := []
  dirLists : List (List Manifest.Asset) := []
  lookup : List (Name × Manifest.Asset) := []

/-- `proto_lookup_[name] = asset`. -/
def setLookup (l : List (Name × Manifest.Asset)) (a : Manifest.Asset) : List (Name × Manifest.Asset) :=
  if l.any (fun e => e.1 = a.name) then l.map fun e => if e.1 = a.name then (a.name, a) else e
  else l ++ [(a.name, a)]

/-- `UpdateProtoLookup`, asset.cc:408-414. -/
def updateLookup (l : List (Name × Manifest.Asset)) (as : List Manifest.Asset) : List (Name × Manifest.Asset) :=
  as.foldl setLookup l

/-- `Initialize`, asset.cc:27-42, and `UpdateProto`, asset.cc:231-240. -/
def initial (proto : Manifest.Asset) : State := { lookup := updateLookup [] proto.children }

/-! ## Programs -/

/-- A program: relates a start state to results and end states. -/
def Prog (α : Type) := State → α → State → Prop

def Prog.pure {α : Type} (a : α) : Prog α := fun s b s' => b = a ∧ s' = s

def Prog.bind {α β : Type} (m : Prog α) (f : α → Prog β) : Prog β := fun s b s'' =>
  ∃ a s', m s a s' ∧ f a s' b s''

instance : Monad Prog where
  pure := Prog.pure
  bind := Prog.bind

/-- The part of `GetChunkRefList` under the writer lock, asset.cc:502-518. The result `none` is an error:
the fetch failed. The resized list stays. -/
def fetchChunkList (S : Store) (proto : Manifest.Asset) (i : Nat) (s : State) (r : Option (List Ref)) (s' : State) : Prop :=
  let lists := s.chunkLists ++ List.replicate (i + 1 - s.chunkLists.length) none
  match lists[i]? with
  | some (some refs) => r = some refs ∧ s' = { s with chunkLists := lists }
  | _ =>
    ((S.fails ∨ (proto.info.indirect[i]?.bind fun ind => S.chunkLists ind.listId) = none) ∧
      r = none ∧ s' = { s with chunkLists := lists }) ∨
    ∃ ind refs, proto.info.indirect[i]? = some ind ∧ S.chunkLists ind.listId = some refs ∧ r = some refs ∧
      s' = { s with chunkLists := lists.set i (some refs) }

/-- The part of `FetchNextDirAssetList` under the writer lock, asset.cc:387-405. `none` is an error. -/
def fetchDirList (S : Store) (proto : Manifest.Asset) (s : State) (r : Option Bool) (s' : State) : Prop :=
  if proto.indirect.length ≤ s.dirLists.length then r = some false ∧ s' = s
  else
    ((S.fails ∨ (proto.indirect[s.dirLists.length]?.bind S.assetLists) = none) ∧ r = none ∧ s' = s) ∨
    ∃ id as, proto.indirect[s.dirLists.length]? = some id ∧ S.assetLists id = some as ∧ r = some true ∧
      s' = { s with dirLists := s.dirLists ++ [as], lookup := updateLookup s.lookup as }

/-- Steps other threads may take. -/
inductive Other (S : Store) (proto : Manifest.Asset) : State → State → Prop where
  | refl (s) : Other S proto s s
  | chunks {s s' s'' : State} (i r) : i < proto.info.indirect.length → fetchChunkList S proto i s r s' →
      Other S proto s' s'' → Other S proto s s''
  | dirs {s s' s'' : State} (r) : fetchDirList S proto s r s' → Other S proto s' s'' → Other S proto s s''

section
variable (S : Store) (proto : Manifest.Asset)

/-- One atomic step of this thread, preceded by steps of others if there are any. -/
def atomic {α : Type} (step : State → α → State → Prop) : Prog α := fun s a s'' =>
  ∃ s', (s' = s ∨ S.conc ∧ Other S proto s s') ∧ step s' a s''

/-- Result of `GetChunkRefList`. -/
inductive ListRes where
  | error
  | eof
  | refs (l : List Ref)

def toListRes : Option (List Ref) → ListRes
  | none => .error
  | some l => .refs l

/-- `GetChunkRefList(list_idx)` for `list_idx = -1`: asset.cc:481-484. -/
def directList : List Ref := proto.info.chunks

/-- `GetChunkRefList(list_idx)` for `list_idx ≥ 0`, asset.cc:475-518. -/
def getIndirectList (i : Nat) : Prog ListRes :=
  if i = proto.info.indirect.length then pure .eof
  else do
    let fast ← atomic S proto fun s r s' => r = (s.chunkLists[i]?).join ∧ s' = s
    match fast with
    | some refs => pure (.refs refs)
    | none => do
      let r ← atomic S proto (fetchChunkList S proto i)
      pure (toListRes r)

/-- `ChunkListOffset(list_idx)` where `n = list_idx + 1`, asset.cc:445-453. -/
def listOffset (n : Nat) : Nat :=
  match n with
  | 0 => 0
  | i + 1 => match proto.info.indirect[i]? with
    | some ind => ind.offset
    | none => proto.info.fileSize

/-- Number of elements at the front of a list with value `≤ x`, for an ascending list `upper_bound`.
`std::upper_bound` is a binary search; its result is only specified for partitioned ranges, and for
those it is this number. -/
def upperBound (x : Nat) (l : List Nat) : Nat := (l.takeWhile fun y => y ≤ x).length

/-- `FindChunkList(offset) + 1`, asset.cc:416-431. -/
def findChunkList (offset : Nat) : Nat :=
  if proto.info.fileSize ≤ offset then proto.info.indirect.length + 1
  else upperBound offset (proto.info.indirect.map Indirect.offset)

/-- `FindChunk(chunks, list_offset, offset) + 1`, asset.cc:433-443. -/
def findChunk (refs : List Ref) (listOff offset : Nat) : Nat :=
  upperBound (offset - listOff) (refs.map Ref.offset)

/-- Local variables of the loop of `Read`. -/
structure Loop where
  offset : Nat
  dataLeft : Nat
  prefetchLeft : Nat
  tasks : List Provider.Task := []

/-- Enqueue the transfer of one chunk at absolute offset `absOff` and size `chunkSize`, asset.cc:140-158. The
target buffer initially holds unspecified bytes, here zeros. -/
def Loop.addChunk (l : Loop) (id : Id) (absOff chunkSize : Nat) : Loop :=
  let chunkOffset := if l.offset > absOff then l.offset - absOff else 0
  let toRead := min (chunkSize - chunkOffset) l.dataLeft
  let toPrefetch := min (chunkSize - chunkOffset) l.prefetchLeft
  { offset := l.offset + toPrefetch
    dataLeft := if l.dataLeft > toRead then l.dataLeft - toRead else 0
    prefetchLeft := l.prefetchLeft - toPrefetch
    tasks := l.tasks ++ [⟨id, chunkOffset, toRead, List.replicate toRead 0, [], false⟩] }

/-- `ChunkSize`, asset.cc:455-473; `rest` are the chunks after `ref` in its list. -/
def chunkSize (n : Nat) (ref : Ref) (rest : List Ref) : Nat :=
  match rest with
  | r :: _ => r.offset - ref.offset
  | [] => listOffset proto (n + 1) - (ref.offset + listOffset proto n)

/-- The chunks of one list from some index on: loop body asset.cc:137-192 without going to the next list, which
is `next`. `n` is `list_idx + 1`. `first` is set for the chunk `Read` starts at; for all others there is the
check for the boundary, asset.cc:183-191. `none` is an error. -/
def chunkLoop (n : Nat) (next : Loop → Prog (Option Loop)) (first : Bool) : List Ref → Loop → Prog (Option Loop)
  | [], l => next l
  | ref :: rest, l =>
    if first = false ∧ l.offset ≠ listOffset proto n + ref.offset then pure none
    else
      let l := l.addChunk ref.id (listOffset proto n + ref.offset) (chunkSize proto n ref rest)
      if l.prefetchLeft = 0 then pure (some l)
      else chunkLoop n next false rest l

/-- Go to the next list, asset.cc:163-181; `n` is the new `list_idx + 1`, `k` the number of indirect lists
from there on. -/
def listLoop : (k n : Nat) → Loop → Prog (Option Loop)
  | 0, _, l => if l.offset ≠ proto.info.fileSize then pure none else pure (some l)
  | k + 1, n, l => do
    let r ← getIndirectList S proto (n - 1)
    match r with
    | .error => pure none
    | .eof => if l.offset ≠ proto.info.fileSize then pure none else pure (some l)
    | .refs refs => chunkLoop proto n (listLoop k (n + 1)) false refs l

/-- The list `Read` starts in. -/
def startList (n : Nat) : Prog ListRes :=
  match n with
  | 0 => pure (.refs (directList proto))
  | i + 1 => getIndirectList S proto i

/-- `data_store_reader_->Get(&chunks)`: relates the tasks to whether it succeeded and the tasks afterwards. -/
abbrev Reader := List Provider.Task → Bool → List Provider.Task → Prop

/-- What the transfers put in the buffer passed to `Read`: the tasks with a size got consecutive parts of it, the
others a null pointer (asset.cc:151-154). -/
def buffer (tasks : List Provider.Task) : List UInt8 :=
  ((tasks.filter fun t => t.size != 0).map Provider.Task.buf).flatten

/-- The transfer at the end of `Read`, asset.cc:194-204: the number of bytes is `size - data_bytes_left`. -/
def transfer (G : Reader) (size : Nat) (l : Loop) : Prog (Option (Nat × List UInt8)) := fun s r s' =>
  s' = s ∧ ∃ ok tasks, G l.tasks ok tasks ∧
    r = if ok = false ∨ Provider.readDone tasks = false then none
      else some (size - l.dataLeft, buffer tasks)

def transferOf (G : Reader) (size : Nat) : Option Loop → Prog (Option (Nat × List UInt8))
  | none => pure none
  | some l => transfer G size l

/-- From the start list on, asset.cc:121-206. `n` is `list_idx + 1`. -/
def readFrom (G : Reader) (prefetch offset size n : Nat) : ListRes → Prog (Option (Nat × List UInt8))
  | .error => pure none
  | .eof => pure (some (0, []))
  | .refs refs =>
    let c := findChunk refs (listOffset proto n) offset
    if c = 0 then pure none
    else do
      let r ← chunkLoop proto n (listLoop S proto (proto.info.indirect.length - n) (n + 1)) true
        (refs.drop (c - 1)) ⟨offset, size, prefetch, []⟩
      transferOf G size r

/-- `Read(offset, data, size)`, asset.cc:107-206: `none` is an error, otherwise the number of bytes read and the
bytes. `prefetch` is `PrefetchSize(size)`. -/
def read (G : Reader) (prefetch offset size : Nat) : Prog (Option (Nat × List UInt8)) :=
  if proto.info.kind ≠ .file then pure none
  else if size = 0 then pure (some (0, []))
  else do
    let r ← startList S proto (findChunkList proto offset)
    readFrom S proto G prefetch offset size (findChunkList proto offset) r

/-! ## Directories -/

/-- `FetchNextDirAssetList`, asset.cc:373-406: `none` is an error. -/
def fetchNext : Prog (Option Bool) := do
  let all ← atomic S proto fun s r s' => r = decide (proto.indirect.length ≤ s.dirLists.length) ∧ s' = s
  if all then pure (some false) else atomic S proto (fetchDirList S proto)

/-- `proto_lookup_.find(name)`, asset.cc:88-93. -/
def findName (name : Name) : Prog (Option Manifest.Asset) :=
  atomic S proto fun s r s' => r = (s.lookup.find? fun e => e.1 = name).map Prod.snd ∧ s' = s

/-- Result of a directory operation. `diverged` means that the loop ran more often than the bound. -/
inductive DirRes (α : Type) where
  | error
  | ok (a : α)
  | diverged

/-- Loop of `Lookup`, asset.cc:84-103, run at most `k` times. `ok none` means there is no such asset. -/
def lookupLoop (name : Name) : Nat → Prog (DirRes (Option Manifest.Asset))
  | 0 => pure .diverged
  | k + 1 => do
    let a ← findName S proto name
    match a with
    | some a => pure (.ok (some a))
    | none => do
      let f ← fetchNext S proto
      match f with
      | none => pure .error
      | some false => pure (.ok none)
      | some true => lookupLoop name k

/-- `Lookup(name)`, asset.cc:76-105; the loop is run at most once more than there are indirect lists (it is
proved that it never wants to run more often). -/
def lookup (name : Name) : Prog (DirRes (Option Manifest.Asset)) :=
  if proto.info.kind ≠ .directory then pure .error else lookupLoop S proto name (proto.indirect.length + 1)

/-- Loop of `GetAllChildProtos`, asset.cc:53-59, run at most `k` times. -/
def fetchAll : Nat → Prog (DirRes Unit)
  | 0 => pure .diverged
  | k + 1 => do
    let f ← fetchNext S proto
    match f with
    | none => pure .error
    | some false => pure (.ok ())
    | some true => fetchAll k

/-- `GetLoadedChildProtos`, asset.cc:63-74. -/
def loadedChildren : Prog (List Manifest.Asset) :=
  atomic S proto fun s r s' => r = s.lookup.map Prod.snd ∧ s' = s

/-- End of `GetAllChildProtos`, asset.cc:60. -/
def allChildrenAfter : DirRes Unit → Prog (DirRes (List Manifest.Asset))
  | .error => pure .error
  | .diverged => pure .diverged
  | .ok () => do
    let l ← loadedChildren S proto
    pure (.ok l)

/-- `GetAllChildProtos`, asset.cc:44-61. -/
def allChildren : Prog (DirRes (List Manifest.Asset)) :=
  if proto.info.kind ≠ .directory then pure .error
  else do
    let r ← fetchAll S proto (proto.indirect.length + 1)
    allChildrenAfter S proto r

end

end Verif.Asset
