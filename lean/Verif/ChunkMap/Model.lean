/-!
# Model of `FileChunkMap` (manifest/file_chunk_map.cc)

The statistics kept for printing (`stats_`) are in Verif/ChunkMap/Stats.lean.
-/
namespace Verif.ChunkMap

abbrev Id := List UInt8
abbrev Path := List Char

/-- `FileChunk`, file_chunk_map.h:35-44. -/
structure Chunk where
  id : Id
  offset : UInt64
deriving DecidableEq, Repr

/-- `FileChunkMap::File`, file_chunk_map.h:111-117. -/
structure File where
  chunks : List Chunk := []
  size : UInt64 := 0
deriving DecidableEq, Repr

/-- `FileUpdate`, file_chunk_map.h:121-129; one constructor for each update type. -/
inductive Update where
  | init (path : Path) (size : UInt64) (chunks : List Chunk)
  | append (path : Path) (chunks : List Chunk)
  | remove (path : Path)
  | clear
deriving DecidableEq, Repr

/-- The state of a `FileChunkMap`, file_chunk_map.h:176-199. Hash maps are association lists in iteration
order. `ids` is `id_to_chunk_`: path and index of a chunk. -/
structure Map where
  updates : List Update := []
  files : List (Path × File) := []
  total : Nat := 0
  ids : List (Id × Path × Nat) := []
deriving Repr

/-- `Init`, file_chunk_map.cc:28-34. -/
def Map.init (m : Map) (path : Path) (size : UInt64) (chunks : List Chunk) : Map :=
  { m with updates := m.updates ++ [.init path size chunks] }

/-- `AppendCopy` and `AppendMove`, file_chunk_map.cc:36-55. The list is given as pairs of id and relative
offset. -/
def Map.append (m : Map) (path : Path) (list : List (Id × UInt64)) (listOffset : UInt64) : Map :=
  { m with updates := m.updates ++ [.append path (list.map fun c => ⟨c.1, c.2 + listOffset⟩)] }

/-- `Remove`, file_chunk_map.cc:57-60. -/
def Map.remove (m : Map) (path : Path) : Map := { m with updates := m.updates ++ [.remove path] }

/-- `Clear`, file_chunk_map.cc:62-65. -/
def Map.clear (m : Map) : Map := { m with updates := m.updates ++ [.clear] }

/-- `path_to_file_[path]`: the entry, created empty if missing. -/
def entry (files : List (Path × File)) (path : Path) : File :=
  ((files.find? fun e => e.1 = path).map Prod.snd).getD {}

def setEntry (files : List (Path × File)) (path : Path) (f : File) : List (Path × File) :=
  if files.any (fun e => e.1 = path) then files.map fun e => if e.1 = path then (path, f) else e
  else files ++ [(path, f)]

/-- One update of the loop of `FlushUpdates`, file_chunk_map.cc:72-112. -/
def applyUpdate (s : List (Path × File) × Nat) : Update → List (Path × File) × Nat
  | .init path size chunks =>
    (setEntry s.1 path { chunks := chunks, size := size },
      s.2 - (entry s.1 path).chunks.length + chunks.length)
  | .append path chunks =>
    let f := entry s.1 path
    (setEntry s.1 path { f with chunks := if f.chunks.isEmpty then chunks else f.chunks ++ chunks },
      s.2 + chunks.length)
  | .remove path =>
    match s.1.find? fun e => e.1 = path with
    | none => s
    | some e => (s.1.filter fun e => e.1 ≠ path, s.2 - e.2.chunks.length)
  | .clear => ([], 0)

/-- Assignment to `id_to_chunk_[id]`. -/
def setId (ids : List (Id × Path × Nat)) (id : Id) (loc : Path × Nat) : List (Id × Path × Nat) :=
  if ids.any (fun e => e.1 = id) then ids.map fun e => if e.1 = id then (id, loc) else e
  else ids ++ [(id, loc)]

/-- Inner loop of `UpdateIdToChunkMap`, file_chunk_map.cc:188-191. -/
def indexFile (path : Path) : Nat → List Chunk → List (Id × Path × Nat) → List (Id × Path × Nat)
  | _, [], ids => ids
  | n, c :: cs, ids => indexFile path (n + 1) cs (setId ids c.id (path, n))

/-- `UpdateIdToChunkMap`, file_chunk_map.cc:182-191. -/
def indexAll (files : List (Path × File)) : List (Id × Path × Nat) :=
  files.foldl (fun ids e => indexFile e.1 0 e.2.chunks ids) []

/-- `FlushUpdates`, file_chunk_map.cc:67-117. `order` is the iteration order of the hash map afterwards
(used if it lists the same entries). -/
def Map.flush (m : Map) (order : List (Path × File)) : Map :=
  if m.updates = [] then m
  else
    let r := m.updates.foldl applyUpdate (m.files, m.total)
    let files := if order.isPerm r.1 then order else r.1
    { updates := [], files := files, total := r.2, ids := indexAll files }

/-- `Lookup` and `FindChunk`, file_chunk_map.cc:119-126, 223-251: path, offset, size. A failing assertion
would be `none`. -/
def Map.lookup (m : Map) (id : Id) : Option (Path × UInt64 × UInt32) :=
  match m.ids.find? fun e => e.1 = id with
  | none => none
  | some (_, path, index) =>
    match m.files.find? fun e => e.1 = path with
    | none => none
    | some (_, file) =>
      match file.chunks[index]? with
      | none => none
      | some c =>
        let next := if index + 1 = file.chunks.length then file.size
          else (file.chunks.getD (index + 1) ⟨[], 0⟩).offset
        some (path, c.offset, (next - c.offset).toUInt32)

/-- Everything that can be done to a map. -/
inductive Op where
  | init (path : Path) (size : UInt64) (chunks : List Chunk)
  | append (path : Path) (list : List (Id × UInt64)) (listOffset : UInt64)
  | remove (path : Path)
  | clear
  | flush (order : List (Path × File))

def Map.step (m : Map) : Op → Map
  | .init p n c => m.init p n c
  | .append p l o => m.append p l o
  | .remove p => m.remove p
  | .clear => m.clear
  | .flush order => m.flush order

def Map.run (m : Map) (ops : List Op) : Map := ops.foldl Map.step m

end Verif.ChunkMap
