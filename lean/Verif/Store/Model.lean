import Verif.Util.Sort
/-!
# Model of content ids and the chunk stores

`manifest/content_id.cc`, `data_store/disk_data_store.cc`, `data_store/mem_data_store.cc`.
-/
namespace Verif.Store

abbrev Bytes := List UInt8
/-- A string; one `Char` per byte (only ASCII matters here). -/
abbrev Str := List Char
/-- `ContentIdProto::blake3_sum_160`. -/
abbrev Id := List UInt8

/-! ## Content ids -/

/-- `ContentId::kHashSize`, content_id.h:32. -/
def kHashSize : Nat := 20

/-- `IntToHex`, manifest/content_id.cc:24-28. Callers only
pass values up to 15; other values give the character with code 255 (`-1` as a `char`). -/
def intToHex (n : Nat) : Char :=
  if n ≤ 9 then Char.ofNat ('0'.toNat + n)
  else if n ≤ 15 then Char.ofNat ('a'.toNat + n - 10)
  else Char.ofNat 255

/-- `HexToInt`, manifest/content_id.cc:32-36; `none` is -1. -/
def hexToInt (c : Char) : Option Nat :=
  if '0' ≤ c ∧ c ≤ '9' then some (c.toNat - '0'.toNat)
  else if 'a' ≤ c ∧ c ≤ 'f' then some (c.toNat - 'a'.toNat + 10)
  else none

/-- `ContentId::ToHexString`, manifest/content_id.cc:62-71. -/
def toHex : Id → Str
  | [] => []
  | b :: bs => intToHex (b.toNat >>> 4) :: intToHex (b.toNat &&& 0xf) :: toHex bs

/-- The loop of `ContentId::FromHexString`, manifest/content_id.cc:81-89. An odd number of characters cannot occur (the length was
checked). -/
def fromHexLoop : Str → Option Id
  | h :: l :: rest =>
    match hexToInt h, hexToInt l with
    | some hi, some lo => (fromHexLoop rest).map (UInt8.ofNat ((hi <<< 4) + lo) :: ·)
    | _, _ => none
  | [_] => none
  | [] => some []

/-- `ContentId::FromHexString`, manifest/content_id.cc:74-92. -/
def fromHex (s : Str) : Option Id :=
  if s.length ≠ kHashSize * 2 then none else fromHexLoop s

/-! ## Cache file names -/

/-- The loop of `AddPathSeparators`, disk_data_store.cc:60-69. -/
def addSepLoop (distance : Nat) : Nat → Str → Str
  | 0, input => input
  | count + 1, input =>
    if input = [] then [] else input.take distance ++ '/' :: addSepLoop distance count (input.drop distance)

/-- `AddPathSeparators`, disk_data_store.cc:52-71 (Linux separator). -/
def addPathSeparators (input : Str) (distance count : Nat) : Str :=
  if input = [] ∨ distance = 0 ∨ count = 0 then input
  else addSepLoop distance (min ((input.length - 1) / distance) count) input

/-- `DiskDataStore::GetCacheFilePath`, disk_data_store.cc:315-320, relative to the cache root. -/
def cachePath (depth : Nat) (id : Id) : Str := addPathSeparators (toHex id) 2 depth

/-- `DiskDataStore::ParseCacheFilePath`, disk_data_store.cc:322-334. -/
def parsePath (depth : Nat) (path : Str) : Option Id :=
  fromHex (if depth > 0 then path.filter (fun c => !(c == '/' || c == '\\')) else path)

/-- Character table `kDirNames`, disk_data_store.cc:28-29. -/
def kDirNames : List Char :=
  ['0', '1', '2', '3', '4', '5', '6', '7', '8', '9', 'a', 'b', 'c', 'd', 'e', 'f']

/-- Inner loop of `GenerateDirNames`, disk_data_store.cc:37-41. -/
def dirName : Nat → Nat → Str
  | 0, _ => []
  | length + 1, symbol => kDirNames.getD (symbol &&& 0xf) '0' :: dirName length (symbol >>> 4)

/-- `GenerateDirNames`, disk_data_store.cc:33-44. -/
def generateDirNames (length : Nat) : List Str :=
  (List.range (1 <<< (length * 4))).map (dirName length)

/-- `CreateDirLevelRec`, disk_data_store.cc:351-364: the directories created below `parent`,
each given by its list of path components. -/
def dirHierarchy (parent : List Str) : Nat → List (List Str)
  | 0 => []
  | depth + 1 =>
    ((generateDirNames 2).map fun d => (parent ++ [d]) :: dirHierarchy (parent ++ [d]) depth).flatten

/-! ## Disk store -/

/-- A file below the cache root. -/
structure File where
  path : Str
  data : Bytes
  mtime : Nat
deriving DecidableEq, Repr

/-- `DiskDataStore` together with the directory it manages. `size`, `sizeInit` are `size_` and
`size_initialized_` (disk_data_store.h:180-185). Sizes are unbounded naturals. -/
structure Disk where
  files : List File := []
  size : Nat := 0
  sizeInit : Bool := false
  /-- the root directory exists -/
  rootExists : Bool := true
deriving Repr

def Disk.find (s : Disk) (p : Str) : Option File := s.files.find? (fun f => f.path = p)

/-- `path::WriteFile` (open "wb", write, close; path.cc:966-979) followed by setting the time. -/
def writeFile (files : List File) (f : File) : List File :=
  files.filter (fun g => g.path ≠ f.path) ++ [f]

def touch (files : List File) (p : Str) (now : Nat) : List File :=
  files.map fun f => if f.path = p then { f with mtime := now } else f

/-- `path::RemoveFile`, path.cc:1072-1088: a missing file is no error. -/
def removeFile (files : List File) (p : Str) : List File := files.filter (fun g => g.path ≠ p)

/-- `DiskDataStore::Put`, disk_data_store.cc:100-110, when everything succeeds. -/
def Disk.put (depth : Nat) (s : Disk) (id : Id) (data : Bytes) (now : Nat) : Disk :=
  { s with files := writeFile s.files ⟨cachePath depth id, data, now⟩, size := s.size + data.length,
           rootExists := true }

/-- `DiskDataStore::Put` when `WriteFile` fails (path.cc:966-975): the file could not be opened
(`none`), or only the first `n` bytes were written. -/
def Disk.putFails (depth : Nat) (s : Disk) (id : Id) (data : Bytes) (now : Nat) : Option Nat → Disk
  | none => s
  | some n =>
    { s with files := writeFile s.files ⟨cachePath depth id, data.take n, now⟩, rootExists := true }

/-- `DiskDataStore::Get` of a whole chunk, disk_data_store.cc:126-146. `none` is NotFound. -/
def Disk.get (depth : Nat) (s : Disk) (id : Id) (now : Nat) : Option Bytes × Disk :=
  match s.find (cachePath depth id) with
  | none => (none, s)
  | some f => (some f.data, { s with files := touch s.files (cachePath depth id) now })

/-- `DiskDataStore::Get` of a range, disk_data_store.cc:112-124, with `path::ReadFile`
(path.cc:848-870). The bytes copied are returned. Size 0 succeeds without looking. -/
def Disk.getRange (depth : Nat) (s : Disk) (id : Id) (offset size now : Nat) : Option Bytes × Disk :=
  if size = 0 then (some [], s)
  else match s.find (cachePath depth id) with
    | none => (none, s)
    | some f =>
      (some ((f.data.drop offset).take size), { s with files := touch s.files (cachePath depth id) now })

/-- `DiskDataStore::Contains`, disk_data_store.cc:215-217. -/
def Disk.contains (depth : Nat) (s : Disk) (id : Id) : Bool := (s.find (cachePath depth id)).isSome

/-- `DiskDataStore::Remove`, disk_data_store.cc:210-213. The cached size is not changed. -/
def Disk.remove (depth : Nat) (s : Disk) (id : Id) : Disk :=
  { s with files := removeFile s.files (cachePath depth id) }

/-- `DiskDataStore::Wipe`, disk_data_store.cc:169-177. -/
def Disk.wipe (s : Disk) (createDirs : Bool) : Disk :=
  { s with files := [], size := 0, rootExists := createDirs }

def totalSize (files : List File) : Nat := (files.map fun f => f.data.length).sum

/-- `DiskDataStore::CollectCacheFiles`, disk_data_store.cc:286-313, when it is not interrupted. -/
def Disk.collect (s : Disk) : Disk :=
  if s.rootExists then { s with size := totalSize s.files, sizeInit := true } else s

inductive Status where
  | ok
  | notFound
  /-- interrupted -/
  | cancelled
  /-- a file could not be removed -/
  | failed
deriving DecidableEq, Repr

/-- Loop of `DiskDataStore::Prune`, disk_data_store.cc:187-199. `listing` is what
`CollectCacheFiles` returned, `fails` tells which removals fail. -/
def pruneLoop (depth : Nat) (fails : Str → Bool) : List File → Disk → List Id → Disk × List Id × Bool
  | [], s, keep => (s, keep, true)
  | f :: fs, s, keep =>
    match parsePath depth f.path with
    | none => pruneLoop depth fails fs s keep
    | some id =>
      if id ∈ keep then pruneLoop depth fails fs s (keep.filter (· ≠ id))
      else if fails (cachePath depth id) then (s, keep, false)
      else
        pruneLoop depth fails fs
          { s.remove depth id with size := s.size - f.data.length } keep

/-- `DiskDataStore::Prune`, disk_data_store.cc:179-208. `order` is the order in which the directory
is enumerated (used if it is a permutation of the files). -/
def Disk.prune (depth : Nat) (s : Disk) (keep : List Id) (order : List File) (cancelled : Bool)
    (fails : Str → Bool) : Disk × Status :=
  if cancelled then (s, .cancelled)
  else
    let listing := if order.isPerm s.files then order else s.files
    match pruneLoop depth fails listing s.collect keep with
    | (s', _, false) => (s', .failed)
    | (s', rest, true) => (s', if rest = [] then .ok else .notFound)

/-- Byte-wise order of paths (`std::string::operator<`). -/
def pathLt : Str → Str → Bool
  | [], [] => false
  | [], _ :: _ => true
  | _ :: _, [] => false
  | a :: as, b :: bs => if a.toNat = b.toNat then pathLt as bs else decide (a.toNat < b.toNat)

/-- The comparison of `Cleanup`, disk_data_store.cc:233-238. -/
def olderThan (a b : File) : Bool :=
  if a.mtime = b.mtime then pathLt a.path b.path else decide (a.mtime < b.mtime)

/-- Loop of `DiskDataStore::Cleanup`, disk_data_store.cc:239-249. `cancelAfter = some k`: the
interrupt is noticed after the k+1-st removal. -/
def cleanupLoop (threshold : Nat) (fails : Str → Bool) : List File → Disk → Option Nat → Disk × Status
  | [], s, _ => (s, .ok)
  | f :: fs, s, cancelAfter =>
    if s.size > threshold then
      if fails f.path then (s, .failed)
      else
        let s' := { s with files := removeFile s.files f.path, size := s.size - f.data.length }
        match cancelAfter with
        | some 0 => (s', .cancelled)
        | some (k + 1) => cleanupLoop threshold fails fs s' (some k)
        | none => cleanupLoop threshold fails fs s' none
    else (s, .ok)

/-- `DiskDataStore::Cleanup`, disk_data_store.cc:219-252. `threshold` is
`capacity_ * fill_factor_` rounded down, `none` if the capacity is negative. -/
def Disk.cleanup (s : Disk) (threshold : Option Nat) (cancelCollect : Bool) (cancelAfter : Option Nat)
    (fails : Str → Bool) : Disk × Status :=
  match threshold with
  | none => (s, .ok)
  | some t =>
    if s.sizeInit && decide (s.size ≤ t) then (s, .ok)
    else if cancelCollect && s.rootExists then (s, .cancelled)
    else
      let files := Util.isort (fun a b => !olderThan b a) (if s.rootExists then s.files else [])
      cleanupLoop t fails files s.collect cancelAfter

/-- `DiskDataStore::List`, disk_data_store.cc:254-268. -/
def Disk.list (depth : Nat) (s : Disk) : List Id × Disk :=
  ((if s.rootExists then s.files else []).filterMap (fun f => parsePath depth f.path), s.collect)

/-- Everything that can happen to a disk store. -/
inductive Op where
  | put (id : Id) (data : Bytes) (now : Nat)
  | putFails (id : Id) (data : Bytes) (now : Nat) (written : Option Nat)
  | get (id : Id) (now : Nat)
  | getRange (id : Id) (offset size now : Nat)
  | remove (id : Id)
  | prune (keep : List Id) (order : List File) (cancelled : Bool) (fails : Str → Bool)
  | wipe (createDirs : Bool)
  | cleanup (threshold : Option Nat) (cancelCollect : Bool) (cancelAfter : Option Nat) (fails : Str → Bool)
  | list

def Disk.step (depth : Nat) (s : Disk) : Op → Disk
  | .put id data now => s.put depth id data now
  | .putFails id data now n => s.putFails depth id data now n
  | .get id now => (s.get depth id now).2
  | .getRange id o n now => (s.getRange depth id o n now).2
  | .remove id => s.remove depth id
  | .prune keep order c fails => (s.prune depth keep order c fails).1
  | .wipe c => s.wipe c
  | .cleanup t c k fails => (s.cleanup t c k fails).1
  | .list => (s.list depth).2

def Disk.run (depth : Nat) (s : Disk) (ops : List Op) : Disk := ops.foldl (Disk.step depth) s

/-! ## In-memory store -/

/-- `MemDataStore::data_lookup_`: an association list with distinct keys stands for the
`unordered_map`; its order is the iteration order. -/
abbrev Mem := List (Id × Bytes)

def Mem.find (m : Mem) (id : Id) : Option Bytes := (m.find? (fun e => e.1 = id)).map Prod.snd

/-- `MemDataStore::Put`, mem_data_store.cc:108-114. -/
def Mem.put (m : Mem) (id : Id) (data : Bytes) : Mem := m.filter (fun e => e.1 ≠ id) ++ [(id, data)]

/-- `MemDataStore::AddData`, mem_data_store.cc:25-29, with the hash as a parameter. -/
def Mem.addData (hash : Bytes → Id) (m : Mem) (data : Bytes) : Mem := m.put (hash data) data

/-- `MemDataStore::Get` of a range, mem_data_store.cc:39-55. -/
def Mem.getRange (m : Mem) (id : Id) (offset size : Nat) : Option Bytes :=
  match m.find id with
  | none => none
  | some d =>
    if offset ≥ d.length then some []
    else some ((d.drop offset).take (min (d.length - offset) size))

/-- `MemDataStore::Get` of a whole chunk, mem_data_store.cc:57-68. -/
def Mem.get (m : Mem) (id : Id) : Option Bytes := m.find id

/-- `MemDataStore::Contains`, mem_data_store.cc:104-106. -/
def Mem.contains (m : Mem) (id : Id) : Bool := (m.find id).isSome

/-- `MemDataStore::Remove`, mem_data_store.cc:116-119. -/
def Mem.remove (m : Mem) (id : Id) : Mem := m.filter (fun e => e.1 ≠ id)

/-- First loop of `MemDataStore::Prune`, mem_data_store.cc:130-135: ids to delete and the ids of
`keep` that were not found. -/
def memPruneLoop : Mem → List Id → List Id × List Id
  | [], keep => ([], keep)
  | (id, _) :: m, keep =>
    if id ∈ keep then memPruneLoop m (keep.filter (· ≠ id))
    else
      let r := memPruneLoop m keep
      (id :: r.1, r.2)

/-- `MemDataStore::Prune`, mem_data_store.cc:126-149. -/
def Mem.prune (m : Mem) (keep : List Id) : Mem × Status :=
  let r := memPruneLoop m keep
  (r.1.foldl Mem.remove m, if r.2 = [] then .ok else .notFound)

inductive MemOp where
  | put (id : Id) (data : Bytes)
  | remove (id : Id)
  | prune (keep : List Id)
  | wipe

/-- One operation, mem_data_store.cc:108-149. -/
def Mem.step (m : Mem) : MemOp → Mem
  | .put id d => m.put id d
  | .remove id => m.remove id
  | .prune keep => (m.prune keep).1
  | .wipe => []

def Mem.run (m : Mem) (ops : List MemOp) : Mem := ops.foldl Mem.step m

end Verif.Store
