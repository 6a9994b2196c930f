import Verif.Manifest.Proto

/-!
# Model of `ManifestBuilder` (manifest/manifest_builder.cc) and of the setters of `AssetBuilder`

Asset lists loaded from the store are kept in `asset_lists_`, a map from content id to a mutable list:
all directories that refer to the same content id share the in-memory list. A pointer to an asset
inside the manifest is modelled by a function that is applied to the asset where it is stored.

Paths are given as lists of names (`path::ToUnix` and `SplitUnixPath` are not modelled here).
-/
namespace Verif.Manifest

/-! ## Serialized sizes -/

/-- Length of a base 128 varint. -/
def varintLen (n : Nat) : Nat := if n < 128 then 1 else varintLen (n / 128) + 1
decreasing_by omega

/-- Size of a length-delimited field with a one byte tag. -/
def lenField (n : Nat) : Nat := 1 + varintLen n + n

/-- A string or bytes field; empty ones are not written. -/
def bytesField (n : Nat) : Nat := if n = 0 then 0 else lenField n

/-- An integer field; zero is not written. -/
def intField (n : Nat) : Nat := if n = 0 then 0 else 1 + varintLen n

/-- `ContentIdProto::ByteSizeLong`, manifest.proto:23-31. -/
def idSize (id : Id) : Nat := bytesField id.length

/-- `ChunkRefProto::ByteSizeLong`, manifest.proto:36-41. -/
def refSize (r : Ref) : Nat := intField r.offset + lenField (idSize r.id)

/-- `ChunkListProto::ByteSizeLong`, manifest.proto:45-52. -/
def chunkListSize (l : List Ref) : Nat := (l.map fun r => lenField (refSize r)).sum

/-- `IndirectChunkListProto::ByteSizeLong`, manifest.proto:58-65. -/
def indirectSize (i : Indirect) : Nat := intField i.offset + lenField (idSize i.listId)

/-- Size of the fields of an asset other than `dir_assets` and `dir_indirect_assets`, manifest.proto:84-118. A
negative `mtime` takes ten bytes. -/
def metaSize (m : Meta) : Nat :=
  bytesField m.name.length + (if m.kind = .unknown then 0 else 2) +
  (if m.mtime = 0 then 0 else if m.mtime < 0 then 11 else intField m.mtime.toNat) +
  intField m.perms + intField m.fileSize + (m.chunks.map fun r => lenField (refSize r)).sum +
  (m.indirect.map fun i => lenField (indirectSize i)).sum + bytesField m.symlink.length +
  (if m.inProgress then 2 else 0)

mutual
/-- `AssetProto::ByteSizeLong`. -/
def assetSize : Asset → Nat
  | .mk m cs ids => metaSize m + assetListSize cs + (ids.map fun i => lenField (idSize i)).sum

/-- `AssetListProto::ByteSizeLong`; also the size of the field `dir_assets`. -/
def assetListSize : List Asset → Nat
  | [] => 0
  | a :: as => lenField (assetSize a) + assetListSize as
end

/-- `kRepeatedProtoFieldOverhead`, manifest_builder.h:267. -/
def overhead : Nat := 2

/-! ## The store -/

/-- Protos written by the builder. -/
inductive Stored where
  | chunks (l : List Ref)
  | assets (l : List Asset)
  | manifest (root : Asset)
deriving DecidableEq

/-- Everything the builder does not decide itself. -/
structure Cfg where
  /-- `avg_chunk_size` of the manifest -/
  maxSize : Nat
  /-- the content id of the serialized proto -/
  hash : Stored → Id
  /-- the result of `std::sort` in `SortByProtoSizeDesc`, manifest_builder.cc:458-464 -/
  sort : List Asset → List Asset
  /-- the modification time given to new assets, manifest_builder.cc:346 -/
  now : Int

/-- `ManifestBuilder`, manifest_builder.h:269-293: the manifest's root directory, `asset_lists_`, and the protos
in the data store in the order in which they were written. The byte counts are not modelled. -/
structure Builder where
  root : Asset
  lists : List (Id × List Asset) := []
  store : List Stored := []

abbrev Lists := List (Id × List Asset)

def Lists.find (ls : Lists) (id : Id) : Option (List Asset) := (List.find? (fun e => e.1 = id) ls).map Prod.snd

def Lists.erase (ls : Lists) (id : Id) : Lists := List.filter (fun e => e.1 ≠ id) ls

/-- `asset_lists_[id] = list`. -/
def Lists.set (ls : Lists) (id : Id) (l : List Asset) : Lists := (id, l) :: ls.erase id

/-- `data_store_->GetProto(id, asset_list)`. -/
def findAssets (hash : Stored → Id) (store : List Stored) (id : Id) : Option (List Asset) :=
  store.findSome? fun p => match p with
    | .assets l => if hash p = id then some l else none
    | _ => none

/-- `data_store_->GetProto(id, chunk_list)`. -/
def findChunks (hash : Stored → Id) (store : List Stored) (id : Id) : Option (List Ref) :=
  store.findSome? fun p => match p with
    | .chunks l => if hash p = id then some l else none
    | _ => none

/-- `data_store_->GetProto(id, manifest)`. -/
def findManifest (hash : Stored → Id) (store : List Stored) (id : Id) : Option Asset :=
  store.findSome? fun p => match p with
    | .manifest r => if hash p = id then some r else none
    | _ => none

/-- The part of the builder's state that flushing a directory changes. `WriteProto`, manifest_builder.cc:620-629, appends to `store`. -/
structure Work where
  lists : Lists
  store : List Stored

/-! ## Size limits -/

section
variable (cfg : Cfg)

/-- First loop of `EnforceFileProtoSize`, manifest_builder.cc:530-541: chunks are taken from the end while the
estimate is over the limit. The direct chunks are given in reverse order. `full` is the accurate size of the
file asset with the given direct chunks. Returns the remaining direct chunks, in reverse order, and the
removed ones, in order. -/
def takeChunks (limit : Nat) (full : List Ref → Nat) : (rev : List Ref) → (size : Nat) → (over : List Ref) → List Ref × List Ref
  | [], _, over => ([], over)
  | r :: rev, size, over =>
    if size > limit then
      let size := size - (refSize r + overhead)
      let size := if size ≤ limit then full rev.reverse else size
      takeChunks limit full rev size (r :: over)
    else (r :: rev, over)

/-- Second loop of `EnforceFileProtoSize` and `WriteBackChunkList`, manifest_builder.cc:543-580, 610-618: `base` is
`chunk_list_offset`, `cur` the chunks of the current list. Returns the entries added to the file and the lists
written. -/
def packChunks (hash : Stored → Id) (limit : Nat) : (over : List Ref) → (base : Nat) → (cur : List Ref) → (size : Nat) →
    List Indirect × List (List Ref)
  | [], base, cur, _ => ([⟨base, hash (.chunks cur)⟩], [cur])
  | r :: over, base, cur, size =>
    let rel : Ref := { r with offset := r.offset - base }
    let n := refSize rel + overhead
    if size > 0 ∧ size + n > limit then
      let rel : Ref := { r with offset := 0 }
      let n := refSize rel + overhead
      let size := if n > limit then chunkListSize [rel] else n
      let (is, ls) := packChunks hash limit over r.offset [rel] size
      (⟨base, hash (.chunks cur)⟩ :: is, cur :: ls)
    else
      let cur := cur ++ [rel]
      let size := size + n
      let size := if size > limit then chunkListSize cur else size
      packChunks hash limit over base cur size

/-- `EnforceFileProtoSize`, manifest_builder.cc:515-581. `none` is the error for a file that has indirect chunk
lists already. -/
def enforceFile (limit : Nat) (file : Asset) (w : Work) : Option (Asset × Work) :=
  let m := file.info
  if limit = 0 ∨ m.chunks.length ≤ 1 then some (file, w)
  else if m.indirect ≠ [] then none
  else
    let full := fun l => assetSize (.mk { m with chunks := l } file.children file.indirect)
    let (rev, over) := takeChunks limit full m.chunks.reverse (assetSize file) []
    match over with
    | [] => some (file, w)
    | r :: _ =>
      let (is, ls) := packChunks cfg.hash cfg.maxSize over r.offset [] 0
      some (.mk { m with chunks := rev.reverse, indirect := is } file.children file.indirect,
        { w with store := w.store ++ ls.map .chunks })

/-- Loop over the large files in `EnforceDirProtoSize`, manifest_builder.cc:478-493. -/
def enforceFiles (limit : Nat) : (size : Nat) → List Asset → Work → Option (List Asset × Nat × Work)
  | size, [], w => some ([], size, w)
  | size, a :: as, w =>
    if size ≤ cfg.maxSize ∨ assetSize a ≤ limit then some (a :: as, size, w)
    else if a.info.kind ≠ .file then
      (enforceFiles limit size as w).map fun r => (a :: r.1, r.2)
    else
      match enforceFile cfg limit a w with
      | none => none
      | some (b, w) => (enforceFiles limit (size + assetSize b - assetSize a) as w).map fun r => (b :: r.1, r.2)

/-- Loop that moves assets to the overflow list, manifest_builder.cc:494-502 and 588-598: the assets are given in
reverse order, `full` is the accurate size with the given assets. -/
def takeAssets (full : List Asset → Nat) : (rev : List Asset) → (size : Nat) → (over : List Asset) → List Asset × List Asset
  | [], _, over => ([], over)
  | a :: rev, size, over =>
    if size > cfg.maxSize then
      let size := size - (assetSize a + overhead)
      let size := if size ≤ cfg.maxSize then full rev.reverse else size
      takeAssets full rev size (over ++ [a])
    else (a :: rev, over)

/-- `EnforceDirProtoSize`, manifest_builder.cc:466-513. -/
def enforceDir (dir : Asset) (over : List Asset) (w : Work) : Option (Asset × List Asset × Work) :=
  if cfg.maxSize = 0 ∨ dir.info.kind ≠ .directory ∨ assetSize dir ≤ cfg.maxSize then some (dir, over, w)
  else
    let limit := cfg.maxSize / 16
    let files := if limit = 0 then some (cfg.sort dir.children, assetSize dir, w)
      else enforceFiles cfg limit (assetSize dir) (cfg.sort dir.children) w
    match files with
    | none => none
    | some (cs, size, w) =>
      let full := fun l => assetSize (.mk dir.info l dir.indirect)
      let (rev, over) := takeAssets cfg full cs.reverse size over
      some (.mk dir.info rev.reverse dir.indirect, over, w)

/-- `EnforceAssetListProtoSize`, manifest_builder.cc:583-600. (The loop there does not check whether the list is
empty.) -/
def enforceList (l : List Asset) (over : List Asset) : List Asset × List Asset :=
  if cfg.maxSize = 0 then (l, over)
  else
    let (rev, over) := takeAssets cfg assetListSize l.reverse (assetListSize l) over
    (rev.reverse, over)

/-- Loop of `AppendAllocatedIndirectAssets`, manifest_builder.cc:666-697, with `WriteBackAssetList`, 602-608: the
overflow assets in reverse order, the current list and its estimated size. Returns the lists, the last of them
the final one. -/
def packAssets : (rev : List Asset) → (cur : List Asset) → (size : Nat) → List (List Asset)
  | [], cur, _ => [cur]
  | a :: rev, cur, size =>
    let n := assetSize a + overhead
    if cfg.maxSize > 0 ∧ size > 0 ∧ size + n > cfg.maxSize then cur :: packAssets rev [a] n
    else packAssets rev (cur ++ [a]) (size + n)

/-- `WriteBackAssetList` for a number of lists, manifest_builder.cc:602-608. -/
def writeBack : List (List Asset) → Work → Work
  | [], w => w
  | l :: ls, w => writeBack ls { lists := w.lists.set (cfg.hash (.assets l)) l, store := w.store ++ [.assets l] }

/-- `GetAssetList`, manifest_builder.cc:351-363. -/
def getList (w : Work) (id : Id) : Option (List Asset × Work) :=
  match w.lists.find id with
  | some l => some (l, w)
  | none => match findAssets cfg.hash w.store id with
    | none => none
    | some l => some (l, { w with lists := w.lists.set id l })

/-- `AppendAllocatedIndirectAssets`, manifest_builder.cc:631-698. -/
def appendOverflow (dir : Asset) (over : List Asset) (w : Work) : Option (Asset × Work) :=
  if over = [] then some (dir, w)
  else
    let start : Option (List Id × List Asset × Nat × Work) :=
      match dir.indirect.getLast? with
      | some id =>
        match getList cfg w id with
        | none => none
        | some (l, w) => some (dir.indirect.dropLast, l, assetListSize l, { w with lists := w.lists.erase id })
      | none => some ([], [], 0, w)
    match start with
    | none => none
    | some (ids, l, size, w) =>
      let ls := packAssets cfg over.reverse l size
      some (.mk dir.info dir.children (ids ++ ls.map fun l => cfg.hash (.assets l)), writeBack cfg ls w)

/-! ## Flushing -/

/-- One indirect list in `FlushDir`, manifest_builder.cc:411-440, after its assets were flushed (`l`): the new id
unless the list became empty, the overflow and the new state. -/
def flushOneList (id : Id) (l : List Asset) (over : List Asset) (w : Work) : Option Id × List Asset × Work :=
  let r := enforceList cfg l over
  if r.1 = [] then (none, r.2, { w with lists := w.lists.set id r.1 })
  else
    let new := cfg.hash (.assets r.1)
    (some new, r.2, { lists := (w.lists.erase id).set new r.1, store := w.store ++ [.assets r.1] })

mutual
/-- `FlushDir`, manifest_builder.cc:399-447. The recursion also goes through the lists in memory, so it is bounded by
`fuel`; `none` is an error (or too little fuel). -/
def flushDir : (fuel : Nat) → Asset → Work → Option (Asset × Work)
  | 0, _, _ => none
  | fuel + 1, dir, w =>
    match flushList fuel dir.children w with
    | none => none
    | some (cs, w) =>
      match flushIndirect fuel dir.indirect [] w with
      | none => none
      | some (ids, over, w) =>
        match enforceDir cfg (.mk dir.info cs ids) over w with
        | none => none
        | some (dir, over, w) => appendOverflow cfg dir over w

/-- `FlushAssetList`, manifest_builder.cc:449-456. -/
def flushList : (fuel : Nat) → List Asset → Work → Option (List Asset × Work)
  | 0, _, _ => none
  | _ + 1, [], w => some ([], w)
  | fuel + 1, a :: as, w =>
    match (if a.info.kind = .directory then flushDir fuel a w else some (a, w)) with
    | none => none
    | some (b, w) => match flushList fuel as w with
      | none => none
      | some (bs, w) => some (b :: bs, w)

/-- Loop over the indirect lists in `FlushDir`, manifest_builder.cc:408-441: returns the new ids and the overflow. -/
def flushIndirect : (fuel : Nat) → List Id → List Asset → Work → Option (List Id × List Asset × Work)
  | 0, _, _, _ => none
  | _ + 1, [], over, w => some ([], over, w)
  | fuel + 1, id :: ids, over, w =>
    match w.lists.find id with
    | none => match flushIndirect fuel ids over w with
      | none => none
      | some (ids', over, w) => some (id :: ids', over, w)
    | some l => match flushList fuel l w with
      | none => none
      | some (l, w) =>
        let (new, over, w) := flushOneList cfg id l over w
        match flushIndirect fuel ids over w with
        | none => none
        | some (ids', over, w) => some (new.toList ++ ids', over, w)
end

/-- `Flush`, manifest_builder.cc:700-710: the id of the manifest. -/
def flush (fuel : Nat) (b : Builder) : Option (Id × Builder) :=
  match flushDir cfg fuel b.root ⟨b.lists, b.store⟩ with
  | none => none
  | some (root, w) =>
    some (cfg.hash (.manifest root), { root := root, lists := w.lists, store := w.store ++ [.manifest root] })

/-- `LoadManifest`, manifest_builder.cc:64-69, with `Reset`. -/
def loadManifest (store : List Stored) (id : Id) : Option Builder :=
  (findManifest cfg.hash store id).map fun root => { root := root, store := store }

/-! ## Finding, creating and deleting assets -/

inductive Err where
  | notFound | invalid | exists_ | io
deriving DecidableEq, Repr

/-- `InitNewAsset`, manifest_builder.cc:340-349. -/
def newAsset (name : Name) (kind : Kind) : Asset :=
  .mk { name := name, kind := kind, mtime := cfg.now, perms := if kind = .directory then 0o755 else 0o644 } [] []

inductive CreateMode where
  | noCreate | create | forceCreate
deriving DecidableEq, Repr

/-- Apply `f` to the first asset with the given name, `FindMutableAssetInList`, manifest_builder.cc:274-280. -/
def inList {σ ε : Type} (name : Name) (f : Asset → σ → Except ε (Asset × σ)) : List Asset → σ → Option (Except ε (List Asset × σ))
  | [], _ => none
  | a :: as, s =>
    if a.name = name then
      some (match f a s with
        | .error e => .error e
        | .ok (b, s) => .ok (b :: as, s))
    else (inList name f as s).map fun r => match r with
      | .error e => .error e
      | .ok (bs, s) => .ok (a :: bs, s)

/-- Search the indirect lists in order and apply `f` to the first asset with the given name,
manifest_builder.cc:205-225, 255-269. The outer `none` means that there is none (all lists are loaded then). -/
def inIndirect {α : Type} (name : Name) (f : Asset → Work × Option α → Except Err (Asset × Work × Option α)) :
    List Id → Work → Except Err (Option α × Work × Bool)
  | [], w => .ok (none, w, false)
  | id :: ids, w =>
    match getList cfg w id with
    | none => .error .io
    | some (l, w) =>
      match inList name f l (w, none) with
      | some (.error e) => .error e
      | some (.ok (l, w, a)) => .ok (a, { w with lists := w.lists.set id l }, true)
      | none => inIndirect name f ids w

/-- Apply `f` to the entry with the given name: first the direct entries, then the indirect lists. -/
def inDir {α : Type} (name : Name) (f : Asset → Work × Option α → Except Err (Asset × Work × Option α))
    (dir : Asset) (w : Work) : Except Err (Asset × Work × Option α × Bool) :=
  match inList name f dir.children (w, none) with
  | some (.error e) => .error e
  | some (.ok (cs, w, a)) => .ok (.mk dir.info cs dir.indirect, w, a, true)
  | none =>
    match inIndirect cfg name f dir.indirect w with
    | .error e => .error e
    | .ok (a, w, found) => .ok (dir, w, a, found)

/-- `FindOrCreateDirPathRec`, manifest_builder.cc:185-236, applying `f` to the directory found. -/
def inDirPath {α : Type} (mode : CreateMode) (f : Asset → Work → Except Err (Asset × Work × Option α)) :
    List Name → Asset → Work → Except Err (Asset × Work × Option α)
  | [], dir, w => f dir w
  | name :: path, dir, w =>
    let g : Asset → Work × Option α → Except Err (Asset × Work × Option α) := fun a s =>
      if a.info.kind ≠ .directory ∧ mode ≠ .forceCreate then .error .invalid
      else
        let a := if a.info.kind ≠ .directory then newAsset cfg a.name .directory else a
        inDirPath mode f path a s.1
    match inDir cfg name g dir w with
    | .error e => .error e
    | .ok (dir, w, r, true) => .ok (dir, w, r)
    | .ok (dir, w, _, false) =>
      if mode = .noCreate then .error .notFound
      else match inDirPath mode f path (newAsset cfg name .directory) w with
        | .error e => .error e
        | .ok (child, w, r) => .ok (.mk dir.info (dir.children ++ [child]) dir.indirect, w, r)

/-- `DeleteAssetFromList`, manifest_builder.cc:324-338: swap with the last, then remove the last. -/
def deleteFromList (name : Name) (l : List Asset) : Option (List Asset) :=
  match l.findIdx? fun a => a.name = name with
  | none => none
  | some i => match l.getLast? with
    | none => none
    | some z => some ((l.set i z).dropLast)

/-- Loop of `DeleteAssetFromDir`, manifest_builder.cc:313-322. -/
def deleteFromIndirect (name : Name) : List Id → Work → Except Err Work
  | [], w => .ok w
  | id :: ids, w =>
    match getList cfg w id with
    | none => .error .io
    | some (l, w) =>
      match deleteFromList name l with
      | some l => .ok { w with lists := w.lists.set id l }
      | none => deleteFromIndirect name ids w

/-- `DeleteAssetFromDir`, manifest_builder.cc:300-322. -/
def deleteFromDir (name : Name) (dir : Asset) (w : Work) : Except Err (Asset × Work × Option Unit) :=
  if dir.info.kind ≠ .directory then .error .invalid
  else match deleteFromList name dir.children with
    | some cs => .ok (.mk dir.info cs dir.indirect, w, none)
    | none => match deleteFromIndirect cfg name dir.indirect w with
      | .error e => .error e
      | .ok w => .ok (dir, w, none)

/-- `DeleteAsset(path)`, manifest_builder.cc:147-172; the path is split into directory and name. -/
def deleteAsset (path : List Name) (name : Name) (b : Builder) : Except Err Builder :=
  match inDirPath cfg .noCreate (deleteFromDir cfg name) path b.root ⟨b.lists, b.store⟩ with
  | .error .notFound => .ok b
  | .error .invalid => .ok b
  | .error e => .error e
  | .ok (root, w, _) => .ok { root := root, lists := w.lists, store := w.store }

/-- The part of `GetOrCreateAsset` after the directory is found, manifest_builder.cc:111-144, for a known type, followed by
the use of the returned `AssetBuilder`, modelled as applying `f` to the asset. -/
def inAsset (kind : Kind) (force : Bool) (name : Name) (f : Asset → Asset) (dir : Asset) (w : Work) :
    Except Err (Asset × Work × Option Unit) :=
  if dir.info.kind ≠ .directory then .error .invalid
  else
    let g : Asset → Work × Option Unit → Except Err (Asset × Work × Option Unit) := fun a s =>
      if a.info.kind = kind then .ok (f a, s.1, some ()) else .ok (a, s.1, none)
    match inDir cfg name g dir w with
    | .error e => .error e
    | .ok (dir, w, some (), _) => .ok (dir, w, some ())
    | .ok (dir, w, none, true) =>
      if force then
        match deleteFromDir cfg name dir w with
        | .error e => .error e
        | .ok (dir, w, _) => .ok (.mk dir.info (dir.children ++ [f (newAsset cfg name kind)]) dir.indirect, w, some ())
      else .error .exists_
    | .ok (dir, w, none, false) =>
      .ok (.mk dir.info (dir.children ++ [f (newAsset cfg name kind)]) dir.indirect, w, some ())

/-- `GetOrCreateAsset(path, type, force_create)`, manifest_builder.cc:81-145, and changing the asset with `f`. -/
def editAsset (kind : Kind) (force : Bool) (path : List Name) (name : Name) (f : Asset → Asset) (b : Builder) : Except Err Builder :=
  match inDirPath cfg (if force then .forceCreate else .create) (inAsset cfg kind force name f) path b.root ⟨b.lists, b.store⟩ with
  | .error e => .error e
  | .ok (root, w, _) => .ok { root := root, lists := w.lists, store := w.store }

end

end Verif.Manifest
