import Verif.Manifest.MultiDir
import Verif.Updater.Scan

/-! # C81: an update makes the manifest equal to the source directory

`ManifestUpdater::UpdateAll` and `Update`, manifest/manifest_updater.cc:438-904, with the builder, the store and the tasks: the manifest of the
previous update is loaded, the source directory is scanned, files are chunked, and the manifest is saved, also in between. -/
namespace Verif.Updater
open Verif.Manifest

/-! ### The source directory -/

/-- What is in the source directory. It is assumed not to change during an update. -/
inductive Node where
  | file (mtime : Int) (content : List UInt8)
  | dir (mtime : Int) (entries : List (Name × Node))

/-- What is at a path. -/
def Node.at : Node → List Name → Option Node
  | x, [] => some x
  | .file _ _, _ :: _ => none
  | .dir _ es, n :: p => (es.find? fun e => e.1 = n).bind fun e => e.2.at p

def Node.kind : Node → Kind
  | .file _ _ => .file
  | .dir _ _ => .directory

def Node.mtime : Node → Int
  | .file t _ => t
  | .dir t _ => t

/-- The size that `SearchFiles` reports and `GetAllSrcAssets` stores, manifest_updater.cc:63. -/
def Node.size : Node → Nat
  | .file _ c => c.length
  | .dir _ _ => 0

/-- `AssetInfo` for an entry, manifest_updater.cc:56-66. -/
def Node.info (n : Name) (x : Node) : Info := ⟨n, x.kind, x.mtime, x.size⟩

/-- No directory has two entries with the same name. -/
def Node.Proper (x : Node) : Prop := ∀ p t es, x.at p = some (.dir t es) → (es.map Prod.fst).Nodup

/-! ### Model -/

/-- Everything outside of the updater: the builder's parameters, the chunker, the content id of a chunk and the size of the read buffer,
manifest_updater.cc:813-817. -/
structure Env where
  cfg : Cfg
  chunk : List UInt8 → List (List UInt8)
  cid : List UInt8 → Id
  buf : Nat

/-- `Util::IsExecutable`, common/util.cc:150-163. -/
def isExecutable (data : List UInt8) : Bool :=
  4 ≤ data.length && (data.take 4 == [0x7f, 0x45, 0x4c, 0x46] || data.take 3 == [35, 33, 47] || data.take 2 == [0x4d, 0x5a])

/-- The chunk handler of `FileChunkerTask`, manifest_updater.cc:191-197: chunks with their offsets. -/
def refsFrom (cid : List UInt8 → Id) : Nat → List (List UInt8) → List Ref
  | _, [] => []
  | off, c :: cs => ⟨off, cid c⟩ :: refsFrom cid (off + c.length) cs

/-- `processed_bytes_` at the end. -/
def processed (cs : List (List UInt8)) : Nat := (cs.map List.length).sum

/-- `HandleFileChunkerResult`, manifest_updater.cc:704-738, for a task that succeeded: what is set in the asset. `IsExecutable` is given the first
block that was read, 200-215. -/
def chunked (P : Env) (c : List UInt8) (m : Meta) : Meta :=
  { m with inProgress := false, chunks := refsFrom P.cid 0 (P.chunk c), indirect := [], fileSize := processed (P.chunk c),
           perms := if isExecutable (c.take P.buf) then 0o755 else 0o644 }

/-- The setters of `ApplyOperations`, on the fields. -/
def setMeta (i : Info) (m : Meta) : Meta := (setters true i (.mk m [] [])).info

/-- Assets that are to be processed: `queue_` and the tasks in the thread pool, in any order, with their type. -/
abbrev Todo := List (List Name × Kind)

section
variable (cfg : Cfg)

/-- `GetOrCreateAsset(path, DIRECTORY, true)` for a directory that is to be scanned, manifest_updater.cc:593-595; an empty path gives the root
directory, manifest_builder.cc:103-108. -/
def findDir (p : List Name) (b : Builder) : Except Err Builder :=
  match p.getLast? with
  | none => .ok b
  | some n => editAsset cfg .directory true p.dropLast n (onInfo fun m => m) b

/-- Lists that cannot be read are removed, manifest_updater.cc:334-342. -/
def dropIds (bad : List Id) (d : Manifest.Asset) : Manifest.Asset := .mk d.info d.children (d.indirect.filter fun id => id ∉ bad)

/-- First loop of `ApplyOperations`, manifest_updater.cc:626-642. -/
def deleteAll (p : List Name) : List Oper → Builder → Except Err Builder
  | [], b => .ok b
  | .delete i :: ops, b =>
    match deleteAsset cfg p i.name b with
    | .error e => .error e
    | .ok b => deleteAll p ops b
  | _ :: ops, b => deleteAll p ops b

/-- Todo an asset that is in progress, manifest_updater.cc:694-699. -/
def toQueueAt (p : List Name) (i : Info) : Todo :=
  if i.kind = .file ∨ i.kind = .directory then [(p ++ [i.name], i.kind)] else []

/-- Second loop of `ApplyOperations`, manifest_updater.cc:644-700, with a parent directory. -/
def addAll (p : List Name) : List Oper → Builder → Todo → Except Err (Builder × Todo)
  | [], b, q => .ok (b, q)
  | .add i :: ops, b, q =>
    match atDir cfg p (appendTo (setMeta i { name := i.name, kind := i.kind })) b with
    | .error e => .error e
    | .ok b => addAll p ops b (q ++ toQueueAt p i)
  | .update i :: ops, b, q =>
    match editAsset cfg i.kind true p i.name (setters true i) b with
    | .error e => .error e
    | .ok b => addAll p ops b (q ++ toQueueAt p i)
  | _ :: ops, b, q => addAll p ops b q

/-- A directory is scanned: `QueueTasks`, manifest_updater.cc:590-608, `DirScannerTask`, 236-248 and 274-395, and
`HandleDirScannerResult`, 740-763. This is one step: while the task runs, nothing in this directory is changed, as the manifest is not flushed then
and all other tasks concern other directories. Returns the assets to be queued. -/
def scanDir (listing : List Info) (p : List Name) (b : Builder) : Except Err (Builder × Todo) :=
  match findDir cfg p b with
  | .error e => .error e
  | .ok b =>
    match dirAt cfg.hash ⟨b.lists, b.store⟩ p b.root with
    | none => .error .notFound
    | some d =>
      let bad := d.indirect.filter fun id => (findAssets cfg.hash b.store id).isNone
      let ops := (scan cfg listing d b.store).2
      match atDir cfg p (dropIds bad) b with
      | .error e => .error e
      | .ok b => match deleteAll cfg p ops b with
        | .error e => .error e
        | .ok b => match addAll cfg p ops b [] with
          | .error e => .error e
          | .ok (b, q) => match atDir cfg p (onInfo (setInProgress false)) b with
            | .error e => .error e
            | .ok b => .ok (b, q)

/-- `UpdateAll` and the start of `Update`, manifest_updater.cc:446-454, 803-804: the root directory is set to be scanned. -/
def begin_ (mtime : Int) (b : Builder) : Except Err Builder := atDir cfg [] (onInfo (setMeta ⟨[], .directory, mtime, 0⟩)) b

end

/-- `Run P src b0 b q`: an update with the source directory `src` started with the builder `b0`, and now the builder is `b` and the assets `q` remain to
be processed. The tasks may finish in any order, the entries of a directory may be listed in any order, and the manifest may be flushed and pushed
at any time (`FlushAndPushManifest`, manifest_updater.cc:506-519, 820-838). -/
inductive Run (P : Env) (src : Node) (b0 : Builder) : Builder → Todo → Prop where
  | start {b t es} : src = .dir t es → begin_ P.cfg t b0 = .ok b → Run P src b0 b [([], .directory)]
  | scan {b b' q new t es listing} (p : List Name) : Run P src b0 b q → (p, .directory) ∈ q → src.at p = some (.dir t es) →
      listing.Perm (es.map fun e => e.2.info e.1) → scanDir P.cfg listing p b = .ok (b', new) → Run P src b0 b' (q.erase (p, .directory) ++ new)
  | file {b b' q t c} (p : List Name) (n : Name) : Run P src b0 b q → (p ++ [n], .file) ∈ q → src.at (p ++ [n]) = some (.file t c) →
      editAsset P.cfg .file false p n (onInfo (chunked P c)) b = .ok b' → Run P src b0 b' (q.erase (p ++ [n], .file))
  | push {b b' q} (fuel : Nat) (id : Id) : Run P src b0 b q → flush P.cfg fuel b = some (id, b') → Run P src b0 b' q

/-- `Updates P srcs S id`: the manifest was updated several times, from an empty one, with the source directories `srcs` (the last is the
first in the list). Now the store is `S`, and `id` is stored under `GetManifestStoreId()`. Chunks are not removed from the store. -/
inductive Updates (P : Env) : List Node → List Stored → Id → Prop where
  | first {src b b' id} (S0 : List Stored) (fuel : Nat) : Run P src { root := newAsset P.cfg [] .directory, store := S0 } b [] →
      flush P.cfg fuel b = some (id, b') → Updates P [src] b'.store id
  | next {src src0 srcs S id0 b0 b b' id} (fuel : Nat) : Updates P (src0 :: srcs) S id0 → loadManifest P.cfg S id0 = some b0 → Run P src b0 b [] →
      flush P.cfg fuel b = some (id, b') → Updates P (src :: src0 :: srcs) b'.store id

/-! ### Specification -/

/-- The fields that a file or directory should have in the manifest. -/
def wantMeta (P : Env) (n : Name) : Node → Meta
  | .file t c => { name := n, kind := .file, mtime := t, perms := if isExecutable (c.take P.buf) then 0o755 else 0o644, fileSize := c.length,
                   chunks := refsFrom P.cid 0 (P.chunk c) }
  | .dir t _ => { name := n, kind := .directory, mtime := t, perms := 0o755 }

/-- The manifest that the source directory should have. -/
def want (P : Env) (src : Node) : Tree := fun p => (src.at p).map (wantMeta P (p.getLastD []))

/-- Two versions of the source directory such that changes can be seen: a file with the same time and size as before has the same content. -/
def Detects (src0 src : Node) : Prop :=
  ∀ p t c0 c, src0.at p = some (.file t c0) → src.at p = some (.file t c) → c0.length = c.length → c0 = c

/-- No two directories have an entry with the same name, kind, time and size. -/
def NoTwinEntries (A B : Node) : Prop :=
  ∀ p q n x y, A.at (p ++ [n]) = some x → B.at (q ++ [n]) = some y → x.kind = y.kind → x.mtime = y.mtime → x.size = y.size → p = q

/-- Each asset of the list could be an entry of the directory `p` in one of these versions of the source directory: an entry there has its name,
kind, time and size. -/
def FitsIn (vs : List Node) (p : List Name) (l : List Asset) : Prop :=
  ∀ e ∈ l, ∃ v ∈ vs, ∃ x, v.at (p ++ [e.name]) = some x ∧ x.kind = e.info.kind ∧ x.mtime = e.info.mtime ∧ x.size = e.info.fileSize

/-- No asset list in the store could be one of two different directories. -/
def NoSharedList (S : List Stored) (vs : List Node) : Prop :=
  ∀ l, .assets l ∈ S → l ≠ [] → ∀ p q, FitsIn vs p l → FitsIn vs q l → p = q

/-- The assumptions on the versions of the source directory and on the asset lists in the store. -/
def Versions (S : List Stored) : List Node → Prop
  | [] => True
  | [s] => s.Proper ∧ NoSharedList S [s]
  | s :: s0 :: r => s.Proper ∧ NoSharedList S [s, s0] ∧ Detects s0 s ∧ Versions S (s0 :: r)

/-- If no two directories have entries with the same name, kind, time and size, then no list can be one of two directories. -/
theorem noSharedList_of_noTwins {S : List Stored} {vs : List Node} (h : ∀ v ∈ vs, ∀ w ∈ vs, NoTwinEntries v w) : NoSharedList S vs := by
  intro l _ hne p q hp hq
  cases l with
  | nil => exact absurd rfl hne
  | cons e l =>
    obtain ⟨v, hv, x, hx, k1, k2, k3⟩ := hp e (by simp)
    obtain ⟨w, hw, y, hy, l1, l2, l3⟩ := hq e (by simp)
    exact h v hv w hw p q e.name x y hx hy (k1.trans l1.symm) (k2.trans l2.symm) (k3.trans l3.symm)

/-- The same if no directory has ever been so large that it had to be split. -/
theorem noSharedList_of_no_lists {S : List Stored} {vs : List Node} (h : ∀ l, .assets l ∉ S) : NoSharedList S vs := fun l hl => absurd hl (h l)

/-! ### Trees -/

section
variable {F : Tree} {new : Name → Kind → Meta}

/-- All parents of assets are directories. -/
def Closed (F : Tree) : Prop := ∀ p q, q ≠ [] → F (p ++ q) ≠ none → F.isDir p

theorem Closed.below (h : Closed F) {p q : List Name} (hq : q ≠ []) (hp : ¬ F.isDir p) : F (p ++ q) = none :=
  Decidable.byContradiction fun hh => hp (h p q hq hh)

theorem Closed.prefixes (h : Closed F) {t : List Name} (ht : F t ≠ none) {q : List Name} (hq : q <+: t) (hne : q ≠ t) : F.isDir q := by
  obtain ⟨r, rfl⟩ := hq
  exact h q r (by rintro rfl; simp at hne) ht

theorem put_in (h : Closed F) {p : List Name} (hp : F.isDir p) (n : Name) (kind : Kind) (g : Meta → Meta) (q : List Name) :
    F.put new (p ++ [n]) kind g q =
      if q = p ++ [n] then some (g (if F.isKind (p ++ [n]) kind then (F (p ++ [n])).getD default else new n kind))
      else if p ++ [n] <+: q then (if F.isKind (p ++ [n]) kind then F q else none) else F q := by
  unfold Tree.put
  rw [show (p ++ [n]).getLastD [] = n by simp]
  split
  · rfl
  split
  · rfl
  rename_i hne hnp
  split
  · rename_i hpre
    rw [if_pos]
    rcases List.prefix_concat_iff.mp hpre with h1 | h1
    · exact absurd h1 hne
    · obtain ⟨r, rfl⟩ := h1
      by_cases hr : r = []
      · subst hr; simpa using hp
      · obtain ⟨m, hm, -⟩ := hp
        exact h q r hr (by rw [hm]; simp)
  · rfl

theorem put_same (h : Closed F) {p : List Name} {n : Name} {kind : Kind} (hk : F.isKind (p ++ [n]) kind) : F.put new (p ++ [n]) kind (fun m => m) = F := by
  have hd : F.isDir p := by
    obtain ⟨m, hm, -⟩ := hk
    exact h p [n] (by simp) (by rw [hm]; simp)
  funext q
  rw [put_in h hd]
  simp only [if_pos hk]
  split
  · rename_i e
    obtain ⟨m, hm, -⟩ := hk
    rw [e, hm]; rfl
  · split <;> rfl

end

theorem inv_closed {cfg : Cfg} {S : List Stored} {b : Builder} {G F : Tree} {x : Part} (hx : Inv cfg.hash S b G F x) : Closed F := fun p q hq hne =>
  Decidable.byContradiction fun hd => hne (hx.below hd hq)

/-! ### The operations -/

section
variable {cfg : Cfg} {S : List Stored} {b : Builder} {G F : Tree} {x : Part}

theorem setters_eq (i : Info) : setters true i = onInfo (setMeta i) := by
  funext a; cases a; rfl

theorem setMeta_change (i : Info) : Change (setMeta i) := by
  unfold setMeta setters
  rcases hk : i.kind with _ | _ | _ | _
  · exact ⟨fun _ => rfl, fun _ => rfl, .inl fun _ _ _ => rfl⟩
  · exact ⟨fun _ => rfl, fun _ => rfl, .inr ⟨[], .nil, fun _ => ⟨⟨rfl, rfl⟩, fun _ _ => rfl⟩⟩⟩
  · exact ⟨fun _ => rfl, fun _ => rfl, .inl fun _ _ _ => rfl⟩
  · exact ⟨fun _ => rfl, fun _ => rfl, .inl fun _ _ _ => rfl⟩

theorem refsFrom_offset (cid : List UInt8 → Id) (off : Nat) (cs : List (List UInt8)) : ∀ r ∈ refsFrom cid off cs, off ≤ r.offset := by
  induction cs generalizing off with
  | nil => intro r hr; cases hr
  | cons c cs ih =>
    intro r hr
    rcases List.mem_cons.mp hr with rfl | hr
    · exact Nat.le_refl _
    · exact Nat.le_trans (Nat.le_add_right ..) (ih _ r hr)

theorem refsFrom_sorted (cid : List UInt8 → Id) (off : Nat) (cs : List (List UInt8)) :
    (refsFrom cid off cs).Pairwise fun a b => a.offset ≤ b.offset := by
  induction cs generalizing off with
  | nil => exact .nil
  | cons c cs ih => exact List.pairwise_cons.mpr ⟨fun r hr => Nat.le_trans (Nat.le_add_right ..) (refsFrom_offset cid _ cs r hr), ih _⟩

theorem chunked_change (P : Env) (c : List UInt8) : Change (chunked P c) :=
  ⟨fun _ => rfl, fun _ => rfl, .inr ⟨_, refsFrom_sorted P.cid 0 (P.chunk c), fun _ => ⟨⟨rfl, rfl⟩, fun _ _ => rfl⟩⟩⟩

theorem setInProgress_change (x : Bool) : Change (setInProgress x) := ⟨fun _ => rfl, fun _ => rfl, .inl fun _ _ _ => rfl⟩

end
end Verif.Updater
