import Verif.Updater.Mounted
import Verif.Manifest.MultiExample

/-! # Example: two updates of a directory with the content-defined chunker (C81, C82) -/
namespace Verif.Updater
open Verif.Manifest

/-! ### The chunker of this repository -/

/-- The blocks in which a file is read, `StreamReadFileContents`, common/path.cc:763-800: the buffer is filled each time. -/
def blocksOf (n : Nat) (c : List UInt8) : List (List UInt8) :=
  if h : c = [] ∨ n = 0 then (if c = [] then [] else [c]) else c.take n :: blocksOf n (c.drop n)
termination_by c.length
decreasing_by
  have : c.length ≠ 0 := fun e => h (.inl (List.length_eq_zero_iff.mp e))
  rw [List.length_drop]; omega

theorem blocksOf_flatten (n : Nat) (c : List UInt8) : (blocksOf n c).flatten = c := by
  fun_induction blocksOf n c with
  | case1 => rfl
  | case2 => simp
  | case3 c h ih => rw [List.flatten_cons, ih, List.take_append_drop]

/-- The environment with `fastcdc::Chunker`, manifest_updater.cc:191-217. -/
def cdcEnv {w : Nat} (gear : UInt8 → BitVec w) (c : FastCdc.Config) (cfg : Cfg) (cid : List UInt8 → Id) (buf : Nat) : Env where
  cfg := cfg
  chunk := fun x => (FastCdc.chunkBlocks gear c (blocksOf buf x)).getD []
  cid := cid
  buf := buf

/-- The chunker meets the assumption of C81 and C82. -/
theorem cdcEnv_chunk {w : Nat} (hw : 0 < w) (gear : UInt8 → BitVec w) (c : FastCdc.Config) (hv : c.Valid) (cfg : Cfg) (cid : List UInt8 → Id) (buf : Nat)
    (x : List UInt8) : ((cdcEnv gear c cfg cid buf).chunk x).flatten = x := by
  obtain ⟨cs, h1, h2⟩ := FastCdc.C01_chunking_lossless gear hw c hv (blocksOf buf x)
  show ((FastCdc.chunkBlocks gear c (blocksOf buf x)).getD []).flatten = x
  rw [h1]
  exact h2.trans (blocksOf_flatten buf x)

/-! ### A scheduler -/

/-- Processes assets in order. -/
def exec (P : Env) (src : Node) : Nat → Builder → Todo → Option Builder
  | 0, _, _ => none
  | _ + 1, b, [] => some b
  | n + 1, b, (p, .directory) :: q =>
    match src.at p with
    | some (.dir _ es) => match scanDir P.cfg (es.map fun e => e.2.info e.1) p b with
      | .ok (b', new) => exec P src n b' (q ++ new)
      | .error _ => none
    | _ => none
  | n + 1, b, (p, .file) :: q =>
    match src.at p with
    | some (.file _ c) => match editAsset P.cfg .file false p.dropLast (p.getLastD []) (onInfo (chunked P c)) b with
      | .ok b' => exec P src n b' q
      | .error _ => none
    | _ => none
  | _ + 1, _, _ :: _ => none

theorem exec_run {P : Env} {src : Node} {b0 : Builder} (n : Nat) : ∀ {b b' : Builder} {q : Todo}, Run P src b0 b q → exec P src n b q = some b' → Run P src b0 b' [] := by
  induction n with
  | zero => intro b b' q _ h; cases h
  | succ n ih =>
    intro b b' q hr h
    rcases q with _ | ⟨⟨p, k⟩, q⟩
    · rw [exec] at h; cases h; exact hr
    cases k with
    | unknown => cases h
    | symlink => cases h
    | directory =>
      rw [exec] at h
      split at h
      · rename_i hs
        split at h
        · rename_i hd
          refine ih (hr.scan _ List.mem_cons_self hs (List.Perm.refl _) hd) ?_
          rw [List.erase_cons_head]; exact h
        · cases h
      · cases h
    | file =>
      rw [exec] at h
      split at h
      · rename_i t c hs
        split at h
        · rename_i b1 hd
          rcases List.eq_nil_or_concat p with rfl | ⟨p', x, rfl⟩
          · exfalso
            have : ∀ {b q}, Run P src b0 b q → ∃ t es, src = .dir t es := by
              intro b q hr
              induction hr with
              | start h1 => exact ⟨_, _, h1⟩
              | scan _ _ _ _ _ _ ih => exact ih
              | file _ _ _ _ _ _ ih => exact ih
              | push _ _ _ _ ih => exact ih
            obtain ⟨t, es, rfl⟩ := this hr
            cases hs
          · rw [List.concat_eq_append] at hr hs hd
            rw [show (p' ++ [x]).dropLast = p' by simp, show (p' ++ [x]).getLastD [] = x by simp] at hd
            refine ih (hr.file p' x List.mem_cons_self hs hd) ?_
            rw [List.erase_cons_head]; exact h
        · cases h
      · cases h

/-- `UpdateAll`, with an intermediate push after the start. -/
def updateOnce (P : Env) (src : Node) (b0 : Builder) : Option (Id × Builder) :=
  match src with
  | .dir t es => match begin_ P.cfg t b0 with
    | .ok b => match flush P.cfg 50 b with
      | some (_, b) => match exec P (.dir t es) 100 b [([], .directory)] with
        | some b => flush P.cfg 50 b
        | none => none
      | none => none
    | .error _ => none
  | .file _ _ => none

theorem updateOnce_run {P : Env} {src : Node} {b0 b' : Builder} {id : Id} (h : updateOnce P src b0 = some (id, b')) :
    ∃ b, Run P src b0 b [] ∧ flush P.cfg 50 b = some (id, b') := by
  unfold updateOnce at h
  split at h
  · split at h
    · rename_i hb
      split at h
      · rename_i hf
        split at h
        · rename_i he
          exact ⟨_, exec_run 100 ((Run.start rfl hb).push _ _ hf) he, h⟩
        · cases h
      · cases h
    · cases h
  · cases h

/-! ### Checking the assumptions -/

mutual
/-- Everything in a directory. -/
def Node.all : Node → List (List Name × Node)
  | .file t c => [([], .file t c)]
  | .dir t es => ([], .dir t es) :: allIn es

def allIn : List (Name × Node) → List (List Name × Node)
  | [] => []
  | (n, x) :: es => x.all.map (fun e => (n :: e.1, e.2)) ++ allIn es
end

theorem mem_allIn {es : List (Name × Node)} {n : Name} {x : Node} (h : (n, x) ∈ es) {p : List Name} {y : Node} (hy : (p, y) ∈ x.all) :
    (n :: p, y) ∈ allIn es := by
  induction es with
  | nil => cases h
  | cons e es ih =>
    obtain ⟨n', x'⟩ := e
    rw [allIn]
    rcases List.mem_cons.mp h with h | h
    · cases h
      exact List.mem_append_left _ (List.mem_map.mpr ⟨_, hy, rfl⟩)
    · exact List.mem_append_right _ (ih h)

theorem mem_all (p : List Name) : ∀ {x y : Node}, x.at p = some y → (p, y) ∈ x.all := by
  induction p with
  | nil =>
    intro x y h
    have h : some x = some y := by cases x <;> exact h
    cases h
    cases x <;> simp [Node.all]
  | cons n p ih =>
    intro x y h
    cases x with
    | file => cases h
    | dir t es =>
      rw [Node.at] at h
      obtain ⟨e, he, h2⟩ := Option.bind_eq_some_iff.mp h
      have h3 : e.1 = n := by simpa using List.find?_some he
      have h4 := List.mem_of_find?_eq_some he
      rw [Node.all]
      refine List.mem_cons_of_mem _ (mem_allIn (x := e.2) ?_ (ih h2))
      rw [← h3]; exact h4

def namesIn : Node → List Name
  | .file _ _ => []
  | .dir _ es => es.map Prod.fst

def bytesOf : Node → List UInt8
  | .file _ c => c
  | .dir _ _ => []

theorem proper_of {x : Node} (h : ∀ e ∈ x.all, (namesIn e.2).Nodup) : x.Proper := fun p _ _ hp => h _ (mem_all p hp)

theorem noTwins_of {x y : Node} (h : ∀ e ∈ x.all, ∀ e' ∈ y.all, e.1 ≠ [] → e'.1 ≠ [] → e.1.getLast? = e'.1.getLast? → e.2.kind = e'.2.kind → e.2.mtime = e'.2.mtime →
    e.2.size = e'.2.size → e.1.dropLast = e'.1.dropLast) : NoTwinEntries x y := by
  intro p q n a b ha hb h1 h2 h3
  have := h _ (mem_all _ ha) _ (mem_all _ hb) (by simp) (by simp) (by simp) h1 h2 h3
  simpa using this

theorem detects_of {x y : Node} (h : ∀ e ∈ x.all, ∀ e' ∈ y.all, e.1 = e'.1 → e.2.kind = .file → e'.2.kind = .file → e.2.mtime = e'.2.mtime → e.2.size = e'.2.size →
    bytesOf e.2 = bytesOf e'.2) : Detects x y := by
  intro p t c0 c h1 h2 h3
  exact h _ (mem_all _ h1) _ (mem_all _ h2) rfl rfl rfl rfl h3

/-! ### A source directory and a changed version of it -/

namespace Ex
open Reflush (longName)

def tagMeta (m : Meta) : List UInt8 :=
  [m.name.headD 0, m.mtime.toNat.toUInt8, m.fileSize.toUInt8, m.perms.toUInt8, m.chunks.length.toUInt8, m.indirect.length.toUInt8, if m.inProgress then 1 else 0]

mutual
def tag : Manifest.Asset → List UInt8
  | .mk m cs ids => tagMeta m ++ tags cs ++ ids.flatten
def tags : List Manifest.Asset → List UInt8
  | [] => [255]
  | a :: as => tag a ++ tags as
end

/-- A toy hash; that it has no collision is checked below. -/
def hash : Stored → Id
  | .chunks l => 1 :: l.flatMap fun r => r.offset.toUInt8 :: r.id
  | .assets l => 2 :: tags l
  | .manifest r => 3 :: tag r

def cfg : Cfg := { Reflush.cfg with hash := hash }

def P : Env := cdcEnv FastCdc.exGear FastCdc.exCfg cfg (fun c => c) 7

def content (n : Nat) : List UInt8 := (List.range n).map fun i => (i * 7 + n).toUInt8

/-- The directory has a large file, an executable script, a subdirectory with eight files and an empty directory. -/
def src1 : Node := .dir 1 [([98], .file 3 (content 120)), ([115], .file 4 [35, 33, 47, 98, 105, 110]),
  ([100], .dir 2 [(longName 1, .file 5 [1]), (longName 2, .file 5 [2, 2]), (longName 3, .file 5 []), (longName 4, .file 5 [4]), (longName 5, .file 5 [5]),
    (longName 6, .file 5 [6]), (longName 7, .file 5 (content 20)), (longName 8, .file 5 [8])]), ([101], .dir 2 [])]

/-- The script is now a directory, one file is gone, one has changed and one is new; a file has become a directory. -/
def src2 : Node := .dir 1 [([98], .file 3 (content 120)), ([115], .dir 6 [([120], .file 6 [1, 2, 3])]),
  ([100], .dir 6 [(longName 1, .file 5 [1]), (longName 3, .file 5 []), (longName 4, .file 5 [4]), (longName 5, .file 5 [5]),
    (longName 6, .file 6 [6, 7]), (longName 7, .file 5 (content 20)), (longName 8, .dir 6 []), (longName 9, .file 6 [9])]), ([101], .dir 2 [])]

def u1 := (updateOnce P src1 { root := newAsset P.cfg [] .directory, store := [] }).getD ([], { root := newAsset P.cfg [] .directory, store := [] })
def l2 := (loadManifest P.cfg u1.2.store u1.1).getD u1.2
def u2 := (updateOnce P src2 l2).getD ([], l2)


theorem getD_pair {α β : Type} {o : Option (α × β)} {d : α × β} (h : o.isSome = true) : o = some ((o.getD d).1, (o.getD d).2) := by
  cases o with
  | none => cases h
  | some => rfl

set_option maxRecDepth 20000 in
theorem updated1 : updateOnce P src1 { root := newAsset P.cfg [] .directory, store := [] } = some (u1.1, u1.2) := by
  unfold u1
  exact getD_pair (by decide +kernel)

set_option maxRecDepth 20000 in
theorem loaded2 : loadManifest P.cfg u1.2.store u1.1 = some l2 := by
  have h : (loadManifest P.cfg u1.2.store u1.1).isSome = true := by decide +kernel
  unfold l2
  generalize loadManifest P.cfg u1.2.store u1.1 = o at h
  exact Alias.getD_some h

set_option maxRecDepth 20000 in
theorem updated2 : updateOnce P src2 l2 = some (u2.1, u2.2) := by
  unfold u2
  exact getD_pair (by decide +kernel)

set_option maxRecDepth 20000 in
theorem noCollision : NoCollision P.cfg.hash u2.2.store := by
  have h : ∀ p ∈ u2.2.store, ∀ q ∈ u2.2.store, hash p = hash q → p = q := by decide +kernel
  exact fun p q hp hq e => h p hp q hq e

theorem hsort (l : List Manifest.Asset) : (P.cfg.sort l).Perm l := Util.isort_perm _

theorem hchunk (c : List UInt8) : (P.chunk c).flatten = c := cdcEnv_chunk (by decide) _ _ (by decide) _ _ _ c

theorem updates : Updates P [src2, src1] u2.2.store u2.1 := by
  obtain ⟨b1, h1, f1⟩ := updateOnce_run updated1
  obtain ⟨b2, h2, f2⟩ := updateOnce_run updated2
  exact .next 50 (.first [] 50 h1 f1) loaded2 h2 f2

set_option maxRecDepth 20000 in
theorem twins22 : NoTwinEntries src2 src2 := noTwins_of (by decide +kernel)

set_option maxRecDepth 20000 in
theorem twins21 : NoTwinEntries src2 src1 := noTwins_of (by decide +kernel)

set_option maxRecDepth 20000 in
theorem twins11 : NoTwinEntries src1 src1 := noTwins_of (by decide +kernel)

theorem twins12 : NoTwinEntries src1 src2 := fun p q n a b ha hb h1 h2 h3 => (twins21 q p n b a hb ha h1.symm h2.symm h3.symm).symm

set_option maxRecDepth 20000 in
theorem versions (S : List Stored) : Versions S [src2, src1] := by
  refine ⟨proper_of ?_, noSharedList_of_noTwins ?_, detects_of ?_, proper_of ?_, noSharedList_of_noTwins ?_⟩
  · decide +kernel
  · intro v hv w hw
    rcases List.mem_pair.mp hv with rfl | rfl <;> rcases List.mem_pair.mp hw with rfl | rfl
    · exact twins22
    · exact twins21
    · exact twins12
    · exact twins11
  · decide +kernel
  · decide +kernel
  · intro v hv w hw
    rw [List.mem_singleton.mp hv, List.mem_singleton.mp hw]
    exact twins11

/-- C81 for this example. -/
example : ∃ b, loadManifest P.cfg u2.2.store u2.1 = some b ∧ ∀ p m, Has P.cfg.hash u2.2.store b.root p m ↔ want P src2 p = some m := by
  obtain ⟨b, h1, -, h2⟩ := C81_manifest_mirrors_source_partial P hsort hchunk src2 [src1] _ _ updates (versions _) noCollision
  exact ⟨b, h1, h2⟩

/-- The ids are the data, so no two chunks have the same id. -/
example : Identifies P src2 fun id => id := fun _ _ _ _ _ _ => rfl

/-- A client that uses the store directly. -/
def St : Asset.Store := { chunkLists := findChunks P.cfg.hash u2.2.store, assetLists := findAssets P.cfg.hash u2.2.store, fails := False, conc := False }

/-- A file in a subdirectory that was split, with the assumptions of C82 met. -/
example : ∃ root a, findManifest P.cfg.hash u2.2.store u2.1 = some root ∧ Reached St root [[100], longName 7] a ∧ a.info.fileSize = 20 := by
  obtain ⟨b, h1, -, -⟩ := C81_manifest_mirrors_source_partial P hsort hchunk src2 [src1] _ _ updates (versions _) noCollision
  unfold loadManifest at h1
  obtain ⟨root, hroot, -⟩ := Option.map_eq_some_iff.mp h1
  have hat : ∃ x, src2.at [[100], longName 7] = some x ∧ x.size = 20 := ⟨_, rfl, rfl⟩
  obtain ⟨x, hx, hsz⟩ := hat
  obtain ⟨a, ha, -⟩ := C82_everything_is_there_partial P hsort hchunk src2 [src1] _ _ updates (versions _) noCollision St ⟨rfl, rfl⟩ root hroot
    (fun h => h) (fun h => h) _ x hx
  obtain ⟨y, hy, -, -, -, h4, -⟩ := C82_attributes_partial P hsort hchunk src2 [src1] _ _ updates (versions _) noCollision St ⟨rfl, rfl⟩ root hroot _ a ha
  rw [hx] at hy
  cases hy
  exact ⟨root, a, hroot, ha, h4.trans hsz⟩

/-! ### Twins that do no harm -/

/-- What can be the directory of a list. -/
def homes (x : Node) (l : List Manifest.Asset) : List (List Name) :=
  match l with
  | [] => []
  | e :: _ => x.all.filterMap fun y =>
    if y.1.getLast? = some e.name ∧ y.2.kind = e.info.kind ∧ y.2.mtime = e.info.mtime ∧ y.2.size = e.info.fileSize then some y.1.dropLast else none

theorem mem_homes {x : Node} {p : List Name} {l : List Manifest.Asset} (hne : l ≠ []) (h : FitsIn [x] p l) : p ∈ homes x l := by
  cases l with
  | nil => exact absurd rfl hne
  | cons e l =>
    obtain ⟨v, hv, y, hy, h1, h2, h3⟩ := h e (by simp)
    rw [List.mem_singleton.mp hv] at hy
    exact List.mem_filterMap.mpr ⟨_, mem_all _ hy, by simp [h1, h2, h3]⟩

/-- A subdirectory is split; two others have an entry with the same name, time, size and content. -/
def src3 : Node := .dir 1 [([97], .dir 2 [([120], .file 5 [1, 2])]), ([98], .dir 2 [([120], .file 5 [1, 2])]),
  ([100], .dir 2 [(longName 1, .file 5 [1]), (longName 2, .file 5 [2, 2]), (longName 3, .file 5 []), (longName 4, .file 5 [4]), (longName 5, .file 5 [5]),
    (longName 6, .file 5 [6]), (longName 7, .file 5 (content 20)), (longName 8, .file 5 [8])])]

def u3 := (updateOnce P src3 { root := newAsset P.cfg [] .directory, store := [] }).getD ([], { root := newAsset P.cfg [] .directory, store := [] })

set_option maxRecDepth 20000 in
theorem updated3 : updateOnce P src3 { root := newAsset P.cfg [] .directory, store := [] } = some (u3.1, u3.2) := by
  unfold u3
  exact getD_pair (by decide +kernel)

def isList : Stored → Option (List Manifest.Asset)
  | .assets l => some l
  | _ => none

set_option maxRecDepth 20000 in
/-- The assumptions of C81 hold for it: there are asset lists in the store, and each fits one directory only. -/
theorem twins_example : Updates P [src3] u3.2.store u3.1 ∧ Versions u3.2.store [src3] ∧ ¬ NoTwinEntries src3 src3 ∧ (∃ l, .assets l ∈ u3.2.store) ∧
    NoCollision P.cfg.hash u3.2.store := by
  obtain ⟨b1, h1, f1⟩ := updateOnce_run updated3
  refine ⟨.first [] 50 h1 f1, ⟨proper_of (by decide +kernel), ?_⟩, ?_, ?_, ?_⟩
  · have h : ∀ l ∈ u3.2.store.filterMap isList, ∀ p ∈ homes src3 l, ∀ q ∈ homes src3 l, p = q := by decide +kernel
    intro l hl hne p q hp hq
    exact h l (List.mem_filterMap.mpr ⟨_, hl, rfl⟩) p (mem_homes hne hp) q (mem_homes hne hq)
  · intro h
    exact absurd (h [[97]] [[98]] [120] (.file 5 [1, 2]) (.file 5 [1, 2]) rfl rfl rfl rfl rfl) (by decide)
  · have h : (u3.2.store.filterMap isList).isEmpty = false := by decide +kernel
    cases e : u3.2.store.filterMap isList with
    | nil => rw [e] at h; cases h
    | cons l r =>
      obtain ⟨x, hx, hl⟩ := List.mem_filterMap.mp (show l ∈ u3.2.store.filterMap isList by rw [e]; simp)
      cases x <;> cases hl
      exact ⟨l, hx⟩
  · have h : ∀ p ∈ u3.2.store, ∀ q ∈ u3.2.store, hash p = hash q → p = q := by decide +kernel
    exact fun p q hp hq e => h p hp q hq e

end Ex
end Verif.Updater
