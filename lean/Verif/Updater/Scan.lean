import Verif.Manifest.Dirs
import Verif.Util.Bytes
import Verif.Util.Sort
import Mathlib.Data.List.Nodup

/-! # C31, C55: scanning a directory and bringing its manifest entry up to date

`DirScannerTask` and `ManifestUpdater::ApplyOperations`, manifest/manifest_updater.cc. All operations of one scan concern
entries of one directory, so paths are modelled by names: the path of an entry is the path of the directory followed
by the name, and names have no separator (so the optimisation in manifest_updater.cc:633-638 never applies). Looking up
the directory by its path in `DeleteAsset` and `GetOrCreateAsset` is not modelled here: both are applied to the directory
itself, as `AppendAsset` is in the code. The calls to `FileChunkMap` are not modelled. -/
namespace Verif.Updater
open Verif.Manifest

/-- `AssetInfo`, manifest_updater.h:83-116, for the name instead of the path and without the chunks, which are only handed to
`FileChunkMap`. -/
structure Info where
  name : Name
  kind : Kind
  mtime : Int
  size : Nat
deriving DecidableEq, Repr

/-- `GetAssetInfosFromList`, manifest_updater.cc:274-314, for one asset. -/
def infoOf (a : Manifest.Asset) : Info :=
  ⟨a.name, a.info.kind, a.info.mtime, if a.info.kind = .directory then 0 else a.info.fileSize⟩

/-- `ManifestUpdater::Operation`, manifest_updater.h:121-131. -/
inductive Oper where
  | add (i : Info) | update (i : Info) | delete (i : Info) | keep (i : Info)
deriving DecidableEq, Repr

def Oper.info : Oper → Info
  | .add i | .update i | .delete i | .keep i => i

/-- `std::sort` of `AssetInfo`s, manifest_updater.cc:76, 346; `operator<` compares paths. -/
def sortInfos (l : List Info) : List Info := Util.isort (fun a b => Util.leBytes a.name b.name) l

/-- The condition for keeping an asset, manifest_updater.cc:374-379. -/
def same (s m : Info) : Bool :=
  s.mtime == m.mtime && s.kind == m.kind && (s.kind != .file || s.size == m.size) && s.kind != .directory

/-- `CompareAssets`, manifest_updater.cc:351-392. -/
def compareAssets : (src man : List Info) → List Oper
  | [], [] => []
  | s :: src, [] => .add s :: compareAssets src []
  | [], m :: man => .delete m :: compareAssets [] man
  | s :: src, m :: man =>
    if Util.ltBytes s.name m.name then .add s :: compareAssets src (m :: man)
    else if Util.ltBytes m.name s.name then .delete m :: compareAssets (s :: src) man
    else if same s m then .keep m :: compareAssets src man
    else .update s :: compareAssets src man
termination_by src man => src.length + man.length

section
variable (cfg : Cfg)

/-- `GetAllAssetsFromDirAsset`, manifest_updater.cc:318-348, and the rest of `ThreadRun`, 236-248: indirect lists that cannot be
read are dropped from the directory. Returns the directory and the operations. -/
def scan (src : List Info) (dir : Manifest.Asset) (store : List Stored) : Manifest.Asset × List Oper :=
  let ids := dir.indirect.filter fun id => (findAssets cfg.hash store id).isSome
  let lists := ids.filterMap (findAssets cfg.hash store)
  let dir := Manifest.Asset.mk dir.info dir.children ids
  (dir, compareAssets (sortInfos src) (sortInfos ((dir.children ++ lists.flatten).map infoOf)))

/-- The setters in `ApplyOperations`, manifest_updater.cc:676-692. -/
def setters (recursive : Bool) (i : Info) (a : Manifest.Asset) : Manifest.Asset :=
  let m := { a.info with mtime := i.mtime }
  let m := if i.kind = .file then
      { m with perms := 0o755, chunks := [], indirect := [], fileSize := i.size, inProgress := true }
    else if i.kind = .directory then
      { m with perms := 0o755, inProgress := if recursive then true else m.inProgress }
    else m
  .mk m a.children a.indirect

/-- `AppendAsset`, asset_builder.cc:78-86. -/
def blank (i : Info) : Manifest.Asset := .mk { name := i.name, kind := i.kind } [] []

/-- The state of `ApplyOperations`: the directory, the builder's lists and the assets queued. -/
structure St where
  dir : Manifest.Asset
  w : Work
  queued : List Name := []

/-- First loop of `ApplyOperations`, manifest_updater.cc:626-642. -/
def applyDeletes : List Oper → St → Except Err St
  | [], s => .ok s
  | .delete i :: ops, s =>
    match deleteFromDir cfg i.name s.dir s.w with
    | .error e => .error e
    | .ok (dir, w, _) => applyDeletes ops { s with dir := dir, w := w }
  | _ :: ops, s => applyDeletes ops s

/-- Queue the asset if it is in progress, manifest_updater.cc:694-699. The flag is set by the setters for files and, in
recursive mode, for directories. -/
def enqueue (i : Info) (recursive : Bool) (q : List Name) : List Name :=
  if i.kind = .file ∨ (i.kind = .directory ∧ recursive) then q ++ [i.name] else q

/-- Second loop of `ApplyOperations`, manifest_updater.cc:644-700, with a parent directory. -/
def applyAdds (recursive : Bool) : List Oper → St → Except Err St
  | [], s => .ok s
  | .add i :: ops, s =>
    applyAdds recursive ops { s with
      dir := .mk s.dir.info (s.dir.children ++ [setters recursive i (blank i)]) s.dir.indirect
      queued := enqueue i recursive s.queued }
  | .update i :: ops, s =>
    match inAsset cfg i.kind true i.name (setters recursive i) s.dir s.w with
    | .error e => .error e
    | .ok (dir, w, _) => applyAdds recursive ops { dir := dir, w := w, queued := enqueue i recursive s.queued }
  | _ :: ops, s => applyAdds recursive ops s

/-- `HandleDirScannerResult`, manifest_updater.cc:740-763, for the directory scanned. -/
def scanAndApply (src : List Info) (dir : Manifest.Asset) (w : Work) : Except Err St :=
  let r := scan cfg src dir w.store
  match applyDeletes cfg r.2 { dir := r.1, w := w } with
  | .error e => .error e
  | .ok s => match applyAdds cfg true r.2 s with
    | .error e => .error e
    | .ok s => .ok { s with dir := .mk { s.dir.info with inProgress := false } s.dir.children s.dir.indirect }

/-! ### Specification -/

/-- The list with the given id, as changed in memory. -/
def lookup (w : Work) (id : Id) : Option (List Manifest.Asset) := (getList cfg w id).map Prod.fst

end

/-- A file on disk whose entry in the manifest has the same type, modification time and size. -/
def Unchanged (old : Option Manifest.Asset) (s : Info) : Prop :=
  s.kind = .file ∧ ∃ o, old = some o ∧ o.info.kind = .file ∧ o.info.mtime = s.mtime ∧ o.info.fileSize = s.size

/-- The entry `a` is right for the file or directory `s` on disk, given the old entry: unchanged files are left alone, all else is
to be processed again. -/
structure UpToDate (old : Option Manifest.Asset) (s : Info) (a : Manifest.Asset) (queued : Prop) : Prop where
  kind : a.info.kind = s.kind
  mtime : a.info.mtime = s.mtime
  size : s.kind = .file → a.info.fileSize = s.size
  kept : Unchanged old s → old = some a ∧ ¬ queued
  redone : ¬ Unchanged old s → queued ∧ a.info.inProgress = true ∧ (s.kind = .file → a.info.chunks = [] ∧ a.info.indirect = [])
  contents : s.kind = .directory → (∃ o, old = some o ∧ o.info.kind = .directory ∧ a.children = o.children ∧ a.indirect = o.indirect) ∨
    ((∀ o, old = some o → o.info.kind ≠ .directory) ∧ a.children = [] ∧ a.indirect = [])

/-! ### The merge -/

def SortedInfos (l : List Info) : Prop := l.Pairwise fun a b => Util.ltBytes a.name b.name = true

theorem sortInfos_sorted {l : List Info} (h : (l.map Info.name).Nodup) : SortedInfos (sortInfos l) := by
  have h1 : (sortInfos l).Pairwise fun a b => Util.leBytes a.name b.name = true :=
    Util.isort_pairwise (le := fun a b : Info => Util.leBytes a.name b.name) (fun _ _ _ => Util.leBytes_trans)
      (fun a b => Util.leBytes_total a.name b.name) l
  have h2 : (sortInfos l).Pairwise fun a b => a.name ≠ b.name := by
    have : ((sortInfos l).map Info.name).Nodup := ((Util.isort_perm l).map Info.name).nodup_iff.mpr h
    exact List.pairwise_map.mp this
  exact (h1.and h2).imp fun h => Util.ltBytes_of_le_ne h.1 h.2

theorem SortedInfos.tail {a : Info} {l : List Info} (h : SortedInfos (a :: l)) : SortedInfos l := (List.pairwise_cons.mp h).2

theorem SortedInfos.head {a b : Info} {l : List Info} (h : SortedInfos (a :: l)) (hb : b ∈ l) : Util.ltBytes a.name b.name = true :=
  (List.pairwise_cons.mp h).1 b hb

theorem SortedInfos.inj {l : List Info} (h : SortedInfos l) {a b : Info} (ha : a ∈ l) (hb : b ∈ l) (e : a.name = b.name) : a = b := by
  induction l with
  | nil => cases ha
  | cons c l ih =>
    rcases List.mem_cons.mp ha with rfl | ha'
    · rcases List.mem_cons.mp hb with rfl | hb'
      · rfl
      · exact absurd e (Util.ltBytes_ne (h.head hb'))
    · rcases List.mem_cons.mp hb with rfl | hb'
      · exact absurd e.symm (Util.ltBytes_ne (h.head ha'))
      · exact ih h.tail ha' hb'

/-- What the merge decides for an operation. -/
def Decided (src man : List Info) : Oper → Prop
  | .add i => i ∈ src ∧ ∀ m ∈ man, m.name ≠ i.name
  | .delete i => i ∈ man ∧ ∀ s ∈ src, s.name ≠ i.name
  | .keep i => i ∈ man ∧ ∃ s ∈ src, s.name = i.name ∧ same s i = true
  | .update i => i ∈ src ∧ ∃ m ∈ man, m.name = i.name ∧ same i m = false

theorem compare_names {src man : List Info} {o : Oper} (h : o ∈ compareAssets src man) :
    ∃ i, (i ∈ src ∨ i ∈ man) ∧ i.name = o.info.name := by
  fun_induction compareAssets src man with
  | case1 => cases h
  | case2 s src ih =>
    rcases List.mem_cons.mp h with rfl | h
    · exact ⟨s, by simp, rfl⟩
    · obtain ⟨i, h1, h2⟩ := ih h; exact ⟨i, by rcases h1 with h1 | h1 <;> simp [h1], h2⟩
  | case3 m man ih =>
    rcases List.mem_cons.mp h with rfl | h
    · exact ⟨m, by simp, rfl⟩
    · obtain ⟨i, h1, h2⟩ := ih h; exact ⟨i, by rcases h1 with h1 | h1 <;> simp [h1], h2⟩
  | case4 s src m man _ ih =>
    rcases List.mem_cons.mp h with rfl | h
    · exact ⟨s, by simp, rfl⟩
    · obtain ⟨i, h1, h2⟩ := ih h
      refine ⟨i, ?_, h2⟩
      rcases h1 with h1 | h1
      · exact .inl (by simp [h1])
      · exact .inr h1
  | case5 s src m man _ _ ih =>
    rcases List.mem_cons.mp h with rfl | h
    · exact ⟨m, by simp, rfl⟩
    · obtain ⟨i, h1, h2⟩ := ih h
      refine ⟨i, ?_, h2⟩
      rcases h1 with h1 | h1
      · exact .inl h1
      · exact .inr (by simp [h1])
  | case6 s src m man _ _ _ ih =>
    rcases List.mem_cons.mp h with rfl | h
    · exact ⟨m, by simp, rfl⟩
    · obtain ⟨i, h1, h2⟩ := ih h; exact ⟨i, by rcases h1 with h1 | h1 <;> simp [h1], h2⟩
  | case7 s src m man _ _ _ ih =>
    rcases List.mem_cons.mp h with rfl | h
    · exact ⟨s, by simp, rfl⟩
    · obtain ⟨i, h1, h2⟩ := ih h; exact ⟨i, by rcases h1 with h1 | h1 <;> simp [h1], h2⟩

theorem eq_of_not_lt {a b : Name} (h1 : ¬ Util.ltBytes a b = true) (h2 : ¬ Util.ltBytes b a = true) : a = b := by
  rcases Util.ltBytes_trichotomy a b with h | h | h
  · exact absurd h h1
  · exact h
  · exact absurd h h2

theorem compare_decided {src man : List Info} (hs : SortedInfos src) (hm : SortedInfos man) {o : Oper} :
    o ∈ compareAssets src man ↔ Decided src man o := by
  fun_induction compareAssets src man with
  | case1 => cases o <;> simp [Decided]
  | case2 s src ih =>
    rw [List.mem_cons, ih hs.tail hm]
    cases o <;> simp [Decided]
  | case3 m man ih =>
    rw [List.mem_cons, ih hs hm.tail]
    cases o <;> simp [Decided]
  | case4 s src m man hlt ih =>
    rw [List.mem_cons, ih hs.tail hm]
    have hsm : ∀ x ∈ m :: man, x.name ≠ s.name := fun x hx => by
      rcases List.mem_cons.mp hx with rfl | hx
      · exact (Util.ltBytes_ne hlt).symm
      · exact (Util.ltBytes_ne (Util.ltBytes_trans hlt (hm.head hx))).symm
    cases o with
    | add i =>
      simp only [Decided, Oper.add.injEq]
      constructor
      · rintro (rfl | h)
        · exact ⟨by simp, hsm⟩
        · exact ⟨by simp [h.1], h.2⟩
      · rintro ⟨h1, h2⟩
        rcases List.mem_cons.mp h1 with rfl | h1
        · exact .inl rfl
        · exact .inr ⟨h1, h2⟩
    | delete i =>
      simp only [Decided, reduceCtorEq, false_or]
      refine and_congr_right fun hi => ⟨fun h x hx => ?_, fun h x hx => h x (by simp [hx])⟩
      rcases List.mem_cons.mp hx with rfl | hx
      · exact (hsm i hi).symm
      · exact h x hx
    | keep i =>
      simp only [Decided, reduceCtorEq, false_or]
      refine and_congr_right fun hi => ⟨fun ⟨x, hx, h⟩ => ⟨x, by simp [hx], h⟩, fun ⟨x, hx, h⟩ => ?_⟩
      rcases List.mem_cons.mp hx with rfl | hx
      · exact absurd h.1.symm (hsm i hi)
      · exact ⟨x, hx, h⟩
    | update i =>
      simp only [Decided, reduceCtorEq, false_or]
      constructor
      · rintro ⟨h1, h2⟩; exact ⟨by simp [h1], h2⟩
      · rintro ⟨h1, x, hx, h2⟩
        rcases List.mem_cons.mp h1 with rfl | h1
        · exact absurd h2.1 (hsm x hx)
        · exact ⟨h1, x, hx, h2⟩
  | case5 s src m man hnlt hlt ih =>
    rw [List.mem_cons, ih hs hm.tail]
    have hms : ∀ x ∈ s :: src, x.name ≠ m.name := fun x hx => by
      rcases List.mem_cons.mp hx with rfl | hx
      · exact (Util.ltBytes_ne hlt).symm
      · exact (Util.ltBytes_ne (Util.ltBytes_trans hlt (hs.head hx))).symm
    cases o with
    | add i =>
      simp only [Decided, reduceCtorEq, false_or]
      refine and_congr_right fun hi => ⟨fun h x hx => ?_, fun h x hx => h x (by simp [hx])⟩
      rcases List.mem_cons.mp hx with rfl | hx
      · exact (hms i hi).symm
      · exact h x hx
    | delete i =>
      simp only [Decided, Oper.delete.injEq]
      constructor
      · rintro (rfl | h)
        · exact ⟨by simp, hms⟩
        · exact ⟨by simp [h.1], h.2⟩
      · rintro ⟨h1, h2⟩
        rcases List.mem_cons.mp h1 with rfl | h1
        · exact .inl rfl
        · exact .inr ⟨h1, h2⟩
    | keep i =>
      simp only [Decided, reduceCtorEq, false_or]
      constructor
      · rintro ⟨h1, h2⟩; exact ⟨by simp [h1], h2⟩
      · rintro ⟨h1, x, hx, h2⟩
        rcases List.mem_cons.mp h1 with rfl | h1
        · exact absurd h2.1 (hms x hx)
        · exact ⟨h1, x, hx, h2⟩
    | update i =>
      simp only [Decided, reduceCtorEq, false_or]
      refine and_congr_right fun hi => ⟨fun ⟨x, hx, h⟩ => ⟨x, by simp [hx], h⟩, fun ⟨x, hx, h⟩ => ?_⟩
      rcases List.mem_cons.mp hx with rfl | hx
      · exact absurd h.1.symm (hms i hi)
      · exact ⟨x, hx, h⟩
  | case6 s src m man h1 h2 hsame ih =>
    have he := eq_of_not_lt h1 h2
    rw [List.mem_cons, ih hs.tail hm.tail]
    exact merge_both hs hm he (by
      cases o with
      | keep i =>
        simp only [Decided, Oper.keep.injEq]
        constructor
        · rintro (rfl | h)
          · exact .inl ⟨rfl, hsame⟩
          · exact .inr h
        · rintro (⟨rfl, -⟩ | h)
          · exact .inl rfl
          · exact .inr h
      | update i =>
        simp only [Decided, reduceCtorEq, false_or]
        constructor
        · exact .inr
        · rintro (⟨rfl, hf⟩ | h)
          · rw [hsame] at hf; cases hf
          · exact h
      | add i => simp [Decided]
      | delete i => simp [Decided])
  | case7 s src m man h1 h2 hsame ih =>
    have he := eq_of_not_lt h1 h2
    rw [List.mem_cons, ih hs.tail hm.tail]
    exact merge_both hs hm he (by
      cases o with
      | keep i =>
        simp only [Decided, reduceCtorEq, false_or]
        constructor
        · exact .inr
        · rintro (⟨rfl, hf⟩ | h)
          · exact absurd hf hsame
          · exact h
      | update i =>
        simp only [Decided, Oper.update.injEq]
        constructor
        · rintro (rfl | h)
          · exact .inl ⟨rfl, by simpa using hsame⟩
          · exact .inr h
        · rintro (⟨rfl, -⟩ | h)
          · exact .inl rfl
          · exact .inr h
      | add i => simp [Decided]
      | delete i => simp [Decided])
where
  merge_both {s m : Info} {src man : List Info} {o : Oper} {P : Prop} (hs : SortedInfos (s :: src)) (hm : SortedInfos (m :: man))
      (he : s.name = m.name) (h : P ↔ (match o with
        | .keep i => i = m ∧ same s m = true
        | .update i => i = s ∧ same s m = false
        | _ => False) ∨ Decided src man o) : P ↔ Decided (s :: src) (m :: man) o := by
    rw [h]
    have hsm : ∀ x ∈ man, x.name ≠ s.name := fun x hx => by rw [he]; exact (Util.ltBytes_ne (hm.head hx)).symm
    have hms : ∀ x ∈ src, x.name ≠ m.name := fun x hx => by rw [← he]; exact (Util.ltBytes_ne (hs.head hx)).symm
    cases o with
    | add i =>
      simp only [Decided, false_or, List.mem_cons, forall_eq_or_imp]
      constructor
      · rintro ⟨h1, h2⟩
        exact ⟨.inr h1, (hms i h1).symm, h2⟩
      · rintro ⟨h1 | h1, h2, h3⟩
        · exact absurd (by rw [h1, he]) h2
        · exact ⟨h1, h3⟩
    | delete i =>
      simp only [Decided, false_or, List.mem_cons, forall_eq_or_imp]
      constructor
      · rintro ⟨h1, h2⟩
        exact ⟨.inr h1, (hsm i h1).symm, h2⟩
      · rintro ⟨h1 | h1, h2, h3⟩
        · exact absurd (by rw [h1, he]) h2
        · exact ⟨h1, h3⟩
    | keep i =>
      simp only [Decided, List.mem_cons, exists_eq_or_imp]
      constructor
      · rintro (⟨rfl, h⟩ | ⟨h1, x, h2, h3⟩)
        · exact ⟨.inl rfl, .inl ⟨he, h⟩⟩
        · exact ⟨.inr h1, .inr ⟨x, h2, h3⟩⟩
      · rintro ⟨rfl | h1, h2 | ⟨x, h2, h3⟩⟩
        · exact .inl ⟨rfl, h2.2⟩
        · exact absurd h3.1 (hms x h2)
        · exact absurd h2.1.symm (hsm i h1)
        · exact .inr ⟨h1, x, h2, h3⟩
    | update i =>
      simp only [Decided, List.mem_cons, exists_eq_or_imp]
      constructor
      · rintro (⟨rfl, h⟩ | ⟨h1, x, h2, h3⟩)
        · exact ⟨.inl rfl, .inl ⟨he.symm, h⟩⟩
        · exact ⟨.inr h1, .inr ⟨x, h2, h3⟩⟩
      · rintro ⟨rfl | h1, h2 | ⟨x, h2, h3⟩⟩
        · exact .inl ⟨rfl, h2.2⟩
        · exact absurd h3.1 (hsm x h2)
        · exact absurd h2.1.symm (hms i h1)
        · exact .inr ⟨h1, x, h2, h3⟩

theorem compare_nodup {src man : List Info} (hs : SortedInfos src) (hm : SortedInfos man) :
    ((compareAssets src man).map fun o => o.info.name).Nodup := by
  unfold List.Nodup
  rw [List.pairwise_map]
  fun_induction compareAssets src man with
  | case1 => exact .nil
  | case2 s src ih =>
    refine List.pairwise_cons.mpr ⟨fun o ho => ?_, ih hs.tail hm⟩
    obtain ⟨i, h1 | h1, h2⟩ := compare_names ho
    · rw [← h2]; exact Util.ltBytes_ne (hs.head h1)
    · cases h1
  | case3 m man ih =>
    refine List.pairwise_cons.mpr ⟨fun o ho => ?_, ih hs hm.tail⟩
    obtain ⟨i, h1 | h1, h2⟩ := compare_names ho
    · cases h1
    · rw [← h2]; exact Util.ltBytes_ne (hm.head h1)
  | case4 s src m man hlt ih =>
    refine List.pairwise_cons.mpr ⟨fun o ho => ?_, ih hs.tail hm⟩
    obtain ⟨i, h1 | h1, h2⟩ := compare_names ho
    · rw [← h2]; exact Util.ltBytes_ne (hs.head h1)
    · rw [← h2]
      rcases List.mem_cons.mp h1 with rfl | h1
      · exact Util.ltBytes_ne hlt
      · exact Util.ltBytes_ne (Util.ltBytes_trans hlt (hm.head h1))
  | case5 s src m man _ hlt ih =>
    refine List.pairwise_cons.mpr ⟨fun o ho => ?_, ih hs hm.tail⟩
    obtain ⟨i, h1 | h1, h2⟩ := compare_names ho
    · rw [← h2]
      rcases List.mem_cons.mp h1 with rfl | h1
      · exact Util.ltBytes_ne hlt
      · exact Util.ltBytes_ne (Util.ltBytes_trans hlt (hs.head h1))
    · rw [← h2]; exact Util.ltBytes_ne (hm.head h1)
  | case6 s src m man h1 h2 _ ih =>
    have he := eq_of_not_lt h1 h2
    refine List.pairwise_cons.mpr ⟨fun o ho => ?_, ih hs.tail hm.tail⟩
    obtain ⟨i, h1 | h1, h2⟩ := compare_names ho
    · rw [← h2]; show m.name ≠ _; rw [← he]; exact Util.ltBytes_ne (hs.head h1)
    · rw [← h2]; exact Util.ltBytes_ne (hm.head h1)
  | case7 s src m man h1 h2 _ ih =>
    have he := eq_of_not_lt h1 h2
    refine List.pairwise_cons.mpr ⟨fun o ho => ?_, ih hs.tail hm.tail⟩
    obtain ⟨i, h1 | h1, h2⟩ := compare_names ho
    · rw [← h2]; exact Util.ltBytes_ne (hs.head h1)
    · rw [← h2]; show s.name ≠ _; rw [he]; exact Util.ltBytes_ne (hm.head h1)

/-! ### Entries as a map from names -/

def named (n : Name) (a : Manifest.Asset) : Bool := a.name == n

/-- The entries have distinct names and are given by `V`. -/
structure Map (es : List Manifest.Asset) (V : Name → Option Manifest.Asset) : Prop where
  nodup : (es.map Manifest.Asset.name).Nodup
  find : ∀ n, es.find? (named n) = V n

theorem find_named {es : List Manifest.Asset} (h : (es.map Manifest.Asset.name).Nodup) {a : Manifest.Asset} {n : Name} :
    es.find? (named n) = some a ↔ a ∈ es ∧ a.name = n := by
  constructor
  · intro hf
    exact ⟨List.mem_of_find?_eq_some hf, by simpa [named] using List.find?_some hf⟩
  · rintro ⟨ha, rfl⟩
    induction es with
    | nil => cases ha
    | cons b es ih =>
      rw [List.map_cons, List.nodup_cons] at h
      rw [List.find?_cons]
      rcases List.mem_cons.mp ha with rfl | ha'
      · simp [named]
      · have : named a.name b = false := by
          simp only [named, beq_eq_false_iff_ne]
          intro e
          exact h.1 (e ▸ List.mem_map_of_mem ha')
        rw [this]
        exact ih h.2 ha'

theorem Map.mem {es : List Manifest.Asset} {V} (h : Map es V) {a : Manifest.Asset} : a ∈ es ↔ V a.name = some a := by
  rw [← h.find, find_named h.nodup]; simp

theorem Map.name {es : List Manifest.Asset} {V} (h : Map es V) {a : Manifest.Asset} {n : Name} (hv : V n = some a) : a.name = n := by
  rw [← h.find] at hv
  exact ((find_named h.nodup).mp hv).2

theorem map_of_mem {es : List Manifest.Asset} {V : Name → Option Manifest.Asset} (hn : (es.map Manifest.Asset.name).Nodup)
    (h1 : ∀ a ∈ es, V a.name = some a) (h2 : ∀ n a, V n = some a → a ∈ es ∧ a.name = n) : Map es V := by
  refine ⟨hn, fun n => ?_⟩
  cases hv : V n with
  | some a => rw [find_named hn]; exact h2 n a hv
  | none =>
    rw [List.find?_eq_none]
    intro a ha e
    have e : a.name = n := by simpa [named] using e
    have := h1 a ha
    rw [e, hv] at this; cases this

theorem Map.perm {es es' : List Manifest.Asset} {V} (h : Map es V) (hp : es'.Perm es) : Map es' V := by
  have hn : (es'.map Manifest.Asset.name).Nodup := (hp.map _).nodup_iff.mpr h.nodup
  refine map_of_mem hn (fun a ha => h.mem.mp (hp.mem_iff.mp ha)) fun n a hv => ?_
  have hnm := h.name hv
  exact ⟨hp.mem_iff.mpr (h.mem.mpr (by rw [hnm]; exact hv)), hnm⟩

/-- Change the value for one name. -/
def upd (V : Name → Option Manifest.Asset) (n : Name) (v : Option Manifest.Asset) : Name → Option Manifest.Asset :=
  fun m => if m = n then v else V m

theorem Map.remove {l₁ l₂ : List Manifest.Asset} {a : Manifest.Asset} {V} (h : Map (l₁ ++ a :: l₂) V) :
    Map (l₁ ++ l₂) (upd V a.name none) := by
  have hp : (l₁ ++ a :: l₂).Perm (a :: (l₁ ++ l₂)) := List.perm_middle
  have h' := h.perm hp.symm
  have hn := h'.nodup
  rw [List.map_cons, List.nodup_cons] at hn
  refine map_of_mem hn.2 (fun b hb => ?_) fun n b hv => ?_
  · have hne : b.name ≠ a.name := fun e => hn.1 (e ▸ List.mem_map_of_mem hb)
    unfold upd; rw [if_neg hne]
    exact h'.mem.mp (by simp [hb])
  · unfold upd at hv
    split at hv
    · cases hv
    · rename_i hne
      have hnm := h'.name hv
      have := h'.mem.mpr (by rw [hnm]; exact hv)
      rcases List.mem_cons.mp this with rfl | hb
      · exact absurd hnm.symm hne
      · exact ⟨hb, hnm⟩

theorem Map.insert {l₁ l₂ : List Manifest.Asset} {a : Manifest.Asset} {V} (h : Map (l₁ ++ l₂) V) (ha : V a.name = none) :
    Map (l₁ ++ a :: l₂) (upd V a.name (some a)) := by
  refine Map.perm ?_ List.perm_middle
  have hna : ∀ b ∈ l₁ ++ l₂, b.name ≠ a.name := fun b hb e => by
    have := h.mem.mp hb
    rw [e, ha] at this; cases this
  refine map_of_mem ?_ (fun b hb => ?_) fun n b hv => ?_
  · rw [List.map_cons, List.nodup_cons]
    refine ⟨fun hm => ?_, h.nodup⟩
    obtain ⟨b, hb, e⟩ := List.mem_map.mp hm
    exact hna b hb e
  · rcases List.mem_cons.mp hb with rfl | hb
    · simp [upd]
    · unfold upd; rw [if_neg (hna b hb)]; exact h.mem.mp hb
  · unfold upd at hv
    split at hv
    · cases hv; rename_i e; exact ⟨by simp, e.symm⟩
    · have hnm := h.name hv
      exact ⟨by simp [h.mem.mpr (by rw [hnm]; exact hv)], hnm⟩

theorem upd_upd (V : Name → Option Manifest.Asset) (n : Name) (v v' : Option Manifest.Asset) : upd (upd V n v) n v' = upd V n v' := by
  funext m; unfold upd; split <;> rfl

theorem Map.replace {l₁ l₂ : List Manifest.Asset} {a b : Manifest.Asset} {V} (h : Map (l₁ ++ a :: l₂) V) (hb : b.name = a.name) :
    Map (l₁ ++ b :: l₂) (upd V a.name (some b)) := by
  have := h.remove.insert (a := b) (by simp [upd, hb])
  rwa [hb, upd_upd] at this

/-! ### The lists of a directory -/

section
variable {cfg : Cfg}

theorem find_set (ls : Lists) (id id' : Id) (l : List Manifest.Asset) :
    (ls.set id l).find id' = if id' = id then some l else ls.find id' := by
  unfold Lists.set Lists.find Lists.erase
  by_cases h : id' = id
  · subst h; simp
  · rw [if_neg h, List.find?_cons_of_neg (by simpa using Ne.symm h)]
    congr 1
    rw [List.find?_filter]
    congr 1
    funext e
    by_cases he : e.1 = id'
    · have : e.1 ≠ id := by rw [he]; exact h
      simp [he, h]
    · simp [he]

theorem lookup_def (w : Work) (id : Id) : lookup cfg w id = (w.lists.find id).or (findAssets cfg.hash w.store id) := by
  unfold lookup getList
  cases w.lists.find id with
  | some l => rfl
  | none => cases findAssets cfg.hash w.store id <;> rfl

theorem lookup_set (w : Work) (id id' : Id) (l : List Manifest.Asset) :
    lookup cfg { w with lists := w.lists.set id l } id' = if id' = id then some l else lookup cfg w id' := by
  rw [lookup_def, lookup_def, find_set]
  split <;> rfl

theorem getList_spec {w : Work} {id : Id} {l : List Manifest.Asset} (h : lookup cfg w id = some l) :
    ∃ w', getList cfg w id = some (l, w') ∧ w'.store = w.store ∧ ∀ i, lookup cfg w' i = lookup cfg w i := by
  unfold lookup at h
  cases hg : getList cfg w id with
  | none => rw [hg] at h; cases h
  | some r =>
    obtain ⟨l', w'⟩ := r
    rw [hg] at h; cases h
    refine ⟨w', rfl, ?_⟩
    unfold getList at hg
    split at hg
    · cases hg; exact ⟨rfl, fun _ => rfl⟩
    · rename_i hn
      split at hg
      · cases hg
      · rename_i hl
        cases hg
        refine ⟨rfl, fun i => ?_⟩
        rw [lookup_set]
        split
        · rename_i e; rw [e, lookup_def, hn, hl]; rfl
        · rfl

theorem flat_cons {get : Id → Option (List Manifest.Asset)} {id : Id} {ids : List Id} {es : List Manifest.Asset}
    (h : flatAssets get (id :: ids) = some es) : ∃ l r, get id = some l ∧ flatAssets get ids = some r ∧ es = l ++ r := by
  unfold flatAssets at h
  split at h
  · rename_i l r h1 h2; cases h; exact ⟨l, r, h1, h2, rfl⟩
  · cases h

theorem flat_congr {get get' : Id → Option (List Manifest.Asset)} {ids : List Id} (h : ∀ i ∈ ids, get i = get' i) :
    flatAssets get ids = flatAssets get' ids := by
  induction ids with
  | nil => rfl
  | cons i ids ih =>
    unfold flatAssets
    rw [h i (by simp), ih fun j hj => h j (by simp [hj])]

theorem flat_mk {get : Id → Option (List Manifest.Asset)} {id : Id} {ids : List Id} {l r : List Manifest.Asset}
    (h1 : get id = some l) (h2 : flatAssets get ids = some r) : flatAssets get (id :: ids) = some (l ++ r) := by
  unfold flatAssets; rw [h1, h2]

/-- The first entry with the given name. -/
theorem inList_spec {σ ε : Type} {name : Name} {f : Manifest.Asset → σ → Except ε (Manifest.Asset × σ)} (l : List Manifest.Asset) (s : σ) :
    (inList name f l s = none ∧ ∀ a ∈ l, a.name ≠ name) ∨
    ∃ l₁ a l₂, l = l₁ ++ a :: l₂ ∧ a.name = name ∧ inList name f l s = some (match f a s with
      | .error e => .error e
      | .ok (b, s) => .ok (l₁ ++ b :: l₂, s)) := by
  induction l with
  | nil => exact .inl ⟨rfl, by simp⟩
  | cons c l ih =>
    unfold inList
    by_cases hc : c.name = name
    · rw [if_pos hc]
      exact .inr ⟨[], c, l, rfl, hc, rfl⟩
    · rw [if_neg hc]
      rcases ih with ⟨h1, h2⟩ | ⟨l₁, a, l₂, h1, h2, h3⟩
      · refine .inl ⟨by rw [h1]; rfl, fun a ha => ?_⟩
        rcases List.mem_cons.mp ha with rfl | ha
        · exact hc
        · exact h2 a ha
      · refine .inr ⟨c :: l₁, a, l₂, by rw [h1]; rfl, h2, ?_⟩
        rw [h3]
        cases f a s with
        | error => rfl
        | ok r => rfl

/-- The change made by `GetOrCreateAsset` to an existing entry. -/
def change (kind : Kind) (f : Manifest.Asset → Manifest.Asset) (a : Manifest.Asset) : Manifest.Asset :=
  if a.info.kind = kind then f a else a

/-- The function handed to `inDir` by `inAsset`. -/
def changer (kind : Kind) (f : Manifest.Asset → Manifest.Asset) (a : Manifest.Asset) (s : Work × Option Unit) :
    Except Err (Manifest.Asset × Work × Option Unit) :=
  if a.info.kind = kind then .ok (f a, s.1, some ()) else .ok (a, s.1, none)

theorem changer_eq (kind : Kind) (f) (a : Manifest.Asset) (w : Work) :
    changer kind f a (w, none) = .ok (change kind f a, w, if a.info.kind = kind then some () else none) := by
  unfold changer change; split <;> rfl

theorem inIndirect_spec (kind : Kind) (f) (name : Name) : (ids : List Id) → (w : Work) → (es : List Manifest.Asset) → ids.Nodup →
    flatAssets (lookup cfg w) ids = some es →
    (∃ w', inIndirect cfg name (changer kind f) ids w = .ok (none, w', false) ∧ (∀ a ∈ es, a.name ≠ name) ∧
      w'.store = w.store ∧ ∀ i, lookup cfg w' i = lookup cfg w i) ∨
    ∃ l₁ a l₂ w', es = l₁ ++ a :: l₂ ∧ a.name = name ∧
      inIndirect cfg name (changer kind f) ids w = .ok (if a.info.kind = kind then some () else none, w', true) ∧
      flatAssets (lookup cfg w') ids = some (l₁ ++ change kind f a :: l₂) ∧ w'.store = w.store ∧
      ∀ i, i ∉ ids → lookup cfg w' i = lookup cfg w i
  | [], w, es, _, h => by
    unfold flatAssets at h; cases h
    exact .inl ⟨w, rfl, by simp, rfl, fun _ => rfl⟩
  | id :: ids, w, es, hnd, h => by
    obtain ⟨l, r, h1, h2, rfl⟩ := flat_cons h
    obtain ⟨w1, hg, hs1, hw1⟩ := getList_spec h1
    rw [List.nodup_cons] at hnd
    unfold inIndirect
    rw [hg]
    dsimp only
    rcases inList_spec (f := changer kind f) l (w1, none) with ⟨h3, h4⟩ | ⟨l₁, a, l₂, h3, h4, h5⟩
    · rw [h3]
      dsimp only
      have h2' : flatAssets (lookup cfg w1) ids = some r := by rw [flat_congr fun i _ => hw1 i]; exact h2
      rcases inIndirect_spec kind f name ids w1 r hnd.2 h2' with ⟨w', g1, g2, g3, g4⟩ | ⟨l₁, a, l₂, w', g1, g2, g3, g4, g5, g6⟩
      · refine .inl ⟨w', g1, fun a ha => ?_, by rw [g3, hs1], fun i => by rw [g4, hw1]⟩
        rcases List.mem_append.mp ha with ha | ha
        · exact h4 a ha
        · exact g2 a ha
      · refine .inr ⟨l ++ l₁, a, l₂, w', by rw [g1, List.append_assoc], g2, g3, ?_, by rw [g5, hs1], fun i hi => ?_⟩
        · rw [List.append_assoc]
          exact flat_mk (by rw [g6 id hnd.1, hw1]; exact h1) g4
        · rw [g6 i (fun h => hi (by simp [h])), hw1]
    · rw [h5, changer_eq]
      refine .inr ⟨l₁, a, l₂ ++ r, { w1 with lists := w1.lists.set id (l₁ ++ change kind f a :: l₂) }, by rw [h3]; simp, h4, rfl, ?_, hs1, fun i hi => ?_⟩
      · have := flat_mk (get := lookup cfg { w1 with lists := w1.lists.set id (l₁ ++ change kind f a :: l₂) }) (id := id) (ids := ids)
          (l := l₁ ++ change kind f a :: l₂) (r := r) (by rw [lookup_set, if_pos rfl]) (by
            rw [← h2]
            refine flat_congr fun i hi => ?_
            rw [lookup_set, if_neg (fun e : i = id => hnd.1 (e ▸ hi)), hw1])
        rw [this]; simp
      · rw [lookup_set, if_neg (fun e : i = id => hi (by simp [e])), hw1]

/-- The entries of a directory and their map. -/
def Shows (cfg : Cfg) (dir : Manifest.Asset) (w : Work) (V : Name → Option Manifest.Asset) : Prop :=
  dir.info.kind = .directory ∧ dir.indirect.Nodup ∧ ∃ es, entries (lookup cfg w) dir = some es ∧ Map es V

theorem entries_some {get : Id → Option (List Manifest.Asset)} {dir : Manifest.Asset} {es : List Manifest.Asset} :
    entries get dir = some es ↔ ∃ r, flatAssets get dir.indirect = some r ∧ es = dir.children ++ r := by
  unfold entries
  constructor
  · intro h
    cases hr : flatAssets get dir.indirect with
    | none => rw [hr] at h; cases h
    | some r => rw [hr] at h; cases h; exact ⟨r, rfl, rfl⟩
  · rintro ⟨r, h1, rfl⟩; rw [h1]; rfl

theorem deleteFromList_spec {name : Name} (l : List Manifest.Asset) :
    (deleteFromList name l = none ∧ ∀ a ∈ l, a.name ≠ name) ∨
    ∃ l₁ a l₂ l', l = l₁ ++ a :: l₂ ∧ a.name = name ∧ deleteFromList name l = some l' ∧ l'.Perm (l₁ ++ l₂) := by
  unfold deleteFromList
  cases hi : l.findIdx? fun a => a.name = name with
  | none =>
    refine .inl ⟨rfl, fun a ha e => ?_⟩
    have := List.findIdx?_eq_none_iff.mp hi a ha
    simp [e] at this
  | some i =>
    rw [List.findIdx?_eq_some_iff_getElem] at hi
    obtain ⟨hlt, h1, -⟩ := hi
    have h1 : l[i].name = name := by simpa using h1
    have hl : l = l.take i ++ l[i] :: l.drop (i + 1) := by simp
    refine .inr ⟨l.take i, l[i], l.drop (i + 1), ?_⟩
    generalize hx : l[i] = a at *
    generalize hp : l.take i = l₁ at *
    generalize l.drop (i + 1) = l₂ at *
    have hlen : l₁.length = i := by rw [← hp, List.length_take]; omega
    subst hl
    rcases List.eq_nil_or_concat l₂ with rfl | ⟨m, z, rfl⟩
    · refine ⟨l₁, rfl, h1, ?_, by simp⟩
      rw [List.getLast?_append]
      simp [← hlen]
    · refine ⟨l₁ ++ z :: m, rfl, h1, ?_, ?_⟩
      · have : (l₁ ++ a :: m.concat z).getLast? = some z := by
          rw [List.concat_eq_append, show l₁ ++ a :: (m ++ [z]) = (l₁ ++ a :: m) ++ [z] by simp, List.getLast?_concat]
        rw [this]
        simp only [← hlen, List.set_append_right _ _ (Nat.le_refl _), Nat.sub_self, List.set_cons_zero]
        rw [List.concat_eq_append, show l₁ ++ z :: (m ++ [z]) = (l₁ ++ z :: m) ++ [z] by simp, List.dropLast_concat]
      · rw [List.concat_eq_append]
        exact List.Perm.append_left _ (by simpa using (List.perm_append_comm (l₁ := [z]) (l₂ := m)))

theorem deleteFromIndirect_spec (name : Name) : (ids : List Id) → (w : Work) → (es : List Manifest.Asset) → ids.Nodup →
    flatAssets (lookup cfg w) ids = some es →
    (∃ w', deleteFromIndirect cfg name ids w = .ok w' ∧ (∀ a ∈ es, a.name ≠ name) ∧
      w'.store = w.store ∧ ∀ i, lookup cfg w' i = lookup cfg w i) ∨
    ∃ l₁ a l₂ w' es', es = l₁ ++ a :: l₂ ∧ a.name = name ∧ deleteFromIndirect cfg name ids w = .ok w' ∧
      flatAssets (lookup cfg w') ids = some es' ∧ es'.Perm (l₁ ++ l₂) ∧ w'.store = w.store ∧
      ∀ i, i ∉ ids → lookup cfg w' i = lookup cfg w i
  | [], w, es, _, h => by
    unfold flatAssets at h; cases h
    exact .inl ⟨w, rfl, by simp, rfl, fun _ => rfl⟩
  | id :: ids, w, es, hnd, h => by
    obtain ⟨l, r, h1, h2, rfl⟩ := flat_cons h
    obtain ⟨w1, hg, hs1, hw1⟩ := getList_spec h1
    rw [List.nodup_cons] at hnd
    unfold deleteFromIndirect
    rw [hg]
    dsimp only
    rcases deleteFromList_spec (name := name) l with ⟨h3, h4⟩ | ⟨l₁, a, l₂, l', h3, h4, h5, h6⟩
    · rw [h3]
      dsimp only
      have h2' : flatAssets (lookup cfg w1) ids = some r := by rw [flat_congr fun i _ => hw1 i]; exact h2
      rcases deleteFromIndirect_spec name ids w1 r hnd.2 h2' with ⟨w', g1, g2, g3, g4⟩ | ⟨l₁, a, l₂, w', es', g1, g2, g3, g4, g5, g6, g7⟩
      · refine .inl ⟨w', g1, fun a ha => ?_, by rw [g3, hs1], fun i => by rw [g4, hw1]⟩
        rcases List.mem_append.mp ha with ha | ha
        · exact h4 a ha
        · exact g2 a ha
      · refine .inr ⟨l ++ l₁, a, l₂, w', l ++ es', by rw [g1, List.append_assoc], g2, g3, ?_, ?_, by rw [g6, hs1], fun i hi => ?_⟩
        · exact flat_mk (by rw [g7 id hnd.1, hw1]; exact h1) g4
        · rw [List.append_assoc]; exact List.Perm.append_left _ g5
        · rw [g7 i (fun h => hi (by simp [h])), hw1]
    · rw [h5]
      refine .inr ⟨l₁, a, l₂ ++ r, { w1 with lists := w1.lists.set id l' }, l' ++ r, by rw [h3]; simp, h4, rfl, ?_, ?_, hs1, fun i hi => ?_⟩
      · refine flat_mk (by rw [lookup_set, if_pos rfl]) ?_
        rw [← h2]
        refine flat_congr fun i hi => ?_
        rw [lookup_set, if_neg (fun e : i = id => hnd.1 (e ▸ hi)), hw1]
      · rw [← List.append_assoc]; exact List.Perm.append_right _ h6
      · rw [lookup_set, if_neg (fun e : i = id => hi (by simp [e])), hw1]

theorem Map.upd_none {es : List Manifest.Asset} {V} (h : Map es V) {n : Name} (hn : ∀ a ∈ es, a.name ≠ n) : V = upd V n none := by
  funext m
  unfold upd
  split
  · rename_i e
    cases hv : V m with
    | none => rfl
    | some a =>
      have := h.name hv
      exact absurd (this.trans e) (hn a (h.mem.mpr (by rw [this]; exact hv)))
  · rfl

/-- Everything the steps leave alone. -/
structure Rest (dir dir' : Manifest.Asset) (w w' : Work) (cfg : Cfg) : Prop where
  info : dir'.info = dir.info
  ids : dir'.indirect = dir.indirect
  store : w'.store = w.store
  lists : ∀ i, i ∉ dir.indirect → lookup cfg w' i = lookup cfg w i

theorem delete_shows {dir : Manifest.Asset} {w : Work} {V} (h : Shows cfg dir w V) (n : Name) :
    ∃ dir' w' r, deleteFromDir cfg n dir w = .ok (dir', w', r) ∧ Shows cfg dir' w' (upd V n none) ∧ Rest dir dir' w w' cfg := by
  obtain ⟨hk, hnd, es, hes, hm⟩ := h
  obtain ⟨r, hr, rfl⟩ := entries_some.mp hes
  unfold deleteFromDir
  rw [if_neg (by simpa using hk)]
  rcases deleteFromList_spec (name := n) dir.children with ⟨h1, h2⟩ | ⟨l₁, a, l₂, l', h1, rfl, h3, h4⟩
  · rw [h1]
    dsimp only
    rcases deleteFromIndirect_spec n dir.indirect w r hnd hr with ⟨w', g1, g2, g3, g4⟩ | ⟨l₁, a, l₂, w', es', g1, rfl, g3, g4, g5, g6, g7⟩
    · rw [g1]
      refine ⟨dir, w', none, rfl, ⟨hk, hnd, dir.children ++ r, ?_, ?_⟩, rfl, rfl, g3, fun i _ => g4 i⟩
      · exact entries_some.mpr ⟨r, by rw [flat_congr fun i _ => g4 i]; exact hr, rfl⟩
      · rw [← hm.upd_none fun a ha => (List.mem_append.mp ha).elim (h2 a) (g2 a)]; exact hm
    · rw [g3]
      refine ⟨dir, w', none, rfl, ⟨hk, hnd, dir.children ++ es', entries_some.mpr ⟨es', g4, rfl⟩, ?_⟩, rfl, rfl, g6, g7⟩
      rw [g1, ← List.append_assoc] at hm
      exact hm.remove.perm (by rw [List.append_assoc]; exact List.Perm.append_left _ g5)
  · rw [h3]
    refine ⟨_, w, none, rfl, ⟨hk, hnd, l' ++ r, entries_some.mpr ⟨r, hr, rfl⟩, ?_⟩, rfl, rfl, rfl, fun _ _ => rfl⟩
    rw [h1, List.append_assoc, List.cons_append] at hm
    refine hm.remove.perm ?_
    rw [← List.append_assoc]; exact List.Perm.append_right _ h4

theorem append_shows {dir : Manifest.Asset} {w : Work} {V} (h : Shows cfg dir w V) (a : Manifest.Asset) (ha : V a.name = none) :
    Shows cfg (.mk dir.info (dir.children ++ [a]) dir.indirect) w (upd V a.name (some a)) := by
  obtain ⟨hk, hnd, es, hes, hm⟩ := h
  obtain ⟨r, hr, rfl⟩ := entries_some.mp hes
  refine ⟨hk, hnd, (dir.children ++ [a]) ++ r, entries_some.mpr ⟨r, hr, rfl⟩, ?_⟩
  rw [List.append_assoc]
  exact hm.insert ha

/-- The asset after `GetOrCreateAsset(.., force_create = true)` and the change `f`. -/
def forced (cfg : Cfg) (kind : Kind) (n : Name) (f : Manifest.Asset → Manifest.Asset) (old : Option Manifest.Asset) : Manifest.Asset :=
  match old with
  | some o => if o.info.kind = kind then f o else f (newAsset cfg n kind)
  | none => f (newAsset cfg n kind)

theorem inAsset_shows {dir : Manifest.Asset} {w : Work} {V} (h : Shows cfg dir w V) (kind : Kind) (n : Name) (f)
    (hf : ∀ a, (f a).name = a.name) :
    ∃ dir' w' r, inAsset cfg kind true n f dir w = .ok (dir', w', r) ∧
      Shows cfg dir' w' (upd V n (some (forced cfg kind n f (V n)))) ∧ Rest dir dir' w w' cfg := by
  have hnew : (f (newAsset cfg n kind)).name = n := by rw [hf]; rfl
  have hsh := h
  obtain ⟨hk, hnd, es, hes, hm⟩ := h
  obtain ⟨r, hr, rfl⟩ := entries_some.mp hes
  unfold inAsset
  rw [if_neg (by simpa using hk)]
  show ∃ dir' w' r, ((match inDir cfg n (changer kind f) dir w with
    | .error e => .error e
    | .ok (dir, w, some (), _) => .ok (dir, w, some ())
    | .ok (dir, w, none, true) =>
      if true then
        match deleteFromDir cfg n dir w with
        | .error e => .error e
        | .ok (dir, w, _) => .ok (.mk dir.info (dir.children ++ [f (newAsset cfg n kind)]) dir.indirect, w, some ())
      else .error .exists_
    | .ok (dir, w, none, false) =>
      .ok (.mk dir.info (dir.children ++ [f (newAsset cfg n kind)]) dir.indirect, w, some ())) : Except Err (Manifest.Asset × Work × Option Unit)) = .ok (dir', w', r) ∧ _
  -- the three outcomes of the search
  have key : (∃ w', inDir cfg n (changer kind f) dir w = .ok (dir, w', none, false) ∧ Shows cfg dir w' V ∧ V n = none ∧ Rest dir dir w w' cfg) ∨
      (∃ a dir' w', V n = some a ∧ inDir cfg n (changer kind f) dir w = .ok (dir', w', if a.info.kind = kind then some () else none, true) ∧
        Shows cfg dir' w' (upd V n (some (change kind f a))) ∧ Rest dir dir' w w' cfg) := by
    unfold inDir
    rcases inList_spec (f := changer kind f) (name := n) dir.children (w, none) with ⟨h1, h2⟩ | ⟨l₁, a, l₂, h1, h2, h3⟩
    · rw [h1]
      dsimp only
      rcases inIndirect_spec kind f n dir.indirect w r hnd hr with ⟨w', g1, g2, g3, g4⟩ | ⟨l₁, a, l₂, w', g1, g2, g3, g4, g5, g6⟩
      · rw [g1]
        have hv : V n = none := by
          rw [hm.upd_none fun a ha => (List.mem_append.mp ha).elim (h2 a) (g2 a)]; simp [upd]
        exact .inl ⟨w', rfl, ⟨hk, hnd, _, entries_some.mpr ⟨r, by rw [flat_congr fun i _ => g4 i]; exact hr, rfl⟩, hm⟩, hv,
          rfl, rfl, g3, fun i _ => g4 i⟩
      · rw [g3]
        rw [g1, ← List.append_assoc] at hm
        refine .inr ⟨a, dir, w', ?_, rfl, ⟨hk, hnd, _, entries_some.mpr ⟨_, g4, rfl⟩, ?_⟩, rfl, rfl, g5, g6⟩
        · rw [← g2]; exact hm.mem.mp (by simp)
        · rw [← List.append_assoc, ← g2]
          exact hm.replace (by unfold change; split; exact hf a; rfl)
    · rw [h3, changer_eq]
      rw [h1, List.append_assoc, List.cons_append] at hm
      refine .inr ⟨a, _, w, ?_, rfl, ⟨hk, hnd, _, entries_some.mpr ⟨r, hr, rfl⟩, ?_⟩, rfl, rfl, rfl, fun _ _ => rfl⟩
      · rw [← h2]; exact hm.mem.mp (by simp)
      · rw [Manifest.Asset.children_mk, List.append_assoc, List.cons_append, ← h2]
        exact hm.replace (by unfold change; split; exact hf a; rfl)
  rcases key with ⟨w', h1, h2, h3, h4⟩ | ⟨a, dir', w', h1, h2, h3, h4⟩
  · rw [h1]
    refine ⟨_, w', some (), rfl, ?_, ⟨rfl, rfl, h4.store, h4.lists⟩⟩
    have := append_shows h2 (f (newAsset cfg n kind)) (by rw [hnew]; exact h3)
    rw [hnew] at this
    rw [h3]; exact this
  · rw [h2]
    unfold change at h3
    by_cases hkind : a.info.kind = kind
    · rw [if_pos hkind] at h3 ⊢
      refine ⟨dir', w', some (), rfl, ?_, h4⟩
      rw [h1]
      simpa only [forced, if_pos hkind] using h3
    · rw [if_neg hkind] at h3 ⊢
      dsimp only
      rw [if_pos rfl]
      obtain ⟨dir2, w2, r2, g1, g2, g3⟩ := delete_shows h3 n
      rw [g1]
      refine ⟨_, w2, some (), rfl, ?_, ⟨by rw [Manifest.Asset.info_mk, g3.info, h4.info], by rw [Manifest.Asset.indirect_mk, g3.ids, h4.ids],
        by rw [g3.store, h4.store], fun i hi => by rw [g3.lists i (by rw [h4.ids]; exact hi), h4.lists i hi]⟩⟩
      rw [upd_upd] at g2
      have := append_shows g2 (f (newAsset cfg n kind)) (by rw [hnew]; simp [upd])
      rw [hnew, upd_upd] at this
      rw [h1]
      simpa only [forced, if_neg hkind] using this

end

end Verif.Updater
