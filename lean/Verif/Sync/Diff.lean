import Verif.Text.Path
import Verif.Util.Bytes
import Verif.Util.Sort
import Mathlib.Data.List.Nodup

/-! # C34, C35: the server's file list and the comparison with the client's

cdc_rsync_server/file_finder.cc, cdc_rsync_server/file_diff_generator.cc. -/
namespace Verif.Sync
open Verif.Text.Path (Str)

/-- What `base_dir` points to: nothing (client files), `destination_` or `copy_dest_`. Pointers are compared in the code; both
strings are members of the server and are not changed after the files were found. -/
inductive Base where
  | none | dest | copyDest
deriving DecidableEq, Repr

/-- `FileInfo`, cdc_rsync_server/file_info.h:24-44. -/
structure File where
  path : Str
  mtime : Int
  size : Nat
  index : Nat
  base : Base
deriving DecidableEq, Repr

/-- `DirInfo`, cdc_rsync_server/file_info.h:46-60. -/
structure Dir where
  path : Str
  index : Nat
  base : Base
deriving DecidableEq, Repr

/-- `ChangedFileInfo`, cdc_rsync_server/file_info.h:63-79. -/
structure Changed where
  path : Str
  mtime : Int
  size : Nat
  serverSize : Nat
  index : Nat
  base : Base
deriving DecidableEq, Repr

/-- `kInvalidIndex`. -/
def invalidIndex : Nat := 2 ^ 32 - 1

/-- The constructor of `ChangedFileInfo`. -/
def Changed.mk' (server client : File) : Changed := ⟨client.path, client.mtime, client.size, server.size, client.index, server.base⟩

/-- `std::unique` with equality of paths: of each run of elements with the same path the first is kept. -/
def uniqueBy {α : Type} (path : α → Str) : List α → List α
  | [] => []
  | a :: l => a :: (uniqueBy path l).dropWhile (fun b => path b == path a)

/-- Order by path. -/
def byPath {α : Type} (path : α → Str) (a b : α) : Bool := Util.leBytes (path a) (path b)

/-! ## The finder -/

/-- What the search of a directory reports for each entry (`SearchHandler`): the directory relative to the base directory, name,
modification time, size. -/
structure Found where
  dir : Str
  name : Str
  mtime : Int
  size : Nat
  isDir : Bool
deriving DecidableEq, Repr

/-- The path of an entry, file_finder.cc:32. The server runs on Linux. -/
def Found.path (f : Found) : Str := Text.Path.join false f.dir f.name

/-- `FileFinder::AddFiles`, file_finder.cc:26-57: the files and directories added. -/
def addFiles (base : Base) (filter : Str → Bool) (found : List Found) : List File :=
  (found.filter fun f => filter f.path && ! f.isDir).map fun f => ⟨f.path, f.mtime, f.size, invalidIndex, base⟩
def addDirs (base : Base) (filter : Str → Bool) (found : List Found) : List Dir :=
  (found.filter fun f => filter f.path && f.isDir).map fun f => ⟨f.path, invalidIndex, base⟩

/-- `ReleaseFiles`, file_finder.cc:59-92: `stable_sort`, then `unique`. -/
def release {α : Type} (path : α → Str) (l : List α) : List α := uniqueBy path (Util.isort (byPath path) l)

/-- `FindFiles`, cdc_rsync_server.cc:452-476; the second listing is that of the copy-dest directory, if used. -/
def serverFiles (filter : Str → Bool) (dest copyDest : List Found) : List File :=
  release File.path (addFiles .dest filter dest ++ addFiles .copyDest filter copyDest)
def serverDirs (filter : Str → Bool) (dest copyDest : List Found) : List Dir :=
  release Dir.path (addDirs .dest filter dest ++ addDirs .copyDest filter copyDest)

/-! ## The comparison -/

/-- `file_diff::Result`. -/
structure Result where
  missing : List File := []
  extraneous : List File := []
  changed : List Changed := []
  matching : List File := []
  missingDirs : List Dir := []
  extraneousDirs : List Dir := []
  matchingDirs : List Dir := []

structure Cfg where
  /-- `copy_dest` is not empty -/
  copyDest : Bool
  doubleCheck : Bool
  /-- `path::GetStats` in `FindFile`, file_diff_generator.cc:52-62: modification time and size -/
  stat : Base → Str → Option (Int × Nat)

/-- `FilesMatch`, file_diff_generator.cc:68-73. -/
def filesMatch (cfg : Cfg) (client server : File) : Bool :=
  client.size == server.size && client.mtime == server.mtime && (! cfg.copyDest || server.base != .copyDest)

/-- `FindFile`, file_diff_generator.cc:52-62. -/
def findFile (cfg : Cfg) (base : Base) (path : Str) : Option File :=
  (cfg.stat base path).map fun s => ⟨path, s.1, s.2, invalidIndex, base⟩

/-- The double check, file_diff_generator.cc:115-122. -/
def doubleCheck (cfg : Cfg) (path : Str) : Option File :=
  if cfg.doubleCheck then
    match findFile cfg .dest path with
    | some f => some f
    | none => if cfg.copyDest then findFile cfg .copyDest path else none
  else none

/-- A client file for which the server has the given file, file_diff_generator.cc:125-130, 135-143. -/
def bucket (cfg : Cfg) (client : File) (server : Option File) (r : Result) : Result :=
  match server with
  | none => { r with missing := client :: r.missing }
  | some s => if filesMatch cfg client s then { r with matching := client :: r.matching }
    else { r with changed := Changed.mk' s client :: r.changed }

/-- The loop over files, file_diff_generator.cc:104-145; the lists are sorted. -/
def diffFiles (cfg : Cfg) : (client server : List File) → Result
  | [], [] => {}
  | [], s :: ss => let r := diffFiles cfg [] ss; { r with extraneous := s :: r.extraneous }
  | c :: cs, [] => bucket cfg c (doubleCheck cfg c.path) (diffFiles cfg cs [])
  | c :: cs, s :: ss =>
    if Util.ltBytes c.path s.path then bucket cfg c (doubleCheck cfg c.path) (diffFiles cfg cs (s :: ss))
    else if Util.ltBytes s.path c.path then
      let r := diffFiles cfg (c :: cs) ss; { r with extraneous := s :: r.extraneous }
    else bucket cfg c (some s) (diffFiles cfg cs ss)
termination_by c s => c.length + s.length

/-- The loop over directories, file_diff_generator.cc:151-175. -/
def diffDirs (cfg : Cfg) : (client server : List Dir) → Result → Result
  | [], [], r => r
  | [], s :: ss, r => let r := diffDirs cfg [] ss r; { r with extraneousDirs := s :: r.extraneousDirs }
  | c :: cs, [], r => let r := diffDirs cfg cs [] r; { r with missingDirs := c :: r.missingDirs }
  | c :: cs, s :: ss, r =>
    if Util.ltBytes c.path s.path then
      let r := diffDirs cfg cs (s :: ss) r; { r with missingDirs := c :: r.missingDirs }
    else if Util.ltBytes s.path c.path then
      let r := diffDirs cfg (c :: cs) ss r; { r with extraneousDirs := s :: r.extraneousDirs }
    else
      let r := diffDirs cfg cs ss r
      if cfg.copyDest && s.base == .copyDest then { r with missingDirs := c :: r.missingDirs }
      else { r with matchingDirs := c :: r.matchingDirs }
termination_by c s => c.length + s.length

/-- Removal of entries in the copy-dest directory, file_diff_generator.cc:180-196. -/
def keepCopyDest (cfg : Cfg) (r : Result) : Result :=
  if cfg.copyDest then
    { r with extraneous := r.extraneous.filter (·.base != .copyDest), extraneousDirs := r.extraneousDirs.filter (·.base != .copyDest) }
  else r

/-- A possible result of `std::sort` by path, which is not stable. -/
structure Sorts {α : Type} (path : α → Str) (l l' : List α) : Prop where
  perm : l'.Perm l
  sorted : l'.Pairwise fun a b => Util.leBytes (path a) (path b) = true

/-- `Generate`, file_diff_generator.cc:77-207. A relation, as `std::sort` may order elements with the same path in any way. -/
inductive Generate (cfg : Cfg) (client server : List File) (clientDirs serverDirs : List Dir) : Result → Prop where
  | mk {c s : List File} {cd sd : List Dir} : Sorts File.path client c → Sorts File.path server s →
      Sorts Dir.path clientDirs cd → Sorts Dir.path serverDirs sd →
      Generate cfg client server clientDirs serverDirs
        (keepCopyDest cfg (diffDirs cfg (uniqueBy Dir.path cd) sd (diffFiles cfg (uniqueBy File.path c) s)))

/-- `AdjustToFlagsAndGetStats`, file_diff_generator.cc:215-262: the lists. -/
def adjust (existing checksum whole : Bool) (r : Result) : Result :=
  let r := if existing then { r with missing := [], missingDirs := [] } else r
  let r := if checksum then { r with changed := r.changed ++ r.matching.map fun f => Changed.mk' f f, matching := [] } else r
  if whole then
    { r with missing := r.missing ++ r.changed.map fun c => ⟨c.path, c.mtime, c.size, c.index, .none⟩, changed := [] }
  else r

/-! ## Specification -/

/-- The file the server has for a path, if any: the listed one or, if not listed and the disk is to be checked again, the one in
the destination directory or else the one in the copy-dest directory. -/
inductive ServerHas (cfg : Cfg) (server : List File) (path : Str) : Option File → Prop where
  | listed {s : File} : s ∈ server → s.path = path → ServerHas cfg server path (some s)
  | found {m : Int} {z : Nat} : (∀ s ∈ server, s.path ≠ path) → cfg.doubleCheck = true → cfg.stat .dest path = some (m, z) →
      ServerHas cfg server path (some ⟨path, m, z, invalidIndex, .dest⟩)
  | foundCopy {m : Int} {z : Nat} : (∀ s ∈ server, s.path ≠ path) → cfg.doubleCheck = true → cfg.stat .dest path = none →
      cfg.copyDest = true → cfg.stat .copyDest path = some (m, z) → ServerHas cfg server path (some ⟨path, m, z, invalidIndex, .copyDest⟩)
  | absent : (∀ s ∈ server, s.path ≠ path) →
      (cfg.doubleCheck = true → cfg.stat .dest path = none ∧ (cfg.copyDest = true → cfg.stat .copyDest path = none)) →
      ServerHas cfg server path none

/-- The server already has the file in its destination directory, with the same size and modification time. -/
def HasSame (server : Option File) (c : File) : Prop :=
  ∃ s, server = some s ∧ s.base = .dest ∧ s.size = c.size ∧ s.mtime = c.mtime

/-- Each client path is in exactly one list, in exactly one entry. -/
def Partition (client : List File) (r : Result) : Prop :=
  (r.missing.map File.path ++ r.matching.map File.path ++ r.changed.map Changed.path).Nodup ∧
  ∀ p, p ∈ r.missing.map File.path ++ r.matching.map File.path ++ r.changed.map Changed.path ↔ p ∈ client.map File.path

/-! ## Proof -/

section unique
variable {α : Type} {path : α → Str}

theorem uniqueBy_subset {l : List α} {a : α} (h : a ∈ uniqueBy path l) : a ∈ l := by
  induction l with
  | nil => exact h
  | cons b l ih =>
    rcases List.mem_cons.mp h with rfl | h
    · simp
    · exact List.mem_cons_of_mem _ (ih (List.dropWhile_sublist _ |>.mem h))

theorem uniqueBy_sublist (l : List α) : (uniqueBy path l).Sublist l := by
  induction l with
  | nil => exact .refl _
  | cons b l ih => exact ((List.dropWhile_sublist _).trans ih).cons_cons b

theorem dropWhile_sorted {l : List α} {p : Str} (hs : l.Pairwise fun a b => Util.leBytes (path a) (path b) = true)
    (hp : ∀ a ∈ l, Util.leBytes p (path a) = true) : ∀ a, a ∈ l.dropWhile (fun b => path b == p) ↔ a ∈ l ∧ path a ≠ p := by
  induction l with
  | nil => simp
  | cons b l ih =>
    rw [List.pairwise_cons] at hs
    intro a
    rw [List.dropWhile_cons]
    by_cases hb : path b = p
    · rw [if_pos (by simpa using hb), ih hs.2 fun a ha => hp a (by simp [ha])]
      constructor
      · rintro ⟨h1, h2⟩; exact ⟨by simp [h1], h2⟩
      · rintro ⟨h1, h2⟩
        rcases List.mem_cons.mp h1 with rfl | h1
        · exact absurd hb h2
        · exact ⟨h1, h2⟩
    · rw [if_neg (by simpa using hb)]
      constructor
      · intro h
        refine ⟨h, ?_⟩
        rcases List.mem_cons.mp h with rfl | h
        · exact hb
        · intro e
          exact hb (Util.leBytes_antisymm (by rw [← e]; exact hs.1 a h) (hp b (by simp)))
      · exact fun h => h.1

/-- The result of `unique` on a sorted list: strictly sorted, and of each path the first element. -/
theorem uniqueBy_spec {l : List α} (hs : l.Pairwise fun a b => Util.leBytes (path a) (path b) = true) :
    (uniqueBy path l).Pairwise (fun a b => Util.ltBytes (path a) (path b) = true) ∧
    ∀ a, a ∈ uniqueBy path l ↔ l.find? (fun b => path b == path a) = some a := by
  induction l with
  | nil => exact ⟨.nil, by simp [uniqueBy]⟩
  | cons b l ih =>
    rw [List.pairwise_cons] at hs
    obtain ⟨h1, h2⟩ := ih hs.2
    have hle : (uniqueBy path l).Pairwise fun a b => Util.leBytes (path a) (path b) = true := hs.2.sublist (uniqueBy_sublist l)
    have hmem := dropWhile_sorted (p := path b) hle (fun a ha => hs.1 a (uniqueBy_subset ha))
    constructor
    · refine List.pairwise_cons.mpr ⟨fun a ha => ?_, h1.sublist (List.dropWhile_sublist _)⟩
      obtain ⟨h3, h4⟩ := (hmem a).mp ha
      exact Util.ltBytes_of_le_ne (hs.1 a (uniqueBy_subset h3)) (Ne.symm h4)
    · intro a
      unfold uniqueBy
      rw [List.mem_cons, hmem, List.find?_cons, h2]
      by_cases hb : path b = path a
      · have : (path b == path a) = true := by simpa using hb
        rw [this]
        simp [hb, eq_comm]
      · have : (path b == path a) = false := by simpa using hb
        rw [this]
        constructor
        · rintro (rfl | h)
          · exact absurd rfl hb
          · exact h.1
        · exact fun h => .inr ⟨h, Ne.symm hb⟩

theorem find_isort (l : List α) (p : Str) :
    (Util.isort (byPath path) l).find? (fun b => path b == p) = l.find? (fun b => path b == p) := by
  rw [← List.head?_filter, ← List.head?_filter, Util.isort_filter]
  intro a _ b _ ha hb
  have ha : path a = p := by simpa using ha
  have hb : path b = p := by simpa using hb
  show Util.leBytes (path a) (path b) = true
  rw [ha, hb]; exact Util.leBytes_refl p

theorem release_spec (l : List α) : (release path l).Pairwise (fun a b => Util.ltBytes (path a) (path b) = true) ∧
    ∀ a, a ∈ release path l ↔ l.find? (fun b => path b == path a) = some a := by
  have hs : (Util.isort (byPath path) l).Pairwise fun a b => Util.leBytes (path a) (path b) = true :=
    Util.isort_pairwise (le := byPath path) (fun _ _ _ => Util.leBytes_trans) (fun a b => Util.leBytes_total _ _) l
  obtain ⟨h1, h2⟩ := uniqueBy_spec hs
  exact ⟨h1, fun a => by rw [release, h2, find_isort]⟩

theorem nodup_of_strict {l : List α} (h : l.Pairwise fun a b => Util.ltBytes (path a) (path b) = true) : (l.map path).Nodup :=
  List.pairwise_map.mpr (h.imp fun h => Util.ltBytes_ne h)

end unique

/-- What is found in a directory. -/
def isFile (filter : Str → Bool) (p : Str) (f : Found) : Prop := f.path = p ∧ filter p = true ∧ f.isDir = false
def isDirectory (filter : Str → Bool) (p : Str) (f : Found) : Prop := f.path = p ∧ filter p = true ∧ f.isDir = true

theorem find_append_map {α β : Type} (path : β → Str) (f g : α → β) (l m : List α) (p : Str) :
    (l.map f ++ m.map g).find? (fun b => path b == p) =
      match l.find? (fun a => path (f a) == p) with
      | some a => some (f a)
      | none => (m.find? (fun a => path (g a) == p)).map g := by
  rw [List.find?_append, List.find?_map, List.find?_map]
  show ((l.find? (fun a => path (f a) == p)).map f).or _ = _
  cases l.find? (fun a => path (f a) == p) <;> rfl

/-- C35: every path is listed at most once; it is listed iff it is in one of the two directories (and not filtered out), and the
entry is that of the destination directory if it is there. -/
theorem C35_destination_wins (filter : Str → Bool) (dest copyDest : List Found) :
    ((serverFiles filter dest copyDest).map File.path).Nodup ∧
    (∀ f ∈ serverFiles filter dest copyDest,
      (f.base = .dest ∧ ∃ e ∈ dest, isFile filter f.path e ∧ f.mtime = e.mtime ∧ f.size = e.size) ∨
      (f.base = .copyDest ∧ (∀ e ∈ dest, ¬ isFile filter f.path e) ∧
        ∃ e ∈ copyDest, isFile filter f.path e ∧ f.mtime = e.mtime ∧ f.size = e.size)) ∧
    (∀ p, (∃ f ∈ serverFiles filter dest copyDest, f.path = p) ↔
      (∃ e ∈ dest, isFile filter p e) ∨ ∃ e ∈ copyDest, isFile filter p e) := by
  obtain ⟨h1, h2⟩ := release_spec (path := File.path) (addFiles .dest filter dest ++ addFiles .copyDest filter copyDest)
  have hmem : ∀ (b : Base) (l : List Found) (f : File), f ∈ addFiles b filter l ↔
      f.base = b ∧ f.index = invalidIndex ∧ ∃ e ∈ l, isFile filter f.path e ∧ f.mtime = e.mtime ∧ f.size = e.size := by
    intro b l f
    simp only [addFiles, List.mem_map, List.mem_filter, isFile]
    constructor
    · rintro ⟨e, ⟨he, hf⟩, rfl⟩
      simp only [Bool.and_eq_true, Bool.not_eq_true'] at hf
      exact ⟨rfl, rfl, e, he, ⟨rfl, hf.1, hf.2⟩, rfl, rfl⟩
    · rintro ⟨hb, hi, e, he, ⟨hp, hf, hd⟩, hm, hs⟩
      refine ⟨e, ⟨he, by rw [hp, hf, hd]; rfl⟩, ?_⟩
      cases f
      simp only at hb hi hp hm hs
      simp [hb, hi, hp, hm, hs]
  refine ⟨nodup_of_strict h1, fun f hf => ?_, fun p => ⟨?_, ?_⟩⟩
  · have h3 := (h2 f).mp hf
    rw [List.find?_append] at h3
    cases hd : (addFiles .dest filter dest).find? (fun b => b.path == f.path) with
    | some g =>
      rw [hd] at h3
      cases h3
      obtain ⟨hb, -, e, he⟩ := (hmem .dest dest f).mp (List.mem_of_find?_eq_some hd)
      exact .inl ⟨hb, e, he⟩
    | none =>
      rw [hd] at h3
      obtain ⟨hb, -, e, he⟩ := (hmem .copyDest copyDest f).mp (List.mem_of_find?_eq_some h3)
      refine .inr ⟨hb, fun e' he' hi => ?_, e, he⟩
      have := List.find?_eq_none.mp hd ⟨e'.path, e'.mtime, e'.size, invalidIndex, .dest⟩
        ((hmem _ _ _).mpr ⟨rfl, rfl, e', he', ⟨rfl, by rw [hi.1]; exact hi.2.1, hi.2.2⟩, rfl, rfl⟩)
      simp [hi.1] at this
  · rintro ⟨f, hf, rfl⟩
    have h3 := List.mem_of_find?_eq_some ((h2 f).mp hf)
    rcases List.mem_append.mp h3 with h | h
    · obtain ⟨-, -, e, he, h4, -⟩ := (hmem _ _ _).mp h
      exact .inl ⟨e, he, h4⟩
    · obtain ⟨-, -, e, he, h4, -⟩ := (hmem _ _ _).mp h
      exact .inr ⟨e, he, h4⟩
  · intro h
    have : ∃ g ∈ addFiles .dest filter dest ++ addFiles .copyDest filter copyDest, g.path = p := by
      rcases h with ⟨e, he, hi⟩ | ⟨e, he, hi⟩
      · exact ⟨⟨e.path, e.mtime, e.size, invalidIndex, .dest⟩, List.mem_append_left _ ((hmem _ _ _).mpr
          ⟨rfl, rfl, e, he, ⟨rfl, by rw [hi.1]; exact hi.2.1, hi.2.2⟩, rfl, rfl⟩), hi.1⟩
      · exact ⟨⟨e.path, e.mtime, e.size, invalidIndex, .copyDest⟩, List.mem_append_right _ ((hmem _ _ _).mpr
          ⟨rfl, rfl, e, he, ⟨rfl, by rw [hi.1]; exact hi.2.1, hi.2.2⟩, rfl, rfl⟩), hi.1⟩
    obtain ⟨g, hg, hp⟩ := this
    cases hf : (addFiles .dest filter dest ++ addFiles .copyDest filter copyDest).find? (fun b => b.path == p) with
    | none => exact absurd (by simpa using hp) (List.find?_eq_none.mp hf g hg)
    | some f =>
      have hfp : f.path = p := by simpa using List.find?_some hf
      exact ⟨f, (h2 f).mpr (by rw [hfp]; exact hf), hfp⟩

/-- C35 for directories. -/
theorem C35_destination_wins_dirs (filter : Str → Bool) (dest copyDest : List Found) :
    ((serverDirs filter dest copyDest).map Dir.path).Nodup ∧
    (∀ f ∈ serverDirs filter dest copyDest,
      (f.base = .dest ∧ ∃ e ∈ dest, isDirectory filter f.path e) ∨
      (f.base = .copyDest ∧ (∀ e ∈ dest, ¬ isDirectory filter f.path e) ∧ ∃ e ∈ copyDest, isDirectory filter f.path e)) ∧
    (∀ p, (∃ f ∈ serverDirs filter dest copyDest, f.path = p) ↔
      (∃ e ∈ dest, isDirectory filter p e) ∨ ∃ e ∈ copyDest, isDirectory filter p e) := by
  obtain ⟨h1, h2⟩ := release_spec (path := Dir.path) (addDirs .dest filter dest ++ addDirs .copyDest filter copyDest)
  have hmem : ∀ (b : Base) (l : List Found) (f : Dir), f ∈ addDirs b filter l ↔
      f.base = b ∧ f.index = invalidIndex ∧ ∃ e ∈ l, isDirectory filter f.path e := by
    intro b l f
    simp only [addDirs, List.mem_map, List.mem_filter, isDirectory]
    constructor
    · rintro ⟨e, ⟨he, hf⟩, rfl⟩
      simp only [Bool.and_eq_true] at hf
      exact ⟨rfl, rfl, e, he, rfl, hf.1, hf.2⟩
    · rintro ⟨hb, hi, e, he, hp, hf, hd⟩
      refine ⟨e, ⟨he, by rw [hp, hf, hd]; rfl⟩, ?_⟩
      cases f
      simp only at hb hi hp
      simp [hb, hi, hp]
  refine ⟨nodup_of_strict h1, fun f hf => ?_, fun p => ⟨?_, ?_⟩⟩
  · have h3 := (h2 f).mp hf
    rw [List.find?_append] at h3
    cases hd : (addDirs .dest filter dest).find? (fun b => b.path == f.path) with
    | some g =>
      rw [hd] at h3
      cases h3
      obtain ⟨hb, -, e, he⟩ := (hmem .dest dest f).mp (List.mem_of_find?_eq_some hd)
      exact .inl ⟨hb, e, he⟩
    | none =>
      rw [hd] at h3
      obtain ⟨hb, -, e, he⟩ := (hmem .copyDest copyDest f).mp (List.mem_of_find?_eq_some h3)
      refine .inr ⟨hb, fun e' he' hi => ?_, e, he⟩
      have := List.find?_eq_none.mp hd ⟨e'.path, invalidIndex, .dest⟩
        ((hmem _ _ _).mpr ⟨rfl, rfl, e', he', rfl, by rw [hi.1]; exact hi.2.1, hi.2.2⟩)
      simp [hi.1] at this
  · rintro ⟨f, hf, rfl⟩
    have h3 := List.mem_of_find?_eq_some ((h2 f).mp hf)
    rcases List.mem_append.mp h3 with h | h
    · obtain ⟨-, -, e, he, h4⟩ := (hmem _ _ _).mp h
      exact .inl ⟨e, he, h4⟩
    · obtain ⟨-, -, e, he, h4⟩ := (hmem _ _ _).mp h
      exact .inr ⟨e, he, h4⟩
  · intro h
    have : ∃ g ∈ addDirs .dest filter dest ++ addDirs .copyDest filter copyDest, g.path = p := by
      rcases h with ⟨e, he, hi⟩ | ⟨e, he, hi⟩
      · exact ⟨⟨e.path, invalidIndex, .dest⟩, List.mem_append_left _ ((hmem _ _ _).mpr
          ⟨rfl, rfl, e, he, rfl, by rw [hi.1]; exact hi.2.1, hi.2.2⟩), hi.1⟩
      · exact ⟨⟨e.path, invalidIndex, .copyDest⟩, List.mem_append_right _ ((hmem _ _ _).mpr
          ⟨rfl, rfl, e, he, rfl, by rw [hi.1]; exact hi.2.1, hi.2.2⟩), hi.1⟩
    obtain ⟨g, hg, hp⟩ := this
    cases hf : (addDirs .dest filter dest ++ addDirs .copyDest filter copyDest).find? (fun b => b.path == p) with
    | none => exact absurd (by simpa using hp) (List.find?_eq_none.mp hf g hg)
    | some f =>
      have hfp : f.path = p := by simpa using List.find?_some hf
      exact ⟨f, (h2 f).mpr (by rw [hfp]; exact hf), hfp⟩

end Verif.Sync
