import Verif.Sync.RunProps

/-! # C57, C58: runs -/
namespace Verif.Sync
open Verif.Text.Path (Str)

/-- C58: a successful sync changes nothing outside the destination directory, apart from creating the directories leading to it.
Missing: destinations with symbolic links, see `C58_symlink_violated`. -/
theorem C58_confined_partial (o : Opts) (dest copyDest : Str) (filter : Str → Bool) (src : Source) (fs fs' : Fs)
    (hwf : fs.WF) (hd : DirString dest) (hn : NoLinks fs (posix dest)) (hsrc : src.OK)
    (h : Sync o dest copyDest filter src fs fs') (q : Path) (hq : ¬ posix dest <+: q) :
    fs' q = fs q ∨ (q <+: posix dest ∧ fs q = none ∧ fs' q = some .dir) := by
  obtain ⟨h1, h2⟩ := C57_sync_result o dest copyDest filter src fs fs' hwf hd hn hsrc h
  by_cases hdry : o.dryRun = true
  · rw [h1 hdry]; exact .inl rfl
  by_cases he : fs' q = fs q
  · exact .inl he
  refine .inr ?_
  rcases (h2 (by simpa using hdry)).frame q he with ⟨p, rfl, -⟩ | ⟨h3, h4, p, -, h5⟩ | ⟨-, -, p, rfl, -⟩ | ⟨-, f, -, rfl⟩
  · exact absurd (List.prefix_append _ _) hq
  · refine ⟨?_, ?_, h4⟩
    · rcases List.prefix_or_prefix_of_prefix h5 (List.prefix_append (posix dest) p) with h | h
      · exact h
      · exact absurd h hq
    · rcases h3 with h3 | ⟨-, p', rfl, -⟩
      · exact h3
      · exact absurd (List.prefix_append _ _) hq
  · exact absurd (List.prefix_append _ _) hq
  · exact absurd (List.prefix_append _ _) hq

namespace RunExample

/-- A file system with finitely many entries. -/
def fsOf (l : List (Path × Node)) : Fs := fun p => (l.find? fun e => e.1 == p).map Prod.snd

def foundOf (root : Path) (e : Path × Node) : Option Found :=
  if root <+: e.1 ∧ e.1.drop root.length ≠ [] then
    match e.2 with
    | .file d m => some ⟨renderDir (e.1.drop root.length).dropLast, ((e.1.drop root.length).getLast?).getD [], m, d.length, false⟩
    | .dir => some ⟨renderDir (e.1.drop root.length).dropLast, ((e.1.drop root.length).getLast?).getD [], 0, 0, true⟩
    | .link _ => none
  else none

def listingOf (root : Path) (l : List (Path × Node)) : List Found := l.filterMap (foundOf root)

theorem fsOf_mem {l : List (Path × Node)} {p : Path} {n : Node} (h : fsOf l p = some n) : (p, n) ∈ l := by
  unfold fsOf at h
  obtain ⟨e, he, rfl⟩ := Option.map_eq_some_iff.mp h
  have h1 := List.mem_of_find?_eq_some he
  have h2 : e.1 = p := by simpa using List.find?_some he
  rw [← h2]; exact h1

theorem fsOf_of_mem {l : List (Path × Node)} (hn : (l.map Prod.fst).Nodup) {p : Path} {n : Node} (h : (p, n) ∈ l) : fsOf l p = some n := by
  unfold fsOf
  cases hf : l.find? fun e => e.1 == p with
  | none => exact absurd (List.find?_eq_none.mp hf _ h) (by simp)
  | some e =>
    have h1 := List.mem_of_find?_eq_some hf
    have h2 : e.1 = p := by simpa using List.find?_some hf
    have := List.inj_on_of_nodup_map hn h1 h h2
    rw [this]; rfl

theorem lists {l : List (Path × Node)} (hn : (l.map Prod.fst).Nodup) (root : Path) : Listing (fsOf l) root true (listingOf root l) := by
  constructor
  · intro f hf
    obtain ⟨⟨q, n⟩, he, h⟩ := List.mem_filterMap.mp hf
    unfold foundOf at h
    split at h
    · next hc =>
      obtain ⟨⟨p, rfl⟩, hp⟩ := hc
      simp only [List.drop_left] at hp h
      obtain ⟨p, x, rfl⟩ : ∃ p' n, p = p' ++ [n] := ⟨p.dropLast, p.getLast hp, (List.dropLast_concat_getLast hp).symm⟩
      have := fsOf_of_mem hn he
      refine ⟨p ++ [x], ?_, .inl rfl⟩
      cases n with
      | file d m => simp at h; rw [← h]; exact FoundAt.file this
      | dir => simp at h; rw [← h]; exact FoundAt.dir this
      | link t => cases h
    · cases h
  · intro p f hf _
    cases hf with
    | @file p n data m h =>
      refine List.mem_filterMap.mpr ⟨_, fsOf_mem h, ?_⟩
      simp [foundOf]
    | @dir p n h =>
      refine List.mem_filterMap.mpr ⟨_, fsOf_mem h, ?_⟩
      simp [foundOf]

instance (p : Path) : Decidable (Valid p) := inferInstanceAs (Decidable (∀ n ∈ p, n ≠ [] ∧ (47 : UInt8) ∉ n))

theorem wf {l : List (Path × Node)} (h1 : fsOf l [] = some .dir) (h2 : ∀ e ∈ l, Valid e.1) (h3 : ∀ e ∈ l, e.1 ≠ [] → fsOf l e.1.dropLast = some .dir) :
    (fsOf l).WF := by
  refine ⟨h1, ?_, ?_⟩
  · intro p hp
    obtain ⟨n, hn⟩ := Option.ne_none_iff_exists'.mp hp
    exact h2 _ (fsOf_mem hn)
  · intro p x hp
    obtain ⟨n, hn⟩ := Option.ne_none_iff_exists'.mp hp
    have := h3 _ (fsOf_mem hn) (by simp)
    simpa using this

theorem noLinks {l : List (Path × Node)} {root : Path} (h : ∀ e ∈ l, root <+: e.1 → ∀ t, e.2 ≠ .link t) : NoLinks (fsOf l) root := by
  intro q hq t he
  exact h _ (fsOf_mem he) hq t rfl

/-- The time and size of a file. -/
def statOf (l : List (Path × Node)) (root : Path) (s : Str) : Option (Int × Nat) :=
  match fsOf l (root ++ posix s) with
  | some (.file d m) => some (m, d.length)
  | _ => none

theorem stat_ok (l : List (Path × Node)) (root : Path) (src : Source) : StatOk (fsOf l) root src (statOf l root) := by
  intro s
  unfold statOf
  cases fsOf l (root ++ posix s) with
  | none => rfl
  | some n => cases n <;> simp

theorem sorts_self {α : Type} (path : α → Str) (l : List α) (h : l.Pairwise fun a b => Util.leBytes (path a) (path b) = true) : Sorts path l l :=
  ⟨.refl _, h⟩

theorem sorts_release {α : Type} (path : α → Str) (l : List α) : Sorts path (release path l) (release path l) :=
  ⟨.refl _, (release_spec l).1.imp fun {a b} h => by
      rcases Util.leBytes_total (path a) (path b) with h1 | h1
      · exact h1
      · simp [Util.ltBytes, h1] at h⟩

/-- The comparison of lists that are sorted already. -/
def diffOf (stat : Base → Str → Option (Int × Nat)) (src : Source) (found : List Found) : Result :=
  keepCopyDest ⟨false, false, stat⟩ (diffDirs ⟨false, false, stat⟩ (uniqueBy Dir.path src.dirList) (serverDirs (fun _ => true) found [])
    (diffFiles ⟨false, false, stat⟩ (uniqueBy File.path src.fileList) (serverFiles (fun _ => true) found [])))

theorem generated (stat : Base → Str → Option (Int × Nat)) (src : Source) (found : List Found)
    (h1 : src.fileList.Pairwise fun a b => Util.leBytes a.path b.path = true) (h2 : src.dirList.Pairwise fun a b => Util.leBytes a.path b.path = true) :
    Generate ⟨false, false, stat⟩ src.fileList (serverFiles (fun _ => true) found []) src.dirList (serverDirs (fun _ => true) found []) (diffOf stat src found) :=
  Generate.mk (sorts_self File.path src.fileList h1) (sorts_release File.path _) (sorts_self Dir.path src.dirList h2) (sorts_release Dir.path _)

/-- The client has a and s/b, and the directory s; the server has an old version of a, and x. -/
def dest : Str := [47, 100, 47]
theorem dest_ok : DirString dest := ⟨⟨[47, 100], rfl⟩, by decide⟩
theorem dest_posix : posix dest = [[100]] := by decide
def nodes : List (Path × Node) := [([], .dir), ([[100]], .dir), ([[100], [97]], .file [1, 2] 5), ([[100], [120]], .file [9] 1)]
def src : Source := ⟨[([[97]], [3, 4, 5], 7), ([[115], [98]], [6], 8)], [[[115]]]⟩
def opts : Opts := { delete := true }
def stat : Base → Str → Option (Int × Nat) := fun _ => statOf nodes [[100]]
def result : Result := diffOf stat src (listingOf [[100]] nodes)

theorem result_eq : result.missing = [⟨[115, 47, 98], 8, 1, 1, .none⟩] ∧ result.changed = [⟨[97], 7, 3, 2, 0, .dest⟩] ∧
    result.extraneous = [⟨[120], 1, 1, invalidIndex, .dest⟩] ∧ result.extraneousDirs = [] ∧ result.missingDirs = [⟨[115], 0, .none⟩] := by
  refine ⟨?_, ?_, ?_, ?_, ?_⟩ <;> with_unfolding_all rfl

def mkdir (fs : Fs) (p : Path) : Fs := fun q => if q <+: p ∧ fs q = none then some .dir else fs q
theorem mkdir_ok {fs : Fs} {p : Path} (h : ∀ k < p.length + 1, fs (p.take k) = none ∨ fs (p.take k) = some .dir) : MkdirRec fs p (mkdir fs p) := by
  refine .mk fun q hq => ?_
  rw [List.prefix_iff_eq_take.mp hq]
  exact h _ (Nat.lt_succ_of_le hq.length_le)
/-- What the server does: x is deleted, s made, s/b copied and a patched. -/
def fs1 : Fs := (fsOf nodes).set [[100], [120]] none
def fs2 : Fs := mkdir fs1 [[100], [115]]
def fs3 : Fs := ((mkdir fs2 [[100], [115]]).set [[100], [115], [98]] (some (.file [6] 100))).set [[100], [115], [98]] (some (.file [6] 8))
def temp : Path := [[100]] ++ tempOf [[97]]
def fs4 : Fs := (((((fs3.set temp (some (.file [3, 4, 5] 101))).set [[100], [97]] none).set temp none).set [[100], [97]]
  (some (.file [3, 4, 5] 101)))).set [[100], [97]] (some (.file [3, 4, 5] 7))

theorem run : Sync opts dest [] (fun _ => true) src (fsOf nodes) fs4 := by
  obtain ⟨e1, e2, e3, e4, e5⟩ := result_eq
  refine Sync.mk (ld := listingOf [[100]] nodes) (lc := []) (stat := stat) (r := result) (r' := result) (dirs := []) (fs1 := fs1) (fs2 := fs2) (fs3 := fs3)
    (js1 := [⟨[[100], [115], [98]], none, some [[100], [115]], [6], 8⟩]) (js2 := [⟨[[100], [97]], some temp, none, [3, 4, 5], 7⟩])
    ?_ (fun _ => rfl) (fun h => absurd rfl h) ?_ ?_ ?_ ?_ (fun _ => ?_) (fun h => absurd ⟨rfl, rfl⟩ h) (fun _ => ⟨?_, ?_, ?_, ?_, ?_⟩) (fun h => by cases h)
  · rw [dest_posix]; exact lists (by decide) _
  · rw [dest_posix]; exact stat_ok _ _ _
  · exact generated stat src _ (by decide +kernel) (by decide +kernel)
  · rfl
  · rw [e4]; exact ⟨.refl _, .nil⟩
  · unfold deletionOps
    rw [e3]
    exact .cons (.entry (n := .file [9] 1) (by decide) (by simp)) .nil
  · rw [e5]
    exact .cons (fs1 := fs1) (fs2 := fs2) (.absent (by decide)) (mkdir_ok (by decide)) .nil
  · rw [e1]
    exact .cons (.mk (c := ([[115], [98]], [6], 8)) rfl) .nil
  · refine .first (j := ⟨[[100], [115], [98]], none, some [[100], [115]], [6], 8⟩)
      (fs1 := (mkdir fs2 [[100], [115]]).set [[100], [115], [98]] (some (.file [6] 100))) rfl
      (.mk (fs1 := mkdir fs2 [[100], [115]]) (.other (d := [[100], [115]]) rfl (by decide) (mkdir_ok (by decide))) (.plain (by decide) (by decide) (.inl (by decide)))) ?_
    exact .second (i := 0) (by simp) rfl (.plain rfl (.plain (d := [6]) (t := 100) (by decide))) .done
  · rw [e2]
    exact .cons (.mk (c := ([[97]], [3, 4, 5], 7)) rfl) .nil
  · refine .first (j := ⟨[[100], [97]], some temp, none, [3, 4, 5], 7⟩) (fs1 := fs3.set temp (some (.file [3, 4, 5] 101))) rfl
      (.mk (fs1 := fs3) (.none rfl) (.plain (by decide) (by decide) (.inl (by decide)))) ?_
    exact .second (i := 0) (by simp) rfl (.replace (t := temp) (fs1 := (fs3.set temp (some (.file [3, 4, 5] 101))).set [[100], [97]] none) rfl (by decide)
      (.entry (n := .file [1, 2] 5) (by decide) (by simp))
      (.mk (d := [3, 4, 5]) (t := 101) (by decide) (by decide) (by decide) (by decide)) (.plain (d := [3, 4, 5]) (t := 101) (by decide))) .done

theorem src_ok : src.OK := by
  constructor <;> decide

/-- The hypotheses of `C57_sync_result` and `C58_confined_partial` hold of this run; the theorem gives the client's content for both files. -/
example : (fsOf nodes).WF ∧ DirString dest ∧ NoLinks (fsOf nodes) (posix dest) ∧ src.OK ∧ Sync opts dest [] (fun _ => true) src (fsOf nodes) fs4 ∧
    fs4 [[100], [97]] = some (.file [3, 4, 5] 7) ∧ fs4 [[100], [115], [98]] = some (.file [6] 8) ∧ fs4 [[100], [120]] = none ∧ fs4 temp = none :=
  ⟨wf (by decide) (by decide) (by decide), dest_ok, noLinks (by intro e he _ t; simp [nodes] at he; rcases he with rfl | rfl | rfl | rfl <;> simp), src_ok, run,
    by decide, by decide, by decide, by decide⟩

/-! ### Violations -/

def tempName : Str := [97] ++ tempSuffix
/-- The client also has a file with the name of the temporary file of a, and the server has it already. -/
def nodesT : List (Path × Node) := [([], .dir), ([[100]], .dir), ([[100], [97]], .file [1, 2] 5), ([[100], tempName], .file [9] 1)]
def srcT : Source := ⟨[([[97]], [3, 4, 5], 7), ([tempName], [9], 1)], []⟩
def statT : Base → Str → Option (Int × Nat) := fun _ => statOf nodesT [[100]]
def resultT : Result := diffOf statT srcT (listingOf [[100]] nodesT)

theorem resultT_eq : resultT.missing = [] ∧ resultT.changed = [⟨[97], 7, 3, 2, 0, .dest⟩] ∧
    resultT.extraneous = [] ∧ resultT.extraneousDirs = [] ∧ resultT.missingDirs = [] := by
  refine ⟨?_, ?_, ?_, ?_, ?_⟩ <;> with_unfolding_all rfl

def fsT : Fs := ((((((fsOf nodesT).set temp (some (.file [3, 4, 5] 101))).set [[100], [97]] none).set temp none).set [[100], [97]]
  (some (.file [3, 4, 5] 101)))).set [[100], [97]] (some (.file [3, 4, 5] 7))

theorem runT : Sync {} dest [] (fun _ => true) srcT (fsOf nodesT) fsT := by
  obtain ⟨e1, e2, e3, e4, e5⟩ := resultT_eq
  refine Sync.mk (ld := listingOf [[100]] nodesT) (lc := []) (stat := statT) (r := resultT) (r' := resultT) (dirs := []) (fs1 := fsOf nodesT)
    (fs2 := fsOf nodesT) (fs3 := fsOf nodesT) (js1 := []) (js2 := [⟨[[100], [97]], some temp, none, [3, 4, 5], 7⟩])
    ?_ (fun _ => rfl) (fun h => absurd rfl h) ?_ ?_ ?_ ?_ (fun h => by cases h.1) (fun _ => rfl) (fun _ => ⟨?_, ?_, ?_, ?_, ?_⟩) (fun h => by cases h)
  · rw [dest_posix]; exact lists (by decide) _
  · rw [dest_posix]; exact stat_ok _ _ _
  · exact generated statT srcT _ (by decide +kernel) (by decide +kernel)
  · rfl
  · rw [e4]; exact ⟨.refl _, .nil⟩
  · rw [e5]; exact .nil
  · rw [e1]; exact .nil
  · exact .done
  · rw [e2]
    exact .cons (.mk (c := ([[97]], [3, 4, 5], 7)) rfl) .nil
  · refine .first (j := ⟨[[100], [97]], some temp, none, [3, 4, 5], 7⟩) (fs1 := (fsOf nodesT).set temp (some (.file [3, 4, 5] 101))) rfl
      (.mk (fs1 := fsOf nodesT) (.none rfl) (.plain (by decide) (by decide) (.inr ⟨[9], 1, by decide⟩))) ?_
    exact .second (i := 0) (by simp) rfl (.replace (t := temp) (fs1 := ((fsOf nodesT).set temp (some (.file [3, 4, 5] 101))).set [[100], [97]] none) rfl (by decide)
      (.entry (n := .file [1, 2] 5) (by decide) (by simp))
      (.mk (d := [3, 4, 5]) (t := 101) (by decide) (by decide) (by decide) (by decide)) (.plain (d := [3, 4, 5]) (t := 101) (by decide))) .done

/-- The client has a file a; on the server, a is a link to a file outside the destination. -/
def nodesL : List (Path × Node) := [([], .dir), ([[100]], .dir), ([[100], [97]], .link [[112]]), ([[112]], .file [9] 1)]
def srcL : Source := ⟨[([[97]], [3, 4, 5], 7)], []⟩
def statL : Base → Str → Option (Int × Nat) := fun _ => statOf nodesL [[100]]
def resultL : Result := diffOf statL srcL (listingOf [[100]] nodesL)

theorem resultL_eq : resultL.missing = [⟨[97], 7, 3, 0, .none⟩] ∧ resultL.changed = [] ∧
    resultL.extraneous = [] ∧ resultL.extraneousDirs = [] ∧ resultL.missingDirs = [] := by
  refine ⟨?_, ?_, ?_, ?_, ?_⟩ <;> with_unfolding_all rfl

def fsL : Fs := ((mkdir (fsOf nodesL) [[100]]).set [[112]] (some (.file [3, 4, 5] 101))).set [[112]] (some (.file [3, 4, 5] 7))

theorem runL : Sync {} dest [] (fun _ => true) srcL (fsOf nodesL) fsL := by
  obtain ⟨e1, e2, e3, e4, e5⟩ := resultL_eq
  refine Sync.mk (ld := listingOf [[100]] nodesL) (lc := []) (stat := statL) (r := resultL) (r' := resultL) (dirs := []) (fs1 := fsOf nodesL)
    (fs2 := fsOf nodesL) (fs3 := fsL) (js1 := [⟨[[100], [97]], none, some [[100]], [3, 4, 5], 7⟩]) (js2 := [])
    ?_ (fun _ => rfl) (fun h => absurd rfl h) ?_ ?_ ?_ ?_ (fun h => by cases h.1) (fun _ => rfl) (fun _ => ⟨?_, ?_, ?_, ?_, ?_⟩) (fun h => by cases h)
  · rw [dest_posix]; exact lists (by decide) _
  · rw [dest_posix]; exact stat_ok _ _ _
  · exact generated statL srcL _ (by decide +kernel) (by decide +kernel)
  · rfl
  · rw [e4]; exact ⟨.refl _, .nil⟩
  · rw [e5]; exact .nil
  · rw [e1]
    exact .cons (.mk (c := ([[97]], [3, 4, 5], 7)) rfl) .nil
  · refine .first (j := ⟨[[100], [97]], none, some [[100]], [3, 4, 5], 7⟩)
      (fs1 := (mkdir (fsOf nodesL) [[100]]).set [[112]] (some (.file [3, 4, 5] 101))) rfl
      (.mk (fs1 := mkdir (fsOf nodesL) [[100]]) (.other (d := [[100]]) rfl (by decide) (mkdir_ok (by decide)))
        (.through (t := [[112]]) (by decide) (by decide) (by decide) (.inr ⟨[9], 1, by decide⟩))) ?_
    exact .second (i := 0) (by simp) rfl (.plain rfl (.through (q := [[112]]) (d := [3, 4, 5]) (t := 101) (by decide) (by decide))) .done
  · rw [e2]; exact .nil
  · exact .done

end RunExample

/-- C57: a file of the client with the name of the temporary file of another one can be lost: after a successful sync it is not there. -/
theorem C57_temp_name_violated : ∃ (dest : Str) (src : Source) (fs fs' : Fs), fs.WF ∧ DirString dest ∧ NoLinks fs (posix dest) ∧
    Sync {} dest [] (fun _ => true) src fs fs' ∧ ∃ f ∈ src.files, fs (posix dest ++ f.1) = some (.file f.2.1 f.2.2) ∧ fs' (posix dest ++ f.1) = none := by
  refine ⟨RunExample.dest, RunExample.srcT, RunExample.fsOf RunExample.nodesT, RunExample.fsT, RunExample.wf (by decide) (by decide) (by decide),
    RunExample.dest_ok, RunExample.noLinks ?_, RunExample.runT, ([RunExample.tempName], [9], 1), by decide, by decide, by decide⟩
  intro e he _ t
  simp [RunExample.nodesT] at he
  rcases he with rfl | rfl | rfl | rfl <;> simp

/-- C58: a file outside the destination can be overwritten: a link in the destination that has the name of a file of the client is not
seen by the search and followed when the file is written. -/
theorem C58_symlink_violated : ∃ (dest : Str) (src : Source) (fs fs' : Fs), fs.WF ∧ DirString dest ∧ src.OK ∧
    Sync {} dest [] (fun _ => true) src fs fs' ∧ ∃ q d m d', ¬ posix dest <+: q ∧ fs q = some (.file d m) ∧ ∃ m', fs' q = some (.file d' m') ∧ d ≠ d' := by
  refine ⟨RunExample.dest, RunExample.srcL, RunExample.fsOf RunExample.nodesL, RunExample.fsL, RunExample.wf (by decide) (by decide) (by decide),
    RunExample.dest_ok, by constructor <;> decide, RunExample.runL, [[112]], [9], 1, [3, 4, 5], by decide, by decide, 7, by decide, by decide⟩

end Verif.Sync
