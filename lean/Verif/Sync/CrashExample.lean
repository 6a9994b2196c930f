import Verif.Sync.CrashProps
import Verif.Sync.RunExample

/-! # C38, C59: runs -/
namespace Verif.Sync
open Verif.Text.Path (Str)

namespace CrashExample
open RunExample

/-- The client has a new version of a and a new file b. -/
def nodes : List (Path × Node) := [([], .dir), ([[100]], .dir), ([[100], [97]], .file [1, 2] 5)]
def src : Source := ⟨[([[97]], [3, 4, 5], 7), ([[98]], [6, 7], 8)], []⟩
def stat : Base → Str → Option (Int × Nat) := fun _ => statOf nodes [[100]]
def result : Result := diffOf stat src (listingOf [[100]] nodes)

theorem result_eq : result.missing = [⟨[98], 8, 2, 1, .none⟩] ∧ result.changed = [⟨[97], 7, 3, 2, 0, .dest⟩] ∧
    result.extraneous = [] ∧ result.extraneousDirs = [] ∧ result.missingDirs = [] := by
  refine ⟨?_, ?_, ?_, ?_, ?_⟩ <;> with_unfolding_all rfl

def jb : Job := ⟨[[100], [98]], none, some [[100]], [6, 7], 8⟩
def ja : Job := ⟨[[100], [97]], some temp, none, [3, 4, 5], 7⟩

theorem setup : Setup {} dest [] (fun _ => true) src (fsOf nodes) result [] [jb] [ja] := by
  obtain ⟨e1, e2, e3, e4, e5⟩ := result_eq
  refine ⟨⟨listingOf [[100]] nodes, [], stat, result, ?_, fun _ => rfl, fun h => absurd rfl h, ?_, ?_, rfl⟩, ?_, ?_, ?_⟩
  · rw [dest_posix]; exact RunExample.lists (by decide) _
  · rw [dest_posix]; exact stat_ok _ _ _
  · exact generated stat src _ (by decide +kernel) (by decide +kernel)
  · rw [e4]; exact ⟨.refl _, .nil⟩
  · rw [e1]; exact .cons (.mk (c := ([[98]], [6, 7], 8)) rfl) .nil
  · rw [e2]; exact .cons (.mk (c := ([[97]], [3, 4, 5], 7)) rfl) .nil

theorem wf0 : (fsOf nodes).WF := RunExample.wf (by decide) (by decide) (by decide)
theorem nl0 : NoLinks (fsOf nodes) (posix dest) := RunExample.noLinks (by
  intro e he _ t; simp [nodes] at he; rcases he with rfl | rfl | rfl <;> simp)
theorem src_ok : src.OK := by constructor <;> decide

/-- b is copied: so many bytes of it are there when it is closed. -/
def b1 : MState := (⟨fun _ => .todo, fsOf nodes⟩ : MState).to 0 (.opened 0) ((fsOf nodes).set [[100], [98]] (some (.file [] 20)))
def b2 (k : Nat) : MState := b1.to 0 .closed (b1.fs.set [[100], [98]] (some (.file (jb.data.take k) 21)))
def b3 (k : Nat) : MState := (b2 k).to 0 .done ((b2 k).fs.set [[100], [98]] (some (.file (jb.data.take k) 8)))

theorem copied (lossy : Bool) (k : Nat) (hk : lossy = false → k = 2) : During lossy [jb] (fsOf nodes) (b3 k) := by
  refine .step (.step (.step .start (s' := b1) ?_) (s' := b2 k) ?_) ?_
  · exact .openFile (i := 0) (j := jb) (m := 20) rfl rfl (.plain (by decide) (by decide) (.inl (by decide)))
  · exact .close (i := 0) (k := 0) (k' := k) (j := jb) (m := 21) rfl rfl (Nat.zero_le _) (fun h => by rw [hk h]; rfl)
  · exact .time (i := 0) (j := jb) rfl rfl rfl (.plain (d := jb.data.take k) (t := 21) (by simp [b2, MState.to, Fs.set, jb]))

theorem copied_done (k : Nat) : AllDone [jb] (b3 k) := by
  intro i hi
  have : i = 0 := by simp at hi; omega
  subst this; rfl

/-- a is patched. -/
def a0 (n : Nat) : MState := ⟨fun _ => .todo, (b3 n).fs⟩
def a1 (n : Nat) : MState := (a0 n).to 0 (.opened 0) ((a0 n).fs.set temp (some (.file [] 30)))
def a2 (n k : Nat) : MState := (a1 n).to 0 .closed ((a1 n).fs.set temp (some (.file (ja.data.take k) 31)))
def a3 (n k : Nat) : MState := (a2 n k).to 0 .removed ((a2 n k).fs.set [[100], [97]] none)
def a4 (n k : Nat) : MState := (a3 n k).to 0 .renamed (((a3 n k).fs.set temp none).set [[100], [97]] (some (.file (ja.data.take k) 31)))
def a5 (n k : Nat) : MState := (a4 n k).to 0 .done ((a4 n k).fs.set [[100], [97]] (some (.file (ja.data.take k) 7)))

theorem fs_b3_a (n : Nat) : (b3 n).fs [[100], [97]] = some (.file [1, 2] 5) := by
  simp [b3, b2, b1, MState.to, Fs.set, fsOf, nodes]
theorem fs_b3_d (n : Nat) : (b3 n).fs [[100]] = some .dir := by
  simp [b3, b2, b1, MState.to, Fs.set, fsOf, nodes]
theorem fs_b3_temp (n : Nat) : (b3 n).fs temp = none := by
  have h : temp = [[100], [97] ++ tempSuffix] := by decide
  rw [h]
  simp [b3, b2, b1, MState.to, Fs.set, fsOf, nodes, tempSuffix]
theorem temp_ne : temp ≠ [[100], [97]] ∧ temp ≠ [[100]] ∧ temp ≠ [] ∧ temp.dropLast = [[100]] := by decide

theorem patched_removed (lossy : Bool) (n k : Nat) (hk : lossy = false → k = 3) : During lossy [ja] (b3 n).fs (a3 n k) := by
  obtain ⟨t1, t2, t3, t4⟩ := temp_ne
  refine .step (.step (.step .start (s' := a1 n) ?_) (s' := a2 n k) ?_) ?_
  · refine .openFile (i := 0) (j := ja) (m := 30) rfl rfl (.plain t3 ?_ (.inl (fs_b3_temp n)))
    show (b3 n).fs temp.dropLast = _
    rw [t4]; exact fs_b3_d n
  · exact .close (i := 0) (k := 0) (k' := k) (j := ja) (m := 31) rfl rfl (Nat.zero_le _) (fun h => by rw [hk h]; rfl)
  · have e : (a2 n k).fs [[100], [97]] = some (.file [1, 2] 5) := by
      show (((b3 n).fs.set temp (some (.file [] 30))).set temp (some (.file (ja.data.take k) 31))) [[100], [97]] = _
      rw [set_ne t1.symm, set_ne t1.symm]; exact fs_b3_a n
    exact .remove (i := 0) (j := ja) (t := temp) rfl rfl rfl (by show (a2 n k).fs [[100], [97]] ≠ none; rw [e]; simp) (.entry e (by simp))

theorem patched_done (lossy : Bool) (n k : Nat) (hk : lossy = false → k = 3) : During lossy [ja] (b3 n).fs (a5 n k) := by
  obtain ⟨t1, t2, t3, t4⟩ := temp_ne
  refine .step (.step (patched_removed lossy n k hk) (s' := a4 n k) ?_) ?_
  · have e : (a3 n k).fs temp = some (.file (ja.data.take k) 31) := by
      show (((((b3 n).fs.set temp (some (.file [] 30))).set temp (some (.file (ja.data.take k) 31)))).set [[100], [97]] none) temp = _
      rw [set_ne t1, set_eq]
    have ed : (a3 n k).fs [[100]] = some .dir := by
      show (((((b3 n).fs.set temp (some (.file [] 30))).set temp (some (.file (ja.data.take k) 31)))).set [[100], [97]] none) [[100]] = _
      rw [set_ne (by decide), set_ne t2.symm, set_ne t2.symm]; exact fs_b3_d n
    refine .rename (i := 0) (j := ja) (t := temp) rfl rfl rfl (.mk e (by decide) ed ?_)
    show (((((b3 n).fs.set temp (some (.file [] 30))).set temp (some (.file (ja.data.take k) 31)))).set [[100], [97]] none) [[100], [97]] ≠ _
    rw [set_eq]; simp
  · exact .timePatched (i := 0) (j := ja) rfl rfl (.plain (d := ja.data.take k) (t := 31) (by
      show (((a3 n k).fs.set temp none).set [[100], [97]] (some (.file (ja.data.take k) 31))) [[100], [97]] = _
      rw [set_eq]))

theorem allDone (n k : Nat) : AllDone [ja] (a5 n k) := by
  intro i hi
  have : i = 0 := by simp at hi; omega
  subst this; rfl

theorem stopped (lossy : Bool) (n : Nat) (hn : lossy = false → n = 2) {s : MState} (h : During lossy [ja] (b3 n).fs s) :
    Stopped lossy {} dest [] (fun _ => true) src (fsOf nodes) s.fs := by
  refine .patching setup (fun h => by cases h) (fun _ => rfl) ?_ (copied lossy n hn) (copied_done n) h
  rw [result_eq.2.2.2.2]; exact .nil

/-- The hypotheses of the theorems on C38 hold of a sync that stops after a has been removed and before the patched file takes its
place. -/
example : (fsOf nodes).WF ∧ DirString dest ∧ NoLinks (fsOf nodes) (posix dest) ∧ src.OK ∧
    Stopped false {} dest [] (fun _ => true) src (fsOf nodes) (a3 2 3).fs ∧ ([[97]], [3, 4, 5], 7) ∈ src.files ∧ Seen {} (fun _ => true) [[97]] ∧
    fsOf nodes (posix dest ++ [[97]]) = some (.file [1, 2] 5) ∧ (a3 2 3).fs (posix dest ++ [[97]]) = none ∧
    (a3 2 3).fs (posix dest ++ [[98]]) = some (.file [6, 7] 8) :=
  ⟨wf0, dest_ok, nl0, src_ok, stopped false 2 (fun _ => rfl) (patched_removed false 2 3 fun _ => rfl), by decide, ⟨by decide, .inl rfl, rfl⟩, by decide,
    by decide, by decide⟩

/-- The hypotheses of `C59_success_means_written_partial` hold of a complete run. -/
example : Setup {} dest [] (fun _ => true) src (fsOf nodes) result [] [jb] [ja] ∧ During false [jb] (fsOf nodes) (b3 2) ∧ AllDone [jb] (b3 2) ∧
    During false [ja] (b3 2).fs (a5 2 3) ∧ AllDone [ja] (a5 2 3) ∧ (a5 2 3).fs [[100], [97]] = some (.file [3, 4, 5] 7) ∧ (a5 2 3).fs temp = none :=
  ⟨setup, copied false 2 fun _ => rfl, copied_done 2, patched_done false 2 3 fun _ => rfl, allDone 2 3, by decide, by decide⟩

end CrashExample

/-- C90: a file that is patched can end up with neither its old nor the client's content, and the old content is gone: the error of closing the
patched file is ignored, and the file replaces the old one although data is missing. -/
theorem C90_patched_violated : ∃ (dest : Str) (src : Source) (fs fs' : Fs), fs.WF ∧ DirString dest ∧ NoLinks fs (posix dest) ∧ src.OK ∧
    Stopped true {} dest [] (fun _ => true) src fs fs' ∧ ∃ path content mtime old t data,
      (path, content, mtime) ∈ src.files ∧ fs (posix dest ++ path) = some (.file old t) ∧
      fs' (posix dest ++ path) = some (.file data mtime) ∧ data ≠ old ∧ data ≠ content :=
  ⟨RunExample.dest, CrashExample.src, RunExample.fsOf CrashExample.nodes, (CrashExample.a5 2 1).fs, CrashExample.wf0, RunExample.dest_ok, CrashExample.nl0,
    CrashExample.src_ok, CrashExample.stopped true 2 (fun h => by cases h) (CrashExample.patched_done true 2 1 fun h => by cases h),
    [[97]], [3, 4, 5], 7, [1, 2], 5, [3], by decide, by decide, by decide, by decide, by decide⟩

/-- C59: a sync can end without reporting an error although a file it has copied lacks data, since the error of closing it is ignored. -/
theorem C59_lost_data_violated : ∃ (dest : Str) (src : Source) (fs : Fs) (r : Result) (js1 js2 : List Job) (s s' : MState),
    fs.WF ∧ DirString dest ∧ NoLinks fs (posix dest) ∧ src.OK ∧ Setup {} dest [] (fun _ => true) src fs r [] js1 js2 ∧
    During true js1 fs s ∧ AllDone js1 s ∧ During true js2 s.fs s' ∧ AllDone js2 s' ∧
    ∃ f ∈ src.files, render f.1 ∈ r.missing.map File.path ∧ ∃ data, s'.fs (posix dest ++ f.1) = some (.file data f.2.2) ∧ data ≠ f.2.1 :=
  ⟨RunExample.dest, CrashExample.src, RunExample.fsOf CrashExample.nodes, CrashExample.result, [CrashExample.jb], [CrashExample.ja],
    CrashExample.b3 1, CrashExample.a5 1 3, CrashExample.wf0, RunExample.dest_ok, CrashExample.nl0, CrashExample.src_ok, CrashExample.setup,
    CrashExample.copied true 1 (fun h => by cases h), CrashExample.copied_done 1, CrashExample.patched_done true 1 3 (fun h => by cases h), CrashExample.allDone 1 3,
    ([[98]], [6, 7], 8), by decide, by rw [CrashExample.result_eq.1]; decide, [6], by decide, by decide⟩

end Verif.Sync
