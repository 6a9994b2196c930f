import Verif.Sync.Fs
import Verif.Sync.DiffProps

/-! # C36: deletion of extraneous files and directories -/
namespace Verif.Sync
open Verif.Text.Path (Str)

/-- Directories sorted by descending path, cdc_rsync_server.cc:550-554. -/
structure SortsDesc (l l' : List Dir) : Prop where
  perm : l'.Perm l
  sorted : l'.Pairwise fun a b => Util.leBytes b.path a.path = true

/-- The sequence of deletions in `RemoveExtraneousFilesAndDirs`, cdc_rsync_server.cc:540-577: path and whether it is a directory. `dirs`
are the sorted directories. -/
def deletionOps (r : Result) (dirs : List Dir) : List (Str × Bool) :=
  r.extraneous.map (fun f => (f.path, false)) ++ dirs.map fun d => (d.path, true)

/-- The deletions themselves (`DeleteAndSendFileOrDir`, file_deleter_and_sender.cc:33-43). The relation has no result if a deletion fails. -/
inductive DeleteAll (dest : Str) : List (Str × Bool) → Fs → Fs → Prop where
  | nil {fs : Fs} : DeleteAll dest [] fs fs
  | cons {op : Str × Bool} {l : List (Str × Bool)} {fs fs1 fs2 : Fs} : Removes fs (posix (Text.Path.join false dest op.1)) fs1 →
      DeleteAll dest l fs1 fs2 → DeleteAll dest (op :: l) fs fs2

theorem leBytes_append (a b : Str) : Util.leBytes a (a ++ b) = true := by
  induction a with
  | nil => cases b <;> rfl
  | cons c a ih => simp [Util.leBytes, ih]

theorem ltBytes_append (a : Str) {b : Str} (hb : b ≠ []) : Util.ltBytes a (a ++ b) = true :=
  Util.ltBytes_of_le_ne (leBytes_append a b) (by intro e; apply hb; have := congrArg List.length e; simpa using this)

/-- C36: a directory is deleted after everything in it that is deleted; every extraneous file and directory is deleted exactly once. -/
theorem C36_order (r : Result) (dirs : List Dir) (h : SortsDesc r.extraneousDirs dirs)
    (hf : (r.extraneous.map File.path).Nodup) (hd : (r.extraneousDirs.map Dir.path).Nodup) :
    (∀ pre d post, deletionOps r dirs = pre ++ (d, true) :: post → ∀ e ∈ post, ¬ (d ++ [47]) <+: e.1) ∧
    (deletionOps r dirs).Nodup ∧
    (∀ p, (p, false) ∈ deletionOps r dirs ↔ p ∈ r.extraneous.map File.path) ∧
    (∀ p, (p, true) ∈ deletionOps r dirs ↔ p ∈ r.extraneousDirs.map Dir.path) := by
  refine ⟨?_, ?_, ?_, ?_⟩
  · intro pre d post he e hm hpre
    have hord : (deletionOps r dirs).Pairwise fun a b => a.2 = true → b.2 = true ∧ Util.leBytes b.1 a.1 = true := by
      unfold deletionOps
      rw [List.pairwise_append]
      refine ⟨?_, ?_, ?_⟩
      · rw [List.pairwise_map]; exact List.pairwise_of_forall (by simp)
      · rw [List.pairwise_map]; exact h.sorted.imp fun h _ => ⟨rfl, h⟩
      · intro a ha b hb ht
        obtain ⟨f, -, rfl⟩ := List.mem_map.mp ha
        cases ht
    rw [he, List.pairwise_append] at hord
    obtain ⟨-, hle⟩ := (List.pairwise_cons.mp hord.2.1).1 e hm rfl
    obtain ⟨x, hx⟩ := hpre
    have hlt : Util.ltBytes d e.1 = true := by
      rw [← hx, List.append_assoc]; exact ltBytes_append d (by simp)
    simp only [Util.ltBytes, Bool.not_eq_true'] at hlt
    simp only at hle
    rw [hle] at hlt
    cases hlt
  · have hd' : (dirs.map Dir.path).Nodup := (h.perm.map _).nodup_iff.mpr hd
    unfold deletionOps
    refine List.Nodup.append ?_ ?_ ?_
    · have : (r.extraneous.map fun f => (f.path, false)) = (r.extraneous.map File.path).map fun p => (p, false) := by rw [List.map_map]; rfl
      rw [this]; exact List.Pairwise.map _ (by simp) hf
    · have : (dirs.map fun f => (f.path, true)) = (dirs.map Dir.path).map fun p => (p, true) := by rw [List.map_map]; rfl
      rw [this]; exact List.Pairwise.map _ (by simp) hd'
    · intro x h1 h2
      obtain ⟨_, -, rfl⟩ := List.mem_map.mp h1
      obtain ⟨_, -, e⟩ := List.mem_map.mp h2
      simp at e
  · intro p; simp [deletionOps]
  · intro p
    rw [← (h.perm.map Dir.path).mem_iff]
    simp [deletionOps]

/-! ### Effect on the file system -/

theorem removes_fn {fs fs1 fs2 : Fs} {p : Path} (h1 : Removes fs p fs1) (h2 : Removes fs p fs2) : fs1 = fs2 := by
  cases h1 <;> cases h2 <;> first | rfl | simp_all

theorem removes_eq {fs fs' : Fs} {p : Path} (h : Removes fs p fs') : fs' = fs.set p none := by
  cases h with
  | absent h => funext q; unfold Fs.set; split <;> simp_all
  | entry => rfl

theorem deleteAll_eq {dest : Str} {ops : List (Str × Bool)} {fs fs' : Fs} (h : DeleteAll dest ops fs fs') :
    fs' = fun q => if q ∈ ops.map (fun op => posix (Text.Path.join false dest op.1)) then none else fs q := by
  induction h with
  | nil => simp
  | @cons op l fs fs1 fs2 h1 _ ih =>
    rw [ih, removes_eq h1]
    funext q
    simp only [Fs.set, List.map_cons, List.mem_cons]
    by_cases h2 : q = posix (Text.Path.join false dest op.1)
    · have : q = posix (Text.Path.join false dest op.1) ∨ q ∈ l.map (fun op => posix (Text.Path.join false dest op.1)) := .inl h2
      rw [if_pos h2, if_pos this]; split <;> rfl
    · rw [if_neg h2]
      by_cases h3 : q ∈ l.map (fun op => posix (Text.Path.join false dest op.1))
      · rw [if_pos h3, if_pos (.inr h3)]
      · rw [if_neg h3, if_neg (by rintro (h | h) <;> contradiction)]

/-- If the children of a directory are deleted before it, the deletions succeed. -/
theorem deleteAll_exists {fs : Fs} {dest : Str} {all : List (Str × Bool)}
    (hc : ∀ pre op post, all = pre ++ op :: post → fs (posix (Text.Path.join false dest op.1)) = some .dir →
      ∀ x, fs (posix (Text.Path.join false dest op.1) ++ [x]) ≠ none →
        posix (Text.Path.join false dest op.1) ++ [x] ∈ pre.map (fun op => posix (Text.Path.join false dest op.1))) :
    ∀ (post pre : List (Str × Bool)) (cur : Fs), all = pre ++ post →
      (cur = fun q => if q ∈ pre.map (fun op => posix (Text.Path.join false dest op.1)) then none else fs q) →
      ∃ fs', DeleteAll dest post cur fs' := by
  intro post
  induction post with
  | nil => intro _ cur _ _; exact ⟨cur, .nil⟩
  | cons op post ih =>
    intro pre cur he hcur
    have hrem : ∃ fs1, Removes cur (posix (Text.Path.join false dest op.1)) fs1 := by
      cases hn : cur (posix (Text.Path.join false dest op.1)) with
      | none => exact ⟨_, .absent hn⟩
      | some n =>
        refine ⟨_, .entry hn ?_⟩
        rintro rfl x
        have hfs : fs (posix (Text.Path.join false dest op.1)) = some .dir := by
          rw [hcur] at hn
          simp only at hn
          split at hn
          · cases hn
          · exact hn
        rw [hcur]
        simp only
        split
        · rfl
        · next hni =>
          apply Classical.byContradiction
          intro hne
          exact hni (hc pre op post he hfs x hne)
    obtain ⟨fs1, h1⟩ := hrem
    obtain ⟨fs2, h2⟩ := ih (pre ++ [op]) fs1 (by rw [he]; simp) (by
      rw [removes_eq h1, hcur]
      funext q
      simp only [Fs.set, List.map_append, List.map_cons, List.map_nil, List.mem_append, List.mem_singleton]
      by_cases h2 : q = posix (Text.Path.join false dest op.1)
      · rw [if_pos h2, if_pos (.inr h2)]
      · rw [if_neg h2]
        by_cases h3 : q ∈ pre.map (fun op => posix (Text.Path.join false dest op.1))
        · rw [if_pos h3, if_pos (.inl h3)]
        · rw [if_neg h3, if_neg (by rintro (h | h) <;> contradiction)])
    exact ⟨fs2, .cons h1 h2⟩

theorem render_prefix {p : Path} (hp : p ≠ []) (x : Str) : (render p ++ [47]) <+: render (p ++ [x]) := by
  induction p with
  | nil => exact absurd rfl hp
  | cons a p ih =>
    cases p with
    | nil => exact ⟨x, by simp [render]⟩
    | cons b p =>
      obtain ⟨t, ht⟩ := ih (by simp)
      refine ⟨t, ?_⟩
      have e1 : render (a :: b :: p) = a ++ 47 :: render (b :: p) := rfl
      have e2 : render (a :: b :: p ++ [x]) = a ++ 47 :: render (b :: p ++ [x]) := rfl
      rw [e1, e2, ← ht]
      simp

/-- C89: if everything below an extraneous directory is extraneous, no deletion fails because a directory is not empty, and
afterwards exactly the extraneous entries are gone. Missing: directories with entries that were not listed, see
`C89_excluded_file_violated`. -/
theorem C89_all_deleted_partial (fs : Fs) (dest : Str) (hdest : DirString dest) (r : Result) (dirs : List Dir)
    (h : SortsDesc r.extraneousDirs dirs) (hf : (r.extraneous.map File.path).Nodup) (hd : (r.extraneousDirs.map Dir.path).Nodup)
    (hfiles : ∀ s ∈ r.extraneous, ∃ p, s.path = render p ∧ Valid p ∧ ∃ data m, fs (posix dest ++ p) = some (.file data m))
    (hdirs : ∀ s ∈ r.extraneousDirs, ∃ p, s.path = render p ∧ Valid p ∧ p ≠ [] ∧ fs (posix dest ++ p) = some .dir)
    (hclosed : ∀ s ∈ r.extraneousDirs, ∀ p, s.path = render p → Valid p → ∀ x, fs (posix dest ++ p ++ [x]) ≠ none → Valid (p ++ [x]) ∧
      (render (p ++ [x]) ∈ r.extraneous.map File.path ∨ render (p ++ [x]) ∈ r.extraneousDirs.map Dir.path)) :
    (∃ fs', DeleteAll dest (deletionOps r dirs) fs fs') ∧
    ∀ fs', DeleteAll dest (deletionOps r dirs) fs fs' →
      (∀ p, Valid p → render p ∈ r.extraneous.map File.path ∨ render p ∈ r.extraneousDirs.map Dir.path → fs' (posix dest ++ p) = none) ∧
      (∀ q, (∀ p, Valid p → render p ∈ r.extraneous.map File.path ∨ render p ∈ r.extraneousDirs.map Dir.path → q ≠ posix dest ++ p) → fs' q = fs q) := by
  obtain ⟨hord, hnd, hm1, hm2⟩ := C36_order r dirs h hf hd
  have hpos : ∀ p, Valid p → posix (Text.Path.join false dest (render p)) = posix dest ++ p := fun p hv => by
    rw [posix_join hdest, posix_render hv]
  constructor
  · refine deleteAll_exists (fs := fs) (dest := dest) (all := deletionOps r dirs) ?_ (deletionOps r dirs) [] fs rfl (funext fun q => (if_neg (by simp)).symm)
    rintro pre ⟨s, b⟩ post he hdir x hx
    simp only at hdir hx ⊢
    cases b with
    | false =>
      obtain ⟨f, hf1, rfl⟩ := List.mem_map.mp ((hm1 s).mp (by rw [he]; simp))
      obtain ⟨p, e, hv, data, m, hfs⟩ := hfiles f hf1
      rw [e, hpos p hv, hfs] at hdir
      cases hdir
    | true =>
      obtain ⟨f, hf1, rfl⟩ := List.mem_map.mp ((hm2 s).mp (by rw [he]; simp))
      obtain ⟨p, e, hv, hne, hfs⟩ := hdirs f hf1
      rw [e, hpos p hv] at hx ⊢
      obtain ⟨hv2, hmem⟩ := hclosed f hf1 p e hv x hx
      have hin : ∃ b, (render (p ++ [x]), b) ∈ deletionOps r dirs := by
        rcases hmem with hmem | hmem
        · exact ⟨_, (hm1 _).mpr hmem⟩
        · exact ⟨_, (hm2 _).mpr hmem⟩
      obtain ⟨b, hin⟩ := hin
      have hlong : render (p ++ [x]) ≠ f.path := by
        rw [e]; intro e'
        have := render_inj hv2 hv e'
        exact absurd (congrArg List.length this) (by simp)
      have hpre : (render (p ++ [x]), b) ∈ pre := by
        rw [he] at hin
        rcases List.mem_append.mp hin with hin | hin
        · exact hin
        · rcases List.mem_cons.mp hin with hin | hin
          · exact absurd (congrArg Prod.fst hin) hlong
          · exact absurd (by rw [e]; exact render_prefix hne x) (hord pre f.path post he _ hin)
      refine List.mem_map.mpr ⟨_, hpre, ?_⟩
      rw [hpos _ hv2, List.append_assoc]
  · intro fs' hdel
    rw [deleteAll_eq hdel]
    constructor
    · intro p hv hmem
      simp only
      rw [if_pos]
      rcases hmem with hmem | hmem
      · exact List.mem_map.mpr ⟨_, (hm1 _).mpr hmem, hpos p hv⟩
      · exact List.mem_map.mpr ⟨_, (hm2 _).mpr hmem, hpos p hv⟩
    · intro q hq
      simp only
      rw [if_neg]
      intro hm
      obtain ⟨⟨s, b⟩, hs, e⟩ := List.mem_map.mp hm
      cases b with
      | false =>
        have hs := (hm1 s).mp hs
        obtain ⟨f, hf1, rfl⟩ := List.mem_map.mp hs
        obtain ⟨p, e', hv, -⟩ := hfiles f hf1
        simp only [e'] at e hs
        exact hq p hv (.inl hs) (by rw [← e, hpos p hv])
      | true =>
        have hs := (hm2 s).mp hs
        obtain ⟨f, hf1, rfl⟩ := List.mem_map.mp hs
        obtain ⟨p, e', hv, -⟩ := hdirs f hf1
        simp only [e'] at e hs
        exact hq p hv (.inr hs) (by rw [← e, hpos p hv])

namespace DeleteExample
/-- The destination /d/ with a directory x that contains a file k. -/
def dest : Str := [47, 100, 47]
def fs : Fs := fun p =>
  if p = [] ∨ p = [[100]] ∨ p = [[100], [120]] then some .dir
  else if p = [[100], [120], [107]] then some (.file [1, 2] 5) else none
def listing : List Found := [⟨[], [120], 0, 0, true⟩, ⟨[120, 47], [107], 5, 2, false⟩]

theorem dest_ok : DirString dest := ⟨⟨[47, 100], rfl⟩, by decide⟩
theorem dest_posix : posix dest = [[100]] := by decide

theorem fs_some {p : Path} {n : Node} (h : fs p = some n) : p = [] ∨ p = [[100]] ∨ p = [[100], [120]] ∨ p = [[100], [120], [107]] := by
  unfold fs at h
  split at h
  · next h' => rcases h' with h' | h' | h' <;> simp [h']
  · split at h
    · next h' => simp [h']
    · cases h

theorem lists : Listing fs (posix dest) true listing := by
  rw [dest_posix]
  constructor
  · intro f hf
    simp only [listing, List.mem_cons, List.not_mem_nil, or_false] at hf
    rcases hf with rfl | rfl
    · exact ⟨_, FoundAt.dir (p := []) (n := [120]) (by decide), .inl rfl⟩
    · exact ⟨_, FoundAt.file (p := [[120]]) (n := [107]) (data := [1, 2]) (m := 5) (by unfold fs; decide), .inl rfl⟩
  · intro p f hf _
    cases hf with
    | @file p n data m h =>
      have hh := fs_some h
      have hl : (p ++ [n] : Path) = [] ∨ p ++ [n] = [[120]] ∨ p ++ [n] = [[120], [107]] := by
        rcases hh with hh | hh | hh | hh <;> simp at hh ⊢
        · exact .inl hh
        · exact .inr hh
      rcases hl with hl | hl | hl
      · simp at hl
      · rw [hl] at h; simp [fs] at h
      · rw [hl] at h
        have h2 := List.append_inj' (show p ++ [n] = [[120]] ++ [[107]] from hl) rfl
        obtain ⟨rfl, h3⟩ := h2
        simp at h3
        subst h3
        simp [fs] at h
        obtain ⟨rfl, rfl⟩ := h
        decide
    | @dir p n h =>
      have hh := fs_some h
      have hl : (p ++ [n] : Path) = [] ∨ p ++ [n] = [[120]] ∨ p ++ [n] = [[120], [107]] := by
        rcases hh with hh | hh | hh | hh <;> simp at hh ⊢
        · exact .inl hh
        · exact .inr hh
      rcases hl with hl | hl | hl
      · simp at hl
      · have h2 := List.append_inj' (show p ++ [n] = [] ++ [[120]] from hl) rfl
        obtain ⟨rfl, h3⟩ := h2
        simp at h3
        subst h3
        decide
      · rw [hl] at h; simp [fs] at h

/-- The filter of `--exclude *k`. -/
def exclude : Str → Bool := fun p => p.getLast? != some 107

def cfg : Cfg := ⟨false, false, fun _ _ => none⟩
def withFilter (f : Str → Bool) : Result :=
  keepCopyDest cfg (diffDirs cfg [] (serverDirs f listing []) (diffFiles cfg [] (serverFiles f listing [])))

theorem generated (f : Str → Bool) : Generate cfg [] (serverFiles f listing []) [] (serverDirs f listing []) (withFilter f) := by
  have hle : ∀ {α : Type} (path : α → Str) (l : List α), l.Pairwise (fun a b => Util.ltBytes (path a) (path b) = true) → Sorts path l l :=
    fun path l h => ⟨.refl _, h.imp fun {a b} h => by
      rcases Util.leBytes_total (path a) (path b) with h1 | h1
      · exact h1
      · simp [Util.ltBytes, h1] at h⟩
  exact Generate.mk (c := []) (cd := []) ⟨.refl _, .nil⟩ (hle _ _ (release_spec _).1) ⟨.refl _, .nil⟩ (hle _ _ (release_spec _).1)

theorem excluded_lists : (withFilter exclude).extraneous = [] ∧ (withFilter exclude).extraneousDirs = [⟨[120], invalidIndex, .dest⟩] := by
  constructor <;> with_unfolding_all rfl
theorem all_lists : (withFilter fun _ => true).extraneous = [⟨[120, 47, 107], 5, 2, invalidIndex, .dest⟩] ∧
    (withFilter fun _ => true).extraneousDirs = [⟨[120], invalidIndex, .dest⟩] := by
  constructor <;> with_unfolding_all rfl

/-- The hypotheses of `C89_all_deleted_partial` hold here without filter: both entries are deleted. -/
example : ∃ fs', DeleteAll dest (deletionOps (withFilter fun _ => true) [⟨[120], invalidIndex, .dest⟩]) fs fs' := by
  obtain ⟨h1, h2⟩ := all_lists
  refine (C89_all_deleted_partial fs dest dest_ok _ _ ?_ ?_ ?_ ?_ ?_ ?_).1
  · rw [h2]; exact ⟨.refl _, List.pairwise_singleton _ _⟩
  · rw [h1]; simp
  · rw [h2]; simp
  · rw [h1]
    intro s hs
    simp only [List.mem_singleton] at hs
    subst hs
    exact ⟨[[120], [107]], by decide, by intro n hn; simp at hn; rcases hn with rfl | rfl <;> exact ⟨by simp, by decide⟩, [1, 2], 5, by rw [dest_posix]; decide⟩
  · rw [h2]
    intro s hs
    simp only [List.mem_singleton] at hs
    subst hs
    exact ⟨[[120]], by decide, by intro n hn; simp at hn; subst hn; exact ⟨by simp, by decide⟩, by simp, by rw [dest_posix]; decide⟩
  · rw [h1, h2]
    intro s hs p hp hv x hx
    simp only [List.mem_singleton] at hs
    subst hs
    have hp' : p = [[120]] := by
      have := posix_render hv
      rw [← hp] at this
      rw [← this]; decide
    subst hp'
    rw [dest_posix] at hx
    obtain ⟨n, hn⟩ := Option.ne_none_iff_exists'.mp hx
    have := fs_some hn
    simp at this
    subst this
    exact ⟨by intro n hn; simp at hn; rcases hn with rfl | rfl <;> exact ⟨by simp, by decide⟩, .inl (by decide)⟩

end DeleteExample

/-- C89: not all extraneous directories can be deleted. If a directory the client does not have contains a file excluded by a filter
rule, the deletion of the directory fails, and with it the whole sync. -/
theorem C89_excluded_file_violated : ∃ (fs : Fs) (dest : Str) (listing : List Found) (filter : Str → Bool) (r : Result),
    DirString dest ∧ Listing fs (posix dest) true listing ∧
    Generate ⟨false, false, fun _ _ => none⟩ [] (serverFiles filter listing []) [] (serverDirs filter listing []) r ∧
    r.extraneousDirs ≠ [] ∧ ∀ dirs, SortsDesc r.extraneousDirs dirs → ¬ ∃ fs', DeleteAll dest (deletionOps r dirs) fs fs' := by
  refine ⟨DeleteExample.fs, DeleteExample.dest, DeleteExample.listing, DeleteExample.exclude, _, DeleteExample.dest_ok, DeleteExample.lists,
    DeleteExample.generated _, ?_, ?_⟩
  · rw [DeleteExample.excluded_lists.2]; simp
  · intro dirs hs
    rintro ⟨fs', h⟩
    have hd : dirs = [⟨[120], invalidIndex, .dest⟩] := by
      have := hs.perm
      rw [DeleteExample.excluded_lists.2] at this
      exact List.perm_singleton.mp this
    unfold deletionOps at h
    rw [DeleteExample.excluded_lists.1, hd] at h
    cases h with
    | cons h1 _ =>
      have e : posix (Text.Path.join false DeleteExample.dest [120]) = [[100], [120]] := by decide
      cases h1 with
      | absent h => rw [e] at h; simp [DeleteExample.fs] at h
      | entry h1 h2 =>
        rw [e] at h1 h2
        simp only [DeleteExample.fs] at h1
        cases h1
        have := h2 rfl [107]
        simp [DeleteExample.fs] at this

end Verif.Sync
