import Verif.Sync.Run
import Mathlib.Data.List.Induction

/-! # C57, C58: proofs -/
namespace Verif.Sync
open Verif.Text.Path (Str)

/-- A list entry that stands for a file of the client. -/
def IsClient (src : Source) (path : Str) (mtime : Int) (index : Nat) : Prop :=
  ∃ c, src.files[index]? = some c ∧ path = render c.1 ∧ mtime = c.2.2

theorem mem_fileList {src : Source} {f : File} (h : f ∈ src.fileList) :
    ∃ c, src.files[f.index]? = some c ∧ f.path = render c.1 ∧ f.mtime = c.2.2 ∧ f.size = c.2.1.length := by
  unfold Source.fileList at h
  obtain ⟨i, hi, rfl⟩ := List.mem_mapIdx.mp h
  exact ⟨src.files[i], by simp, rfl, rfl, rfl⟩

theorem mem_dirList {src : Source} {d : Dir} (h : d ∈ src.dirList) : ∃ c ∈ src.dirs, d.path = render c := by
  unfold Source.dirList at h
  obtain ⟨i, hi, rfl⟩ := List.mem_mapIdx.mp h
  exact ⟨src.dirs[i], List.getElem_mem _, rfl⟩

theorem fileList_paths (src : Source) : src.fileList.map File.path = src.files.map fun f => render f.1 := by
  unfold Source.fileList
  apply List.ext_getElem
  · simp
  · intro i h1 h2; simp

theorem dirList_paths (src : Source) : src.dirList.map Dir.path = src.dirs.map render := by
  unfold Source.dirList
  apply List.ext_getElem
  · simp
  · intro i h1 h2; simp

theorem adjust_missing {existing checksum whole : Bool} {r : Result} {f : File} (h : f ∈ (adjust existing checksum whole r).missing) :
    f ∈ r.missing ∨ ∃ c, (c ∈ r.changed ∨ ∃ g ∈ r.matching, c = Changed.mk' g g) ∧ f.path = c.path ∧ f.mtime = c.mtime ∧ f.index = c.index := by
  cases existing <;> cases checksum <;> cases whole <;> simp [adjust] at h
  case false.false.false => exact .inl h
  case false.true.false => exact .inl h
  case false.false.true =>
    rcases h with h | ⟨c, hc, rfl⟩
    · exact .inl h
    · exact .inr ⟨c, .inl hc, rfl, rfl, rfl⟩
  case false.true.true =>
    rcases h with h | ⟨c, hc, rfl⟩ | ⟨c, hc, rfl⟩
    · exact .inl h
    · exact .inr ⟨c, .inl hc, rfl, rfl, rfl⟩
    · exact .inr ⟨_, .inr ⟨c, hc, rfl⟩, rfl, rfl, rfl⟩
  case true.false.true =>
    obtain ⟨c, hc, rfl⟩ := h
    exact .inr ⟨c, .inl hc, rfl, rfl, rfl⟩
  case true.true.true =>
    rcases h with ⟨c, hc, rfl⟩ | ⟨c, hc, rfl⟩
    · exact .inr ⟨c, .inl hc, rfl, rfl, rfl⟩
    · exact .inr ⟨_, .inr ⟨c, hc, rfl⟩, rfl, rfl, rfl⟩

theorem adjust_changed {existing checksum whole : Bool} {r : Result} {c : Changed} (h : c ∈ (adjust existing checksum whole r).changed) :
    c ∈ r.changed ∨ ∃ g ∈ r.matching, c = Changed.mk' g g := by
  cases existing <;> cases checksum <;> cases whole <;> simp [adjust] at h
  all_goals first
    | exact .inl h
    | (rcases h with h | ⟨g, hg, rfl⟩
       · exact .inl h
       · exact .inr ⟨g, hg, rfl⟩)

/-- The lists of a sync. -/
structure Lists (o : Opts) (D : Path) (useCopy : Bool) (filter : Str → Bool) (src : Source) (fs : Fs) (r : Result) : Prop where
  missing : ∀ f ∈ r.missing, IsClient src f.path f.mtime f.index
  changed : ∀ f ∈ r.changed, IsClient src f.path f.mtime f.index
  /-- every client file is transferred or left alone -/
  cover : ∀ c ∈ src.files, render c.1 ∈ r.missing.map File.path ∨ render c.1 ∈ r.changed.map Changed.path ∨
    (o.checksum = false ∧ ∃ data, data.length = c.2.1.length ∧ fs (D ++ c.1) = some (.file data c.2.2)) ∨
    (o.existing = true ∧ ¬ ((∃ d m, fs (D ++ c.1) = some (.file d m)) ∧ Seen o filter c.1))
  nodup : (r.missing.map File.path ++ r.changed.map Changed.path).Nodup
  /-- nothing new with `--existing` -/
  existing : o.existing = true → useCopy = false → r.missingDirs = [] ∧ (∀ f ∈ r.changed, f.base ≠ .copyDest) ∧
    ∀ p, Valid p → render p ∈ r.missing.map File.path ∨ render p ∈ r.changed.map Changed.path → fs (D ++ p) ≠ none
  missingDirs : ∀ d ∈ r.missingDirs, ∃ c ∈ src.dirs, d.path = render c
  dirs : o.existing = false → ∀ c ∈ src.dirs, render c ∈ r.missingDirs.map Dir.path ∨ fs (D ++ c) = some .dir
  extraneous : ∀ s ∈ r.extraneous, ∃ p, s.path = render p ∧ Valid p ∧ Seen o filter p ∧ p ∉ src.files.map Prod.fst ∧
    ∃ d m, fs (D ++ p) = some (.file d m)
  extraneousDirs : ∀ s ∈ r.extraneousDirs, ∃ p, s.path = render p ∧ Valid p ∧ Seen o filter p ∧ p ∉ src.dirs ∧ fs (D ++ p) = some .dir
  complete : ∀ p, Seen o filter p → ¬ src.Has p → (∀ t, fs (D ++ p) ≠ some (.link t)) → fs (D ++ p) ≠ none →
    render p ∈ r.extraneous.map File.path ∨ render p ∈ r.extraneousDirs.map Dir.path

theorem listed_file {fs : Fs} (hwf : fs.WF) {D : Path} {o : Opts} {filter : Str → Bool} {ld : List Found} (h : Listing fs D o.recursive ld) {p : Path}
    (hp : Seen o filter p) {d : List UInt8} {m : Int} (hf : fs (D ++ p) = some (.file d m)) : ∃ e ∈ ld, isFile filter (render p) e := by
  obtain ⟨h1, h2, h3⟩ := hp
  obtain ⟨p, n, rfl⟩ : ∃ p' n, p = p' ++ [n] := ⟨p.dropLast, p.getLast h1, (List.dropLast_concat_getLast h1).symm⟩
  have hF := FoundAt.file hf
  exact ⟨_, h.complete _ _ hF h2, (FoundAt.path_eq hwf hF).1, h3, rfl⟩

theorem listed_dir {fs : Fs} (hwf : fs.WF) {D : Path} {o : Opts} {filter : Str → Bool} {ld : List Found} (h : Listing fs D o.recursive ld) {p : Path}
    (hp : Seen o filter p) (hf : fs (D ++ p) = some .dir) : ∃ e ∈ ld, isDirectory filter (render p) e := by
  obtain ⟨h1, h2, h3⟩ := hp
  obtain ⟨p, n, rfl⟩ : ∃ p' n, p = p' ++ [n] := ⟨p.dropLast, p.getLast h1, (List.dropLast_concat_getLast h1).symm⟩
  have hF := FoundAt.dir hf
  exact ⟨_, h.complete _ _ hF h2, (FoundAt.path_eq hwf hF).1, h3, rfl⟩

theorem file_listed {fs : Fs} (hwf : fs.WF) {D : Path} {o : Opts} {filter : Str → Bool} {ld : List Found} (h : Listing fs D o.recursive ld) {s : Str}
    {e : Found} (he : e ∈ ld) (hi : isFile filter s e) : ∃ p, s = render p ∧ Valid p ∧ Seen o filter p ∧
      ∃ d, fs (D ++ p) = some (.file d e.mtime) ∧ e.size = d.length := by
  obtain ⟨p, hF, hr⟩ := h.sound e he
  obtain ⟨a1, a2, a3⟩ := FoundAt.path_eq hwf hF
  obtain ⟨b1, b2, b3⟩ := hi
  have hs : s = render p := by rw [← b1, a1]
  refine ⟨p, hs, a2, ⟨a3, hr, by rw [← hs]; exact b2⟩, ?_⟩
  cases hF with
  | file h => exact ⟨_, h, rfl⟩
  | dir h => cases b3

theorem dir_listed {fs : Fs} (hwf : fs.WF) {D : Path} {o : Opts} {filter : Str → Bool} {ld : List Found} (h : Listing fs D o.recursive ld) {s : Str}
    {e : Found} (he : e ∈ ld) (hi : isDirectory filter s e) : ∃ p, s = render p ∧ Valid p ∧ Seen o filter p ∧ fs (D ++ p) = some .dir := by
  obtain ⟨p, hF, hr⟩ := h.sound e he
  obtain ⟨a1, a2, a3⟩ := FoundAt.path_eq hwf hF
  obtain ⟨b1, b2, b3⟩ := hi
  have hs : s = render p := by rw [← b1, a1]
  refine ⟨p, hs, a2, ⟨a3, hr, by rw [← hs]; exact b2⟩, ?_⟩
  cases hF with
  | file h => cases b3
  | dir h => exact h

theorem lists_spec {o : Opts} {dest copyDest : Str} {filter : Str → Bool} {src : Source} {fs : Fs} {ld lc : List Found}
    {stat : Base → Str → Option (Int × Nat)} {r : Result} (hwf : fs.WF) (hsrc : src.OK)
    (hld : Listing fs (posix dest) o.recursive ld) (hlc : copyDest = [] → lc = [])
    (hstat : StatOk fs (posix dest) src (stat .dest))
    (hgen : Generate ⟨decide (copyDest ≠ []), o.relative && ! o.recursive, stat⟩ src.fileList (serverFiles filter ld lc)
        src.dirList (serverDirs filter ld lc) r) :
    Lists o (posix dest) (decide (copyDest ≠ [])) filter src fs (adjust o.existing o.checksum o.whole r) := by
  obtain ⟨f1, f2, f3⟩ := C35_destination_wins filter ld lc
  obtain ⟨d1, d2, d3⟩ := C35_destination_wins_dirs filter ld lc
  have hbase : Bases ⟨decide (copyDest ≠ []), o.relative && ! o.recursive, stat⟩ (serverFiles filter ld lc) := by
    intro s hs
    rcases f2 s hs with ⟨h, -⟩ | ⟨h, -, e, he, -⟩
    · exact .inl h
    · refine .inr ⟨h, ?_⟩
      simp only [decide_eq_true_eq]
      intro hc; rw [hlc hc] at he; cases he
  have hbaseD : ∀ s ∈ serverDirs filter ld lc, s.base = .dest ∨ (s.base = .copyDest ∧
      (⟨decide (copyDest ≠ []), o.relative && ! o.recursive, stat⟩ : Cfg).copyDest = true) := by
    intro s hs
    rcases d2 s hs with ⟨h, -⟩ | ⟨h, -, e, he, -⟩
    · exact .inl h
    · refine .inr ⟨h, ?_⟩
      simp only [decide_eq_true_eq]
      intro hc; rw [hlc hc] at he; cases he
  obtain ⟨⟨c1, c2⟩, c3, c4, c5, c6, c7⟩ := C34_files_classified _ _ _ _ _ r f1 hbase hgen
  obtain ⟨g1, g2, g3, g4, g5, g6, g7⟩ := C34_dirs_classified _ _ _ _ _ r d1 hbaseD hgen
  obtain ⟨a1, a2, a3, a4, a5, a6, a7⟩ := C34_options o.existing o.checksum o.whole r
  have hclient : ∀ f ∈ src.fileList, IsClient src f.path f.mtime f.index := by
    intro f hf
    obtain ⟨c, h1, h2, h3, -⟩ := mem_fileList hf
    exact ⟨c, h1, h2, h3⟩
  have hchanged : ∀ f, (f ∈ r.changed ∨ ∃ g ∈ r.matching, f = Changed.mk' g g) → IsClient src f.path f.mtime f.index := by
    rintro f (hf | ⟨g, hg, rfl⟩)
    · obtain ⟨c, hc, s, -, -, rfl⟩ := c5 f hf
      exact hclient c hc
    · exact hclient g (c4 g hg).1
  -- a file the server has in the destination
  have hdest : ∀ p, Valid p → ∀ s, ServerHas ⟨decide (copyDest ≠ []), o.relative && ! o.recursive, stat⟩ (serverFiles filter ld lc) (render p) (some s) →
      s.base = .dest → fs (posix dest ++ p) ≠ none ∧ ∀ c ∈ src.files, c.1 = p → s.size = c.2.1.length → s.mtime = c.2.2 →
        ∃ data, data.length = c.2.1.length ∧ fs (posix dest ++ p) = some (.file data c.2.2) := by
    intro p hv s hs hb
    cases hs with
    | listed h1 h2 =>
      rcases f2 s h1 with ⟨-, e, he, hi, hm, hz⟩ | ⟨h, -⟩
      · obtain ⟨p', e1, e2, e3, d, e4, e5⟩ := file_listed hwf hld he hi
        rw [h2] at e1
        have := render_inj hv e2 e1
        subst this
        refine ⟨by rw [e4]; simp, fun c _ _ hz' hm' => ⟨d, ?_, ?_⟩⟩
        · rw [← hz', hz, e5]
        · rw [e4, ← hm', hm]
      · rw [hb] at h; cases h
    | found _ _ h3 =>
      have hst := hstat (render p)
      rw [posix_render hv] at hst
      simp only at h3
      cases hn : fs (posix dest ++ p) with
      | none => rw [hn] at hst; simp only at hst; rw [hst] at h3; cases h3
      | some n =>
        refine ⟨by simp, fun c hc hcp hz hm => ?_⟩
        simp only at hz hm
        cases n with
        | file d m' =>
          rw [hn] at hst; simp only at hst; rw [hst] at h3; cases h3
          exact ⟨d, hz, by rw [hm]⟩
        | dir =>
          rw [hn] at hst; simp only at hst
          exact absurd (by rw [h3, hz, hm]) (hst c hc (by rw [hcp]))
        | link t =>
          rw [hn] at hst; simp only at hst
          exact absurd (by rw [h3, hz, hm]) (hst c hc (by rw [hcp]))
    | foundCopy => cases hb
  have hvf : ∀ c ∈ src.files, Valid c.1 := fun c hc => (hsrc.validFiles c hc).1
  have hvd : ∀ d ∈ src.dirs, Valid d := fun c hc => (hsrc.validDirs c hc).1
  have hmemF : ∀ p, Valid p → (render p ∈ src.fileList.map File.path ↔ p ∈ src.files.map Prod.fst) := by
    intro p hv
    rw [fileList_paths]
    simp only [List.mem_map]
    constructor
    · rintro ⟨c, hc, e⟩; exact ⟨c, hc, render_inj (hvf c hc) hv e⟩
    · rintro ⟨c, hc, rfl⟩; exact ⟨c, hc, rfl⟩
  have hmemD : ∀ p, Valid p → (render p ∈ src.dirList.map Dir.path ↔ p ∈ src.dirs) := by
    intro p hv
    rw [dirList_paths]
    simp only [List.mem_map]
    constructor
    · rintro ⟨c, hc, e⟩; rw [← render_inj (hvd c hc) hv e]; exact hc
    · intro h; exact ⟨p, h, rfl⟩
  have hmatch : ∀ c ∈ src.files, render c.1 ∈ r.matching.map File.path →
      ∃ data, data.length = c.2.1.length ∧ fs (posix dest ++ c.1) = some (.file data c.2.2) := by
    intro c hc hm
    obtain ⟨g, hg, e⟩ := List.mem_map.mp hm
    obtain ⟨hg1, ob, hs, s, rfl, hb, hz, ht⟩ := c4 g hg
    obtain ⟨c', h1, h2, h3, h4⟩ := mem_fileList hg1
    have hc' := List.mem_of_getElem? h1
    have heq : c' = c := by
      have : c'.1 = c.1 := render_inj (hvf c' hc') (hvf c hc) (by rw [← h2, e])
      exact List.inj_on_of_nodup_map hsrc.nodup hc' hc this
    subst heq
    rw [e] at hs
    exact (hdest _ (hvf _ hc) s hs hb).2 _ hc rfl (by rw [hz, h4]) (by rw [ht, h3])
  refine
    { missing := ?_, changed := ?_, cover := ?_, nodup := ?_, existing := ?_, missingDirs := ?_, dirs := ?_, extraneous := ?_, extraneousDirs := ?_,
      complete := ?_ }
  · intro f hf
    rcases adjust_missing hf with h | ⟨c, hc, e1, e2, e3⟩
    · exact hclient f (c3 f h).1
    · rw [e1, e2, e3]; exact hchanged c hc
  · intro f hf
    exact hchanged f (adjust_changed hf)
  · intro c hc
    have hin : render c.1 ∈ src.fileList.map File.path := by rw [fileList_paths]; exact List.mem_map_of_mem (f := fun f : Path × List UInt8 × Int => render f.1) hc
    have := (c2 (render c.1)).mpr hin
    rw [List.mem_append, List.mem_append] at this
    rcases this with (h | h) | h
    · by_cases he : o.existing = false
      · exact .inl ((a1 _).mpr (.inl ⟨he, h⟩))
      · refine .inr (.inr (.inr ⟨by simpa using he, ?_⟩))
        rintro ⟨⟨d, m, hf⟩, hseen⟩
        obtain ⟨e, he1, he2⟩ := listed_file hwf hld hseen hf
        obtain ⟨g, hg, e'⟩ := List.mem_map.mp h
        obtain ⟨-, hs⟩ := c3 g hg
        rw [e'] at hs
        obtain ⟨s, hs1, hs2⟩ := (f3 (render c.1)).mpr (.inl ⟨e, he1, he2⟩)
        cases hs with
        | absent h1 _ => exact h1 s hs1 hs2
    · by_cases hk : o.checksum = false
      · exact .inr (.inr (.inl ⟨hk, hmatch c hc h⟩))
      · have hk : o.checksum = true := by simpa using hk
        by_cases hw : o.whole = true
        · exact .inl ((a1 _).mpr (.inr ⟨hw, .inr ⟨hk, h⟩⟩))
        · exact .inr (.inl ((a2 _).mpr ⟨by simpa using hw, .inr ⟨hk, h⟩⟩))
    · by_cases hw : o.whole = true
      · exact .inl ((a1 _).mpr (.inr ⟨hw, .inl h⟩))
      · exact .inr (.inl ((a2 _).mpr ⟨by simpa using hw, .inl h⟩))
  · have := a7 c1
    rw [List.append_assoc] at this
    refine this.sublist ?_
    exact (List.Sublist.refl _).append (List.sublist_append_right _ _)
  · intro he hc
    have hc' : (⟨decide (copyDest ≠ []), o.relative && ! o.recursive, stat⟩ : Cfg).copyDest = false := hc
    obtain ⟨h1, h2⟩ := C88_existing_partial _ _ _ _ _ r o.checksum o.whole f1 hbase hgen hc'
    rw [he] 
    refine ⟨h2, ?_, ?_⟩
    · intro f hf
      rcases adjust_changed hf with h | ⟨g, hg, rfl⟩
      · obtain ⟨c, hc, s, hs, -, rfl⟩ := c5 f h
        intro hb
        rcases onServer_base hbase ((serverHas_iff f1).mp hs) with h | ⟨-, h⟩
        · simp only at hb; rw [h] at hb; cases hb
        · rw [hc'] at h; cases h
      · have := (c4 g hg).1
        unfold Source.fileList at this
        obtain ⟨i, hi, rfl⟩ := List.mem_mapIdx.mp this
        simp [Changed.mk']
    · intro p hv hp
      obtain ⟨s, hs, hb⟩ := h1 _ hp
      exact (hdest p hv s hs hb).1
  · intro d hd
    exact mem_dirList (g2 d (by simp [((a4 d).mp hd).2]))
  · intro he c hc
    by_cases hin : ∃ s ∈ serverDirs filter ld lc, s.path = render c ∧ s.base = .dest
    · obtain ⟨s, hs, e, hb⟩ := hin
      rcases d2 s hs with ⟨-, x, hx, hi⟩ | ⟨h, -⟩
      · obtain ⟨p, e1, e2, -, e3⟩ := dir_listed hwf hld hx hi
        rw [e] at e1
        have := render_inj (hvd c hc) e2 e1
        subst this
        exact .inr e3
      · rw [hb] at h; cases h
    · refine .inl ?_
      have : render c ∈ r.missingDirs.map Dir.path := (g3 _).mpr ⟨(hmemD c (hvd c hc)).mpr hc, fun s hs e hb => hin ⟨s, hs, e, hb⟩⟩
      obtain ⟨d, hd, e⟩ := List.mem_map.mp this
      exact List.mem_map.mpr ⟨d, (a4 d).mpr ⟨he, hd⟩, e⟩
  · intro s hs
    rw [a5] at hs
    obtain ⟨h1, h2, h3⟩ := (c6 s).mp hs
    rcases f2 s h1 with ⟨-, e, he, hi, -⟩ | ⟨h, -⟩
    · obtain ⟨p, e1, e2, e3, d, e4, -⟩ := file_listed hwf hld he hi
      refine ⟨p, e1, e2, e3, fun h => h3 ?_, d, _, e4⟩
      rw [e1]; exact (hmemF p e2).mpr h
    · rw [h2] at h; cases h
  · intro s hs
    rw [a6] at hs
    obtain ⟨h1, h2, h3⟩ := (g5 s).mp hs
    rcases d2 s h1 with ⟨-, e, he, hi⟩ | ⟨h, -⟩
    · obtain ⟨p, e1, e2, e3, e4⟩ := dir_listed hwf hld he hi
      refine ⟨p, e1, e2, e3, fun h => h3 ?_, e4⟩
      rw [e1]; exact (hmemD p e2).mpr h
    · rw [h2] at h; cases h
  · intro p hp hh hl hne
    have hv : Valid p := fun n hn => hwf.valid _ hne n (by simp [hn])
    rw [a5, a6]
    cases hn : fs (posix dest ++ p) with
    | none => exact absurd hn hne
    | some n =>
      cases n with
      | link t => exact absurd hn (hl t)
      | file d m =>
        refine .inl ?_
        obtain ⟨e, he, hi⟩ := listed_file hwf hld hp hn
        obtain ⟨s, hs, e'⟩ := (f3 (render p)).mpr (.inl ⟨e, he, hi⟩)
        refine List.mem_map.mpr ⟨s, (c6 s).mpr ⟨hs, ?_, ?_⟩, e'⟩
        · rcases f2 s hs with ⟨h, -⟩ | ⟨-, h, -⟩
          · exact h
          · exact absurd (by rw [e']; exact hi) (h e he)
        · rw [e']; exact fun h => hh (.inl ((hmemF p hv).mp h))
      | dir =>
        refine .inr ?_
        obtain ⟨e, he, hi⟩ := listed_dir hwf hld hp hn
        obtain ⟨s, hs, e'⟩ := (d3 (render p)).mpr (.inl ⟨e, he, hi⟩)
        refine List.mem_map.mpr ⟨s, (g5 s).mpr ⟨hs, ?_, ?_⟩, e'⟩
        · rcases d2 s hs with ⟨h, -⟩ | ⟨-, h, -⟩
          · exact h
          · exact absurd (by rw [e']; exact hi) (h e he)
        · rw [e']; exact fun h => hh (.inr ((hmemD p hv).mp h))

theorem forall₂_right {α β : Type} {R : α → β → Prop} {l : List α} {m : List β} (h : List.Forall₂ R l m) : ∀ b ∈ m, ∃ a ∈ l, R a b := by
  induction h with
  | nil => simp
  | cons h _ ih =>
    intro b hb
    rcases List.mem_cons.mp hb with rfl | hb
    · exact ⟨_, by simp, h⟩
    · obtain ⟨a, ha, hr⟩ := ih b hb
      exact ⟨a, by simp [ha], hr⟩

theorem forall₂_left {α β : Type} {R : α → β → Prop} {l : List α} {m : List β} (h : List.Forall₂ R l m) : ∀ a ∈ l, ∃ b ∈ m, R a b := by
  induction h with
  | nil => simp
  | cons h _ ih =>
    intro b hb
    rcases List.mem_cons.mp hb with rfl | hb
    · exact ⟨_, by simp, h⟩
    · obtain ⟨a, ha, hr⟩ := ih b hb
      exact ⟨a, by simp [ha], hr⟩

theorem forall₂_map {α β γ : Type} {R : α → β → Prop} {f : α → γ} {g : β → γ} {l : List α} {m : List β} (h : List.Forall₂ R l m)
    (hr : ∀ a b, R a b → g b = f a) : m.map g = l.map f := by
  induction h with
  | nil => rfl
  | cons h _ ih => simp [hr _ _ h, ih]

/-- A job transfers a file of the client. -/
structure JobOf (src : Source) (D : Path) (j : Job) (c : Path × List UInt8 × Int) : Prop where
  mem : c ∈ src.files
  path : j.path = D ++ c.1
  data : j.data = c.2.1
  mtime : j.mtime = c.2.2
  temp : ∀ t, j.temp = some t → t = D ++ tempOf c.1
  mkdir : ∀ d, j.mkdir = some d → d = D ++ c.1.dropLast
  either : j.temp = none ∨ j.mkdir = none

theorem jobsOK {src : Source} (hsrc : src.OK) {D : Path} {js : List Job} (h : ∀ j ∈ js, ∃ c, JobOf src D j c)
    (hn : (js.map Job.path).Nodup) (hk : ∀ j ∈ js, j.temp ≠ none → ∀ k ∈ js, k.mkdir = none) : JobsOK D js := by
  refine ⟨?_, ?_, hn, ?_, ?_, hk⟩
  · intro j hj
    obtain ⟨c, hc⟩ := h j hj
    exact ⟨_, hc.path.symm⟩
  · intro j hj t ht
    obtain ⟨c, hc⟩ := h j hj
    exact ⟨_, (hc.temp t ht).symm⟩
  · intro j hj k hk e
    obtain ⟨c, hc⟩ := h j hj
    obtain ⟨c', hc'⟩ := h k hk
    have := hc.temp _ e
    rw [hc'.path] at this
    exact hsrc.noTemp c' hc'.mem c hc.mem (append_cancel this)
  · intro j hj k hk t h1 h2
    obtain ⟨c, hc⟩ := h j hj
    obtain ⟨c', hc'⟩ := h k hk
    have := (hc.temp t h1).symm.trans (hc'.temp t h2)
    rw [hc.path, hc'.path, tempOf_inj (hsrc.validFiles c hc.mem).2.1 (hsrc.validFiles c' hc'.mem).2.1 (append_cancel this)]

theorem jobs_nodup {src : Source} {dest : Str} (hd : DirString dest) (hsrc : src.OK) {l : List Str}
    (hl : ∀ s ∈ l, ∃ c ∈ src.files, s = render c.1) (hn : l.Nodup) : (l.map fun s => posix (Text.Path.join false dest s)).Nodup := by
  refine hn.map_on ?_
  intro a ha b hb e
  obtain ⟨c, hc, rfl⟩ := hl a ha
  obtain ⟨c', hc', rfl⟩ := hl b hb
  rw [posix_join hd, posix_join hd, posix_render (hsrc.validFiles c hc).1, posix_render (hsrc.validFiles c' hc').1] at e
  rw [append_cancel e]

theorem missingJob_of {src : Source} {dest : Str} (hd : DirString dest) (hsrc : src.OK) {f : File} {j : Job}
    (hf : IsClient src f.path f.mtime f.index) (h : MissingJob src dest f j) : ∃ c, JobOf src (posix dest) j c ∧ f.path = render c.1 ∧ j.temp = none := by
  obtain ⟨c, h1, h2, h3⟩ := hf
  have hc := List.mem_of_getElem? h1
  obtain ⟨v1, v2, v3⟩ := hsrc.validFiles c hc
  cases h with
  | @mk c' h =>
    rw [h1] at h; cases h
    refine ⟨c, ⟨hc, ?_, rfl, h3, by simp, ?_, .inl rfl⟩, h2, rfl⟩
    · simp only; rw [h2, posix_join hd, posix_render v1]
    · intro d hd'
      simp only [Option.some.injEq] at hd'
      rw [← hd', h2, posix_dirName hd v1 v2 v3]

theorem changedJob_of {src : Source} {dest copyDest : Str} (hd : DirString dest) (hsrc : src.OK) {f : Changed} {j : Job}
    (hf : IsClient src f.path f.mtime f.index) (h : ChangedJob src dest copyDest f j) :
    ∃ c, JobOf src (posix dest) j c ∧ f.path = render c.1 ∧ j.mkdir = none ∧ (f.base ≠ .copyDest → j.temp ≠ none) := by
  obtain ⟨c, h1, h2, h3⟩ := hf
  have hc := List.mem_of_getElem? h1
  obtain ⟨v1, v2, v3⟩ := hsrc.validFiles c hc
  cases h with
  | @mk c' h =>
    rw [h1] at h; cases h
    refine ⟨c, ⟨hc, ?_, rfl, h3, ?_, by simp, .inr rfl⟩, h2, rfl, ?_⟩
    · simp only; rw [h2, posix_join hd, posix_render v1]
    · intro t ht
      simp only [Option.ite_none_right_eq_some, Option.some.injEq] at ht
      rw [← ht.2, h2, posix_temp hd v1 v2]
    · intro hb
      simp [hb]

theorem wf_prefix {fs : Fs} (h : fs.WF) {p q : Path} (hp : fs p ≠ none) (hq : q <+: p) : fs q ≠ none := by
  obtain ⟨t, rfl⟩ := hq
  induction t using List.reverseRecOn with
  | nil => simpa using hp
  | append_singleton t x ih =>
    rw [← List.append_assoc] at hp
    exact ih (by rw [h.parent _ _ hp]; simp)

/-! ### The whole sync -/

/-- What the deletions do. -/
theorem deletion_spec {o : Opts} {dest : Str} {useCopy : Bool} {filter : Str → Bool} {src : Source} {fs fs1 : Fs} {r : Result} {dirs : List Dir}
    (hd : DirString dest) (hl : Lists o (posix dest) useCopy filter src fs r) (hs : SortsDesc r.extraneousDirs dirs)
    (h : DeleteAll dest (deletionOps r dirs) fs fs1) :
    (∀ q, fs1 q = fs q ∨ (fs1 q = none ∧ ∃ p, q = posix dest ++ p ∧ Seen o filter p ∧
      ((p ∉ src.files.map Prod.fst ∧ ∃ d m, fs q = some (.file d m)) ∨ (p ∉ src.dirs ∧ fs q = some .dir)))) ∧
    (∀ p, Valid p → render p ∈ r.extraneous.map File.path ∨ render p ∈ r.extraneousDirs.map Dir.path → fs1 (posix dest ++ p) = none) := by
  have hops : ∀ op ∈ deletionOps r dirs, ∃ p, posix (Text.Path.join false dest op.1) = posix dest ++ p ∧ Seen o filter p ∧
      ((p ∉ src.files.map Prod.fst ∧ ∃ d m, fs (posix dest ++ p) = some (.file d m)) ∨ (p ∉ src.dirs ∧ fs (posix dest ++ p) = some .dir)) := by
    intro op hop
    rcases List.mem_append.mp hop with hop | hop
    · obtain ⟨s, hs1, rfl⟩ := List.mem_map.mp hop
      obtain ⟨p, e, hv, h1, h2, h3⟩ := hl.extraneous s hs1
      exact ⟨p, by simp only; rw [e, posix_join hd, posix_render hv], h1, .inl ⟨h2, h3⟩⟩
    · obtain ⟨s, hs1, rfl⟩ := List.mem_map.mp hop
      obtain ⟨p, e, hv, h1, h2, h3⟩ := hl.extraneousDirs s (hs.perm.mem_iff.mp hs1)
      exact ⟨p, by simp only; rw [e, posix_join hd, posix_render hv], h1, .inr ⟨h2, h3⟩⟩
  have heq := deleteAll_eq h
  refine ⟨?_, ?_⟩
  · intro q
    by_cases hq : q ∈ (deletionOps r dirs).map (fun op => posix (Text.Path.join false dest op.1))
    · obtain ⟨op, hop, rfl⟩ := List.mem_map.mp hq
      obtain ⟨p, e, h1, h2⟩ := hops op hop
      refine .inr ⟨?_, p, e, h1, by rw [e]; exact h2⟩
      rw [heq]; exact if_pos hq
    · refine .inl ?_
      rw [heq]; exact if_neg hq
  · intro p hv hp
    rw [heq]
    refine if_pos ?_
    have : ∃ op ∈ deletionOps r dirs, op.1 = render p := by
      rcases hp with hp | hp
      · obtain ⟨s, h1, h2⟩ := List.mem_map.mp hp
        exact ⟨(s.path, false), List.mem_append_left _ (List.mem_map_of_mem (f := fun f : File => (f.path, false)) h1), h2⟩
      · obtain ⟨s, h1, h2⟩ := List.mem_map.mp hp
        exact ⟨(s.path, true), List.mem_append_right _ (List.mem_map_of_mem (f := fun f : Dir => (f.path, true)) (hs.perm.mem_iff.mpr h1)), h2⟩
    obtain ⟨op, hop, e⟩ := this
    exact List.mem_map.mpr ⟨op, hop, by rw [e, posix_join hd, posix_render hv]⟩

/-- What the transfers of a list do. -/
theorem transfer_spec {src : Source} {D : Path} (hsrc : src.OK) {js : List Job} (hjobs : ∀ j ∈ js, ∃ c, JobOf src D j c)
    (hok : JobsOK D js) {fs fs' : Fs} (hn : NoLinks fs D) (h : Jobs js 0 [] fs fs') :
    (∀ j ∈ js, ∀ c, JobOf src D j c → fs' (D ++ c.1) = some (.file c.2.1 c.2.2)) ∧ NoLinks fs' D ∧
    (∀ q, fs' q = fs q ∨ (∃ j ∈ js, ∃ c, JobOf src D j c ∧ q = D ++ c.1) ∨
      (fs q = none ∧ fs' q = some .dir ∧ ∃ j ∈ js, ∃ c, JobOf src D j c ∧ q <+: D ++ c.1.dropLast ∧ j.mkdir ≠ none) ∨
      (fs' q = none ∧ ∃ j ∈ js, ∃ c, JobOf src D j c ∧ q = D ++ tempOf c.1 ∧ j.temp ≠ none)) := by
  obtain ⟨h1, h2, h3, h4⟩ := jobs_spec hok h ⟨by simp, hn, by simp, by omega⟩
  refine ⟨?_, h4, ?_⟩
  · intro j hj c hc
    have := h1 j hj
    unfold Finished at this
    rw [hc.path, hc.data, hc.mtime] at this
    exact this
  · intro q
    by_cases ht : Touched js q
    · obtain ⟨j, hj, h⟩ := ht
      obtain ⟨c, hc⟩ := hjobs j hj
      rcases h with rfl | h
      · exact .inr (.inl ⟨j, hj, c, hc, hc.path⟩)
      · exact .inr (.inr (.inr ⟨h2 j hj q h, j, hj, c, hc, hc.temp q h, by rw [h]; simp⟩))
    · rcases h3 q ht with e | ⟨e1, e2, j, hj, d, e3, e4⟩
      · exact .inl e
      · obtain ⟨c, hc⟩ := hjobs j hj
        refine .inr (.inr (.inl ⟨e1, e2, j, hj, c, hc, ?_, by rw [e3]; simp⟩))
        rw [← hc.mkdir d e3]; exact e4

/-- C57: the effect of a successful sync. -/
theorem C57_sync_result (o : Opts) (dest copyDest : Str) (filter : Str → Bool) (src : Source) (fs fs' : Fs)
    (hwf : fs.WF) (hd : DirString dest) (hn : NoLinks fs (posix dest)) (hsrc : src.OK)
    (h : Sync o dest copyDest filter src fs fs') :
    (o.dryRun = true → fs' = fs) ∧
    (o.dryRun = false → Synced o (posix dest) (decide (copyDest ≠ [])) filter src fs fs') := by
  cases h with
  | @mk ld lc stat r r' dirs fs1 fs2 fs3 _ js1 js2 h1 h2 h3 h4 h5 h6 h7 h8 h9 h10 h11 =>
  constructor
  · intro hdry
    rw [h11 hdry, h9 (by simp [hdry])]
  intro hdry
  obtain ⟨k1, k2, k3, k4, k5⟩ := h10 hdry
  have hl : Lists o (posix dest) (decide (copyDest ≠ [])) filter src fs r' := by
    rw [h6]; exact lists_spec hwf hsrc h1 h2 h4 h5
  generalize hD : posix dest = D at *
  -- deletion
  have hdel : (∀ q, fs1 q = fs q ∨ (o.delete = true ∧ fs1 q = none ∧ ∃ p, q = D ++ p ∧ Seen o filter p ∧
      ((p ∉ src.files.map Prod.fst ∧ ∃ d m, fs q = some (.file d m)) ∨ (p ∉ src.dirs ∧ fs q = some .dir)))) ∧
      (o.delete = true → ∀ p, Valid p → render p ∈ r'.extraneous.map File.path ∨ render p ∈ r'.extraneousDirs.map Dir.path → fs1 (D ++ p) = none) := by
    by_cases hdl : o.delete = true
    · obtain ⟨a1, a2⟩ := deletion_spec hd (by rw [hD]; exact hl) h7 (h8 ⟨hdl, hdry⟩)
      rw [hD] at a1 a2
      exact ⟨fun q => (a1 q).imp id fun ⟨x, y⟩ => ⟨hdl, x, y⟩, fun _ => a2⟩
    · have : fs1 = fs := h9 (by simp [hdl])
      subst this
      exact ⟨fun q => .inl rfl, fun h => absurd h hdl⟩
  obtain ⟨del1, del2⟩ := hdel
  have nl1 : NoLinks fs1 D := by
    intro q hq t e
    rcases del1 q with h | ⟨-, h, -⟩
    · rw [h] at e; exact hn q hq t e
    · rw [h] at e; cases e
  -- directories
  have hjd : ∀ d ∈ r'.missingDirs, ∃ c ∈ src.dirs, d.path = render c ∧ posix (Text.Path.join false dest d.path) = D ++ c := by
    intro d hd'
    obtain ⟨c, hc, e⟩ := hl.missingDirs d hd'
    exact ⟨c, hc, e, by rw [e, posix_join hd, posix_render (hsrc.validDirs c hc).1, hD]⟩
  obtain ⟨mk1, mk2, mk3, mk4⟩ := createDirs_spec k1
  have nl2 := mk4 D nl1
  have mkf : ∀ q, fs2 q = fs1 q ∨ (fs2 q = some .dir ∧ ∃ c ∈ src.dirs, q = D ++ c) ∨
      (fs1 q = none ∧ fs2 q = some .dir ∧ ∃ c ∈ src.dirs, q <+: D ++ c) := by
    intro q
    by_cases ht : ∃ d ∈ r'.missingDirs, q = posix (Text.Path.join false dest d.path)
    · obtain ⟨d, hd', rfl⟩ := ht
      obtain ⟨c, hc, e, e2⟩ := hjd d hd'
      exact .inr (.inl ⟨mk1 d hd', c, hc, e2⟩)
    · rcases mk2 q ht with e | ⟨e1, e2, d, hd', e3⟩
      · exact .inl e
      · obtain ⟨c, hc, e, e4⟩ := hjd d hd'
        exact .inr (.inr ⟨e1, e2, c, hc, by rw [← e4]; exact e3⟩)
  -- missing files
  have hnd := List.nodup_append.mp hl.nodup
  have hj1 : ∀ j ∈ js1, ∃ c, JobOf src D j c ∧ j.temp = none := by
    intro j hj
    obtain ⟨f, hf, hm⟩ := forall₂_right k2 j hj
    obtain ⟨c, hc, -, ht⟩ := missingJob_of hd hsrc (hl.missing f hf) hm
    rw [hD] at hc
    exact ⟨c, hc, ht⟩
  have hj2 : ∀ j ∈ js2, ∃ c, JobOf src D j c ∧ j.mkdir = none := by
    intro j hj
    obtain ⟨f, hf, hm⟩ := forall₂_right k4 j hj
    obtain ⟨c, hc, -, ht, -⟩ := changedJob_of hd hsrc (hl.changed f hf) hm
    rw [hD] at hc
    exact ⟨c, hc, ht⟩
  have ok1 : JobsOK D js1 := by
    refine jobsOK hsrc (fun j hj => ⟨_, (hj1 j hj).choose_spec.1⟩) ?_ ?_
    · rw [forall₂_map (g := Job.path) (f := fun f : File => posix (Text.Path.join false dest f.path)) k2 (by rintro a b ⟨_⟩; rfl)]
      have := jobs_nodup hd hsrc (l := r'.missing.map File.path) (by
        intro s hs
        obtain ⟨f, hf, rfl⟩ := List.mem_map.mp hs
        obtain ⟨c, hc, e, -⟩ := hl.missing f hf
        exact ⟨c, List.mem_of_getElem? hc, e⟩) hnd.1
      rwa [List.map_map] at this
    · intro j hj ht
      exact absurd (hj1 j hj).choose_spec.2 ht
  have ok2 : JobsOK D js2 := by
    refine jobsOK hsrc (fun j hj => ⟨_, (hj2 j hj).choose_spec.1⟩) ?_ ?_
    · rw [forall₂_map (g := Job.path) (f := fun f : Changed => posix (Text.Path.join false dest f.path)) k4 (by rintro a b ⟨_⟩; rfl)]
      have := jobs_nodup hd hsrc (l := r'.changed.map Changed.path) (by
        intro s hs
        obtain ⟨f, hf, rfl⟩ := List.mem_map.mp hs
        obtain ⟨c, hc, e, -⟩ := hl.changed f hf
        exact ⟨c, List.mem_of_getElem? hc, e⟩) hnd.2.1
      rwa [List.map_map] at this
    · intro j _ _ k hk
      exact (hj2 k hk).choose_spec.2
  obtain ⟨t1, nl3, t2'⟩ := transfer_spec hsrc (fun j hj => ⟨_, (hj1 j hj).choose_spec.1⟩) ok1 nl2 k3
  obtain ⟨u1, nl4, u2'⟩ := transfer_spec hsrc (fun j hj => ⟨_, (hj2 j hj).choose_spec.1⟩) ok2 nl3 k5
  have t2 : ∀ q, fs3 q = fs2 q ∨ (∃ j ∈ js1, ∃ c, JobOf src D j c ∧ q = D ++ c.1) ∨
      (fs2 q = none ∧ fs3 q = some .dir ∧ ∃ j ∈ js1, ∃ c, JobOf src D j c ∧ q <+: D ++ c.1.dropLast) := by
    intro q
    rcases t2' q with e | e | ⟨e1, e2, j, hj, c, hc, e3, -⟩ | ⟨-, j, hj, -, -, -, e⟩
    · exact .inl e
    · exact .inr (.inl e)
    · exact .inr (.inr ⟨e1, e2, j, hj, c, hc, e3⟩)
    · exact absurd (hj1 j hj).choose_spec.2 e
  have u2 : ∀ q, fs' q = fs3 q ∨ (∃ j ∈ js2, ∃ c, JobOf src D j c ∧ q = D ++ c.1) ∨
      (fs' q = none ∧ ∃ j ∈ js2, ∃ c, JobOf src D j c ∧ q = D ++ tempOf c.1) := by
    intro q
    rcases u2' q with e | e | ⟨-, -, j, hj, -, -, -, e⟩ | ⟨e1, j, hj, c, hc, e3, -⟩
    · exact .inl e
    · exact .inr (.inl e)
    · exact absurd (hj2 j hj).choose_spec.2 e
    · exact .inr (.inr ⟨e1, j, hj, c, hc, e3⟩)
  have hmem : ∀ {j : Job} {c}, JobOf src D j c → src.Has c.1 := fun hc => .inl (List.mem_map_of_mem hc.mem)
  -- a file or directory of the client that is not transferred
  have hkeep3 : ∀ q d, fs2 q = some d → (∀ j ∈ js1, ∀ c, JobOf src D j c → q ≠ D ++ c.1) → fs3 q = some d := by
    intro q d hq ha
    rcases t2 q with e | ⟨j, hj, c, hc, e⟩ | ⟨e, -⟩
    · rw [e]; exact hq
    · exact absurd e (ha j hj c hc)
    · rw [hq] at e; cases e
  have hkeep4 : ∀ q d, fs3 q = some d → (∀ j ∈ js2, ∀ c, JobOf src D j c → q ≠ D ++ c.1) → (∀ c ∈ src.files, q ≠ D ++ tempOf c.1) → fs' q = some d := by
    intro q d hq ha hb
    rcases u2 q with e | ⟨j, hj, c, hc, e⟩ | ⟨-, j, hj, c, hc, e⟩
    · rw [e]; exact hq
    · exact absurd e (ha j hj c hc)
    · exact absurd e (hb c hc.mem)
  have hinj : ∀ c ∈ src.files, ∀ c' ∈ src.files, c.1 = c'.1 → c = c' := fun c hc c' hc' e => List.inj_on_of_nodup_map hsrc.nodup hc hc' e
  have hin1 : ∀ c ∈ src.files, (∃ j ∈ js1, ∃ c', JobOf src D j c' ∧ c'.1 = c.1) ↔ render c.1 ∈ r'.missing.map File.path := by
    intro c hc
    constructor
    · rintro ⟨j, hj, c', hc', e⟩
      obtain ⟨f, hf, hm⟩ := forall₂_right k2 j hj
      obtain ⟨c2, hc2, e2, -⟩ := missingJob_of hd hsrc (hl.missing f hf) hm
      have : c2.1 = c'.1 := append_cancel (D := D) (by rw [← hc'.path, hc2.path, hD])
      exact List.mem_map.mpr ⟨f, hf, by rw [e2, this, e]⟩
    · intro hm
      obtain ⟨f, hf, e⟩ := List.mem_map.mp hm
      obtain ⟨j, hj, hm⟩ := forall₂_left k2 f hf
      obtain ⟨c2, hc2, e2, -⟩ := missingJob_of hd hsrc (hl.missing f hf) hm
      rw [hD] at hc2
      exact ⟨j, hj, c2, hc2, render_inj (hsrc.validFiles c2 hc2.mem).1 (hsrc.validFiles c hc).1 (by rw [← e2, e])⟩
  have hin2 : ∀ c ∈ src.files, (∃ j ∈ js2, ∃ c', JobOf src D j c' ∧ c'.1 = c.1) ↔ render c.1 ∈ r'.changed.map Changed.path := by
    intro c hc
    constructor
    · rintro ⟨j, hj, c', hc', e⟩
      obtain ⟨f, hf, hm⟩ := forall₂_right k4 j hj
      obtain ⟨c2, hc2, e2, -⟩ := changedJob_of hd hsrc (hl.changed f hf) hm
      have : c2.1 = c'.1 := append_cancel (D := D) (by rw [← hc'.path, hc2.path, hD])
      exact List.mem_map.mpr ⟨f, hf, by rw [e2, this, e]⟩
    · intro hm
      obtain ⟨f, hf, e⟩ := List.mem_map.mp hm
      obtain ⟨j, hj, hm⟩ := forall₂_left k4 f hf
      obtain ⟨c2, hc2, e2, -⟩ := changedJob_of hd hsrc (hl.changed f hf) hm
      rw [hD] at hc2
      exact ⟨j, hj, c2, hc2, render_inj (hsrc.validFiles c2 hc2.mem).1 (hsrc.validFiles c hc).1 (by rw [← e2, e])⟩
  refine { files := ?_, dirs := ?_, deleted := ?_, frame := ?_, existing := ?_ }
  · -- files
    intro c hc hex
    by_cases hch : render c.1 ∈ r'.changed.map Changed.path
    · obtain ⟨j, hj, c', hc', e⟩ := (hin2 c hc).mpr hch
      have := hinj c' hc'.mem c hc e
      subst this
      exact .inl (u1 j hj c' hc')
    have hnot2 : ∀ j ∈ js2, ∀ c', JobOf src D j c' → D ++ c.1 ≠ D ++ c'.1 := fun j hj c' hc' e =>
      hch ((hin2 c hc).mp ⟨j, hj, c', hc', (append_cancel e).symm⟩)
    have hnt : ∀ c' ∈ src.files, D ++ c.1 ≠ D ++ tempOf c'.1 := fun c' hc' e => hsrc.noTemp c hc c' hc' (append_cancel e)
    by_cases hmi : render c.1 ∈ r'.missing.map File.path
    · obtain ⟨j, hj, c', hc', e⟩ := (hin1 c hc).mpr hmi
      have := hinj c' hc'.mem c hc e
      subst this
      exact .inl (hkeep4 _ _ (t1 j hj c' hc') hnot2 hnt)
    have hnot1 : ∀ j ∈ js1, ∀ c', JobOf src D j c' → D ++ c.1 ≠ D ++ c'.1 := fun j hj c' hc' e =>
      hmi ((hin1 c hc).mp ⟨j, hj, c', hc', (append_cancel e).symm⟩)
    rcases hl.cover c hc with h | h | ⟨hk, data, hz, hf⟩ | ⟨he, hne⟩
    · exact absurd h hmi
    · exact absurd h hch
    · refine .inr ⟨hk, ?_, data, hz, hf⟩
      have e1 : fs1 (D ++ c.1) = some (.file data c.2.2) := by
        rcases del1 (D ++ c.1) with e | ⟨-, -, p, e, -, ⟨hp, -⟩ | ⟨-, hp⟩⟩
        · rw [e]; exact hf
        · rw [← append_cancel e] at hp; exact absurd (List.mem_map_of_mem hc) hp
        · rw [hf] at hp; cases hp
      have e2 : fs2 (D ++ c.1) = some (.file data c.2.2) := by
        rcases mkf (D ++ c.1) with e | ⟨-, d, hd', e⟩ | ⟨e, -⟩
        · rw [e]; exact e1
        · rw [← append_cancel e] at hd'; exact absurd hd' (hsrc.disjoint c hc)
        · rw [e1] at e; cases e
      rw [hf]
      exact hkeep4 _ _ (hkeep3 _ _ e2 hnot1) hnot2 hnt
    · rcases hex with h | h
      · rw [he] at h; cases h
      · exact absurd h hne
  · -- directories
    intro he d hd'
    have e2 : fs2 (D ++ d) = some .dir := by
      by_cases hmd : render d ∈ r'.missingDirs.map Dir.path
      · obtain ⟨x, hx, e⟩ := List.mem_map.mp hmd
        have := mk1 x hx
        rw [e, posix_join hd, posix_render (hsrc.validDirs d hd').1, hD] at this
        exact this
      · have hf : fs (D ++ d) = some .dir := (hl.dirs he d hd').resolve_left hmd
        have e1 : fs1 (D ++ d) = some .dir := by
          rcases del1 (D ++ d) with e | ⟨-, -, p, e, -, ⟨-, a, m, hp⟩ | ⟨hp, -⟩⟩
          · rw [e]; exact hf
          · rw [hf] at hp; cases hp
          · rw [← append_cancel e] at hp; exact absurd hd' hp
        rcases mkf (D ++ d) with e | ⟨e, -⟩ | ⟨-, e, -⟩
        · rw [e]; exact e1
        · exact e
        · exact e
    have ha : ∀ c ∈ src.files, D ++ d ≠ D ++ c.1 := fun c hc e => hsrc.disjoint c hc (by rw [← append_cancel e]; exact hd')
    have hb : ∀ c ∈ src.files, D ++ d ≠ D ++ tempOf c.1 := fun c hc e => hsrc.noTempDirs c hc (by rw [← append_cancel e]; exact hd')
    exact hkeep4 _ _ (hkeep3 _ _ e2 (fun j _ c hc => ha c hc.mem)) (fun j _ c hc => ha c hc.mem) hb
  · -- deleted
    intro hdl p hp hpre
    have hnh : ¬ src.Has p := fun h => hpre p h (List.prefix_refl _)
    have e1 : fs1 (D ++ p) = none := by
      by_cases hf : fs (D ++ p) = none
      · rcases del1 (D ++ p) with e | ⟨-, e, -⟩
        · rw [e]; exact hf
        · exact e
      · have hv : Valid p := fun n hn' => hwf.valid _ hf n (by simp [hn'])
        exact del2 hdl p hv (hl.complete p hp hnh (fun t => hn _ (List.prefix_append _ _) t) hf)
    have hpre' : ∀ c, src.Has c → ¬ D ++ p <+: D ++ c := fun c hc h => hpre c hc ((List.prefix_append_right_inj D).mp h)
    have e2 : fs2 (D ++ p) = none := by
      rcases mkf (D ++ p) with e | ⟨-, c, hc, e⟩ | ⟨-, -, c, hc, e⟩
      · rw [e]; exact e1
      · exact absurd (e ▸ List.prefix_refl (D ++ p)) (hpre' c (.inr hc))
      · exact absurd e (hpre' c (.inr hc))
    have e3 : fs3 (D ++ p) = none := by
      rcases t2 (D ++ p) with e | ⟨j, hj, c, hc, e⟩ | ⟨-, -, j, hj, c, hc, e⟩
      · rw [e]; exact e2
      · exact absurd (e ▸ List.prefix_refl (D ++ p)) (hpre' c.1 (hmem hc))
      · exact absurd (e.trans ((List.prefix_append_right_inj D).mpr (List.dropLast_prefix _))) (hpre' c.1 (hmem hc))
    rcases u2 (D ++ p) with e | ⟨j, hj, c, hc, e⟩ | ⟨e, -⟩
    · rw [e]; exact e3
    · exact absurd (e ▸ List.prefix_refl (D ++ p)) (hpre' c.1 (hmem hc))
    · exact e
  · -- frame
    intro q hq
    by_cases hc : ∃ p, q = D ++ p ∧ src.Has p
    · exact .inl hc
    have hnd : ∀ c ∈ src.files, q ≠ D ++ c.1 := fun c hc' e => hc ⟨c.1, e, .inl (List.mem_map_of_mem hc')⟩
    have hndd : ∀ c ∈ src.dirs, q ≠ D ++ c := fun c hc' e => hc ⟨c, e, .inr hc'⟩
    have s3 : fs3 q = fs1 q ∨ (fs1 q = none ∧ fs3 q = some .dir ∧ ∃ p, src.Has p ∧ q <+: D ++ p) := by
      have s2 : fs2 q = fs1 q ∨ (fs1 q = none ∧ fs2 q = some .dir ∧ ∃ p, src.Has p ∧ q <+: D ++ p) := by
        rcases mkf q with e | ⟨-, c, hc', e⟩ | ⟨e1, e2, c, hc', e⟩
        · exact .inl e
        · exact absurd e (hndd c hc')
        · exact .inr ⟨e1, e2, c, .inr hc', e⟩
      rcases t2 q with e | ⟨j, hj, c, hc', e⟩ | ⟨e1, e2, j, hj, c, hc', e⟩
      · rw [e]; exact s2
      · exact absurd e (hnd c hc'.mem)
      · refine .inr ⟨?_, e2, c.1, hmem hc', e.trans ((List.prefix_append_right_inj D).mpr (List.dropLast_prefix _))⟩
        rcases s2 with h | ⟨h, -⟩
        · rw [← h]; exact e1
        · exact h
    rcases u2 q with e | ⟨j, hj, c, hc', e⟩ | ⟨e, j, hj, c, hc', e'⟩
    · rw [e] at hq ⊢
      rcases s3 with e3 | ⟨e3, e3', e3''⟩
      · rw [e3] at hq ⊢
        rcases del1 q with h | ⟨h1, h2, p, h3, h4, -⟩
        · exact absurd h hq
        · exact .inr (.inr (.inl ⟨h1, h2, p, h3, h4⟩))
      · rcases del1 q with h | ⟨h1, h2, p, h3, h4, h5⟩
        · exact .inr (.inl ⟨.inl (by rw [← h]; exact e3), e3', e3''⟩)
        · exact .inr (.inl ⟨.inr ⟨h1, p, h3, h4⟩, e3', e3''⟩)
    · exact absurd e (hnd c hc'.mem)
    · exact .inr (.inr (.inr ⟨e, c, hc'.mem, e'⟩))
  · -- existing
    intro he hc q hq
    obtain ⟨x1, x2, x3⟩ := hl.existing he hc
    have e1 : fs1 q = none := by
      rcases del1 q with h | ⟨-, h, -⟩
      · rw [h]; exact hq
      · exact h
    have e2 : fs2 q = none := by
      rw [x1] at k1
      cases k1
      exact e1
    have hex1 : ∀ j ∈ js1, ∀ c, JobOf src D j c → fs (D ++ c.1) ≠ none := fun j hj c hc' =>
      x3 c.1 (hsrc.validFiles c hc'.mem).1 (.inl ((hin1 c hc'.mem).mp ⟨j, hj, c, hc', rfl⟩))
    have hex2 : ∀ j ∈ js2, ∀ c, JobOf src D j c → fs (D ++ c.1) ≠ none := fun j hj c hc' =>
      x3 c.1 (hsrc.validFiles c hc'.mem).1 (.inr ((hin2 c hc'.mem).mp ⟨j, hj, c, hc', rfl⟩))
    have e3 : fs3 q = none := by
      rcases t2 q with e | ⟨j, hj, c, hc', e⟩ | ⟨-, -, j, hj, c, hc', e⟩
      · rw [e]; exact e2
      · exact absurd (by rw [← e]; exact hq) (hex1 j hj c hc')
      · exact absurd hq (wf_prefix hwf (hex1 j hj c hc') (e.trans ((List.prefix_append_right_inj D).mpr (List.dropLast_prefix _))))
    rcases u2 q with e | ⟨j, hj, c, hc', e⟩ | ⟨e, -⟩
    · rw [e]; exact e3
    · exact absurd (by rw [← e]; exact hq) (hex2 j hj c hc')
    · exact e

end Verif.Sync
