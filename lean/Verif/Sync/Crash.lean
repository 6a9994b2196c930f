import Verif.Sync.RunProps

/-! # C38, C59: the server stops in the middle of a sync

The transfers of `Run.lean` in small steps, each of which may be the last one: the process is killed, or the sync fails. Steps of
different files may be interleaved in any way, which covers the main thread, the patching thread and the finalising threads. What a
process has written is not lost when it dies; a crash of the whole machine is not covered. Destinations without symbolic links. -/
namespace Verif.Sync
open Verif.Text.Path (Str)

/-! ## Model -/

/-- How far the transfer of a file is. -/
inductive Pc where
  /-- not opened yet -/
  | todo
  /-- open for writing, with so many bytes written to the file (others may be in the stream's buffer) -/
  | opened (k : Nat)
  | closed
  /-- `ReplaceFile`: the old file is removed -/
  | removed
  | renamed
  | done
  | failed
deriving DecidableEq

structure MState where
  pc : Nat → Pc
  fs : Fs

def MState.to (s : MState) (i : Nat) (pc : Pc) (fs : Fs) : MState := ⟨fun k => if k = i then pc else s.pc k, fs⟩

/-- The steps for file `i`. `lossy`: data still in the buffer may be lost when the file is closed, which happens if it cannot be written;
the result of `fclose` is ignored (cdc_rsync_server.cc:123, 212). -/
inductive Micro (lossy : Bool) (js : List Job) (s : MState) : MState → Prop where
  /-- cdc_rsync_server.cc:684-692 -/
  | removeDir {i : Nat} {j : Job} {fs1 : Fs} : js[i]? = some j → s.pc i = .todo → j.mkdir ≠ none → s.fs j.path = some .dir →
      Removes s.fs j.path fs1 → Micro lossy js s (s.to i .todo fs1)
  /-- cdc_rsync_server.cc:695-701; the directories are made one by one -/
  | mkdir {i : Nat} {j : Job} {d q : Path} {fs1 : Fs} : js[i]? = some j → s.pc i = .todo → j.mkdir = some d → q <+: d →
      MkdirRec s.fs q fs1 → Micro lossy js s (s.to i .todo fs1)
  /-- cdc_rsync_server.cc:727, 106 -/
  | openFile {i : Nat} {j : Job} {m : Int} {fs1 : Fs} : js[i]? = some j → s.pc i = .todo → OpenWrite s.fs j.dst [] m fs1 →
      Micro lossy js s (s.to i (.opened 0) fs1)
  /-- the stream's buffer is written to the file, common/path.cc:802-822, cdc_interface.cc:658 -/
  | write {i k k' : Nat} {j : Job} {m : Int} : js[i]? = some j → s.pc i = .opened k → k ≤ k' → k' ≤ j.data.length →
      Micro lossy js s (s.to i (.opened k') (s.fs.set j.dst (some (.file (j.data.take k') m))))
  /-- all data is written to the stream and the file is closed, cdc_rsync_server.cc:122-125, 212 -/
  | close {i k k' : Nat} {j : Job} {m : Int} : js[i]? = some j → s.pc i = .opened k → k ≤ k' → (lossy = false → k' = j.data.length) →
      Micro lossy js s (s.to i .closed (s.fs.set j.dst (some (.file (j.data.take k') m))))
  /-- cdc_rsync_server.cc:221 -/
  | time {i : Nat} {j : Job} {fs1 : Fs} : js[i]? = some j → s.pc i = .closed → j.temp = none → SetTime s.fs j.path j.mtime fs1 →
      Micro lossy js s (s.to i .done fs1)
  /-- cdc_rsync_server.cc:136-147, common/path.cc:1094-1098 -/
  | remove {i : Nat} {j : Job} {t : Path} {fs1 : Fs} : js[i]? = some j → s.pc i = .closed → j.temp = some t → s.fs j.path ≠ none →
      Removes s.fs j.path fs1 → Micro lossy js s (s.to i .removed fs1)
  /-- common/path.cc:1100-1105 -/
  | rename {i : Nat} {j : Job} {t : Path} {fs1 : Fs} : js[i]? = some j → s.pc i = .removed → j.temp = some t →
      Renames s.fs t j.path fs1 → Micro lossy js s (s.to i .renamed fs1)
  /-- cdc_rsync_server.cc:168 -/
  | timePatched {i : Nat} {j : Job} {fs1 : Fs} : js[i]? = some j → s.pc i = .renamed → SetTime s.fs j.path j.mtime fs1 →
      Micro lossy js s (s.to i .done fs1)
  /-- any error -/
  | fail {i : Nat} {j : Job} : js[i]? = some j → s.pc i ≠ .done → Micro lossy js s (s.to i .failed s.fs)

/-- States during the transfer of a list of files. -/
inductive During (lossy : Bool) (js : List Job) (fs : Fs) : MState → Prop where
  | start : During lossy js fs ⟨fun _ => .todo, fs⟩
  | step {s s' : MState} : During lossy js fs s → Micro lossy js s s' → During lossy js fs s'

/-- The transfers are finished and no error is reported. -/
def AllDone (js : List Job) (s : MState) : Prop := ∀ i < js.length, s.pc i = .done

/-- The lists a sync works with, see `Sync`. -/
structure Setup (o : Opts) (dest copyDest : Str) (filter : Str → Bool) (src : Source) (fs : Fs) (r : Result) (dirs : List Dir)
    (js1 js2 : List Job) : Prop where
  mk ::
  lists : ∃ (ld lc : List Found) (stat : Base → Str → Option (Int × Nat)) (r0 : Result),
    Listing fs (posix dest) o.recursive ld ∧ (copyDest = [] → lc = []) ∧ (copyDest ≠ [] → Listing fs (posix copyDest) o.recursive lc) ∧
    StatOk fs (posix dest) src (stat .dest) ∧
    Generate ⟨decide (copyDest ≠ []), o.relative && ! o.recursive, stat⟩ src.fileList (serverFiles filter ld lc)
      src.dirList (serverDirs filter ld lc) r0 ∧ r = adjust o.existing o.checksum o.whole r0
  sorted : SortsDesc r.extraneousDirs dirs
  missing : List.Forall₂ (MissingJob src dest) r.missing js1
  changed : List.Forall₂ (ChangedJob src dest copyDest) r.changed js2

/-- The file system after the server stopped at any point of a sync (not a dry run). -/
inductive Stopped (lossy : Bool) (o : Opts) (dest copyDest : Str) (filter : Str → Bool) (src : Source) (fs : Fs) : Fs → Prop where
  /-- during the deletions -/
  | deleting {r : Result} {dirs : List Dir} {js1 js2 : List Job} {n : Nat} {fs1 : Fs} : Setup o dest copyDest filter src fs r dirs js1 js2 →
      o.delete = true → DeleteAll dest ((deletionOps r dirs).take n) fs fs1 → Stopped lossy o dest copyDest filter src fs fs1
  /-- while directories are made: a file in place of a directory may have been removed, and some of the directories leading to it
  may have been made -/
  | making {r : Result} {dirs : List Dir} {js1 js2 : List Job} {n : Nat} {d : Dir} {q : Path} {fs1 fs2 fs3 fs4 : Fs} :
      Setup o dest copyDest filter src fs r dirs js1 js2 →
      (o.delete = true → DeleteAll dest (deletionOps r dirs) fs fs1) → (o.delete = false → fs1 = fs) →
      CreateDirs dest (r.missingDirs.take n) fs1 fs2 → d ∈ r.missingDirs → (fs3 = fs2 ∨ Removes fs2 (posix (Text.Path.join false dest d.path)) fs3) →
      q <+: posix (Text.Path.join false dest d.path) → (fs4 = fs3 ∨ MkdirRec fs3 q fs4) → Stopped lossy o dest copyDest filter src fs fs4
  /-- while missing files are copied -/
  | copying {r : Result} {dirs : List Dir} {js1 js2 : List Job} {fs1 fs2 : Fs} {s : MState} : Setup o dest copyDest filter src fs r dirs js1 js2 →
      (o.delete = true → DeleteAll dest (deletionOps r dirs) fs fs1) → (o.delete = false → fs1 = fs) →
      CreateDirs dest r.missingDirs fs1 fs2 → During lossy js1 fs2 s → Stopped lossy o dest copyDest filter src fs s.fs
  /-- while changed files are patched, or afterwards -/
  | patching {r : Result} {dirs : List Dir} {js1 js2 : List Job} {fs1 fs2 : Fs} {s s' : MState} : Setup o dest copyDest filter src fs r dirs js1 js2 →
      (o.delete = true → DeleteAll dest (deletionOps r dirs) fs fs1) → (o.delete = false → fs1 = fs) →
      CreateDirs dest r.missingDirs fs1 fs2 → During lossy js1 fs2 s → AllDone js1 s → During lossy js2 s.fs s' →
      Stopped lossy o dest copyDest filter src fs s'.fs

/-! ## Proof -/

/-- All of a file's data, unless data may be lost. -/
def Whole (lossy : Bool) (j : Job) (n : Option Node) : Prop :=
  ∃ k m, n = some (.file (j.data.take k) m) ∧ (lossy = false → j.data.take k = j.data)

/-- What is known of the target and the temporary file of a job. -/
def Good (lossy : Bool) (old : Fs) (j : Job) (fs : Fs) : Pc → Prop
  | .todo => fs j.path = old j.path ∨ (j.temp = none ∧ (fs j.path = none ∨ fs j.path = some .dir))
  | .opened k => (∃ m, fs j.dst = some (.file (j.data.take k) m)) ∧ (j.temp ≠ none → fs j.path = old j.path)
  | .closed => Whole lossy j (fs j.dst) ∧ (j.temp ≠ none → fs j.path = old j.path)
  | .removed => Whole lossy j (fs j.dst) ∧ j.temp ≠ none ∧ fs j.path = none
  | .renamed => Whole lossy j (fs j.path) ∧ j.temp ≠ none ∧ fs j.dst = none
  | .done => (∃ k, fs j.path = some (.file (j.data.take k) j.mtime) ∧ (lossy = false → j.data.take k = j.data)) ∧ (j.temp ≠ none → fs j.dst = none)
  | .failed => fs j.path = old j.path ∨ fs j.path = none ∨ (j.temp = none ∧ fs j.path = some .dir) ∨
      (j.temp = none ∧ ∃ k m, fs j.path = some (.file (j.data.take k) m)) ∨ Whole lossy j (fs j.path)

theorem dst_cases (j : Job) : (j.temp = none ∧ j.dst = j.path) ∨ j.temp = some j.dst := by
  unfold Job.dst
  cases j.temp with
  | none => exact .inl ⟨rfl, rfl⟩
  | some t => exact .inr rfl

/-- The state of a job does not depend on anything else. -/
theorem Good.congr {lossy : Bool} {old fs fs' : Fs} {j : Job} {pc : Pc} (h : Good lossy old j fs pc)
    (h1 : fs' j.path = fs j.path ∨ (j.temp = none ∧ fs j.path = none ∧ fs' j.path = some .dir)) (h2 : j.temp ≠ none → fs' j.dst = fs j.dst) :
    Good lossy old j fs' pc := by
  rcases h1 with h1 | ⟨ht, h1, h1'⟩
  · have h2 : fs' j.dst = fs j.dst := by
      rcases dst_cases j with ⟨-, h⟩ | h
      · rw [h]; exact h1
      · exact h2 (by rw [h]; simp)
    cases pc <;> simp only [Good, h1, h2] at h ⊢ <;> exact h
  · have hd : j.dst = j.path := by
      rcases dst_cases j with ⟨-, h⟩ | h
      · exact h
      · rw [ht] at h; cases h
    cases pc with
    | todo => exact .inr ⟨ht, .inr h1'⟩
    | opened k => obtain ⟨⟨m, hm⟩, -⟩ := h; rw [hd, h1] at hm; cases hm
    | closed => obtain ⟨⟨k, m, hm, -⟩, -⟩ := h; rw [hd, h1] at hm; cases hm
    | removed => exact absurd ht h.2.1
    | renamed => exact absurd ht h.2.1
    | done => obtain ⟨⟨k, hm, -⟩, -⟩ := h; rw [h1] at hm; cases hm
    | failed => exact .inr (.inr (.inl ⟨ht, h1'⟩))

structure MicroInv (lossy : Bool) (root : Path) (js : List Job) (old : Fs) (s : MState) : Prop where
  nolinks : NoLinks s.fs root
  good : ∀ i j, js[i]? = some j → Good lossy old j s.fs (s.pc i)
  frame : Frame (Touched js) (Made js) old s.fs

theorem touched_dst {js : List Job} {j : Job} (h : j ∈ js) : Touched js j.dst := by
  rcases dst_cases j with ⟨-, e⟩ | e
  · exact ⟨j, h, .inl e⟩
  · exact ⟨j, h, .inr e⟩

/-- A step for job `i` that changes only its target and temporary file, and makes directories where there was nothing. -/
theorem micro_other {lossy : Bool} {root : Path} {js : List Job} {old : Fs} {s : MState} (hok : JobsOK root js) (h : MicroInv lossy root js old s)
    {i : Nat} {j : Job} (hj : js[i]? = some j) {pc : Pc} {fs1 : Fs}
    (hch : ∀ q, q ≠ j.path → q ≠ j.dst → fs1 q = s.fs q ∨ (s.fs q = none ∧ fs1 q = some .dir ∧ ∃ d, j.mkdir = some d ∧ q <+: d))
    (hn : NoLinks fs1 root) (hg : Good lossy old j fs1 pc) : MicroInv lossy root js old (s.to i pc fs1) := by
  have hjm : j ∈ js := List.mem_of_getElem? hj
  refine ⟨hn, ?_, ?_⟩
  · intro k b hk
    by_cases hki : k = i
    · subst hki
      rw [hj] at hk; cases hk
      show Good lossy old j fs1 (if k = k then pc else s.pc k)
      rw [if_pos rfl]; exact hg
    · show Good lossy old b fs1 (if k = i then pc else s.pc k)
      rw [if_neg hki]
      have hbm : b ∈ js := List.mem_of_getElem? hk
      have hpp : b.path ≠ j.path := fun e => hki (jobs_distinct hok hk hj e)
      have hpd : b.path ≠ j.dst := by
        rcases dst_cases j with ⟨-, e⟩ | e
        · rw [e]; exact hpp
        · intro e'; rw [← e'] at e; exact hok.noTemp j hjm b hbm e
      refine (h.good k b hk).congr ?_ ?_
      · rcases hch b.path hpp hpd with e | ⟨e1, e2, d, e3, -⟩
        · exact .inl e
        · refine .inr ⟨?_, e1, e2⟩
          cases hbt : b.temp with
          | none => rfl
          | some t => rw [hok.tempMkdir b hbm (by rw [hbt]; simp) j hjm] at e3; cases e3
      · intro hbt
        have hbd : b.temp = some b.dst := by
          rcases dst_cases b with ⟨e, -⟩ | e
          · exact absurd e hbt
          · exact e
        have h1 : b.dst ≠ j.path := by intro e; rw [e] at hbd; exact hok.noTemp b hbm j hjm hbd
        have h2 : b.dst ≠ j.dst := by
          rcases dst_cases j with ⟨-, e⟩ | e
          · rw [e]; exact h1
          · intro e'; rw [← e'] at e; exact hpp (hok.tempInj b hbm j hjm _ hbd e)
        rcases hch b.dst h1 h2 with e | ⟨-, -, d, e3, -⟩
        · exact e
        · rw [hok.tempMkdir b hbm hbt j hjm] at e3; cases e3
  · refine h.frame.trans fun q hq => ?_
    rcases hch q (fun e => hq ⟨j, hjm, .inl e⟩) (fun e => hq (e ▸ touched_dst hjm)) with e | ⟨e1, e2, d, e3, e4⟩
    · exact .inl e
    · exact .inr ⟨e1, e2, j, hjm, d, e3, e4⟩

theorem micro_inv {lossy : Bool} {root : Path} {js : List Job} {old : Fs} (hok : JobsOK root js) (hn : NoLinks old root) {s : MState}
    (h : During lossy js old s) : MicroInv lossy root js old s := by
  induction h with
  | start => exact ⟨hn, fun i j _ => .inl rfl, Frame.refl _ _ _⟩
  | @step s s' _ hs ih =>
    have hroot : ∀ j ∈ js, root <+: j.path ∧ root <+: j.dst := by
      intro j hj
      refine ⟨hok.under j hj, ?_⟩
      rcases dst_cases j with ⟨-, e⟩ | e
      · rw [e]; exact hok.under j hj
      · exact hok.tempUnder j hj _ e
    have hne : ∀ j ∈ js, j.temp ≠ none → j.path ≠ j.dst := by
      intro j hj ht e
      rcases dst_cases j with ⟨e', -⟩ | e'
      · exact ht e'
      · rw [← e] at e'; exact hok.noTemp j hj j hj e'
    cases hs with
    | @removeDir i j fs1 h1 h2 h3 h4 h5 =>
      have hjm := List.mem_of_getElem? h1
      have ht : j.temp = none := by
        cases hbt : j.temp with
        | none => rfl
        | some t => exact absurd (hok.tempMkdir j hjm (by rw [hbt]; simp) j hjm) h3
      have e := removes_eq h5
      refine micro_other hok ih h1 (fun q hq _ => .inl (by rw [e, set_ne hq])) (removes_nolinks ih.nolinks h5) ?_
      exact .inr ⟨ht, .inl (by rw [e, set_eq])⟩
    | @mkdir i j d q fs1 h1 h2 h3 h4 h5 =>
      have hjm := List.mem_of_getElem? h1
      have ht : j.temp = none := by
        cases hbt : j.temp with
        | none => rfl
        | some t => rw [hok.tempMkdir j hjm (by rw [hbt]; simp) j hjm] at h3; cases h3
      have hsp := (mkdir_spec h5).2
      refine micro_other hok ih h1 ?_ (mkdir_nolinks ih.nolinks h5) ?_
      · intro x _ _
        rcases hsp x (by simp) with e | ⟨e1, e2, e3⟩
        · exact .inl e
        · exact .inr ⟨e1, e2, d, h3, e3.trans h4⟩
      · have hg := ih.good i j h1
        rw [h2] at hg
        rcases hsp j.path (by simp) with e | ⟨-, e, -⟩
        · simp only [Good, e]; exact hg
        · exact .inr ⟨ht, .inr e⟩
    | @openFile i j m fs1 h1 h2 h3 =>
      have hjm := List.mem_of_getElem? h1
      obtain ⟨rfl, -⟩ := openWrite_plain ih.nolinks (hroot j hjm).2 h3
      refine micro_other hok ih h1 (fun q _ hq => .inl (set_ne hq)) (nolinks_set ih.nolinks (by simp)) ?_
      refine ⟨⟨m, by rw [set_eq]; rfl⟩, fun ht => ?_⟩
      rw [set_ne (hne j hjm ht)]
      have hg := ih.good i j h1
      rw [h2] at hg
      rcases hg with e | ⟨e, -⟩
      · exact e
      · exact absurd e ht
    | @write i k k' j m h1 h2 h3 h4 =>
      have hjm := List.mem_of_getElem? h1
      refine micro_other hok ih h1 (fun q _ hq => .inl (set_ne hq)) (nolinks_set ih.nolinks (by simp)) ?_
      refine ⟨⟨m, set_eq⟩, fun ht => ?_⟩
      rw [set_ne (hne j hjm ht)]
      have hg := ih.good i j h1
      rw [h2] at hg
      exact hg.2 ht
    | @close i k k' j m h1 h2 h3 h4 =>
      have hjm := List.mem_of_getElem? h1
      refine micro_other hok ih h1 (fun q _ hq => .inl (set_ne hq)) (nolinks_set ih.nolinks (by simp)) ?_
      refine ⟨⟨k', m, set_eq, fun hl => by rw [h4 hl, List.take_length]⟩, fun ht => ?_⟩
      rw [set_ne (hne j hjm ht)]
      have hg := ih.good i j h1
      rw [h2] at hg
      exact hg.2 ht
    | @time i j fs1 h1 h2 h3 h4 =>
      have hjm := List.mem_of_getElem? h1
      have hg := ih.good i j h1
      rw [h2] at hg
      have hd : j.dst = j.path := by
        rcases dst_cases j with ⟨-, h⟩ | h
        · exact h
        · rw [h3] at h; cases h
      obtain ⟨d, t, e1, rfl⟩ := setTime_plain ih.nolinks (hroot j hjm).1 h4
      obtain ⟨⟨k, m, e2, e3⟩, -⟩ := hg
      rw [hd, e1] at e2
      cases e2
      refine micro_other hok ih h1 (fun q hq _ => .inl (set_ne hq)) (nolinks_set ih.nolinks (by simp)) ?_
      exact ⟨⟨k, set_eq, e3⟩, fun h => absurd h3 h⟩
    | @remove i j t fs1 h1 h2 h3 h4 h5 =>
      have hjm := List.mem_of_getElem? h1
      have hg := ih.good i j h1
      rw [h2] at hg
      have e := removes_eq h5
      have ht : j.temp ≠ none := by rw [h3]; simp
      refine micro_other hok ih h1 (fun q hq _ => .inl (by rw [e, set_ne hq])) (removes_nolinks ih.nolinks h5) ?_
      refine ⟨?_, ht, by rw [e, set_eq]⟩
      rw [e, set_ne (hne j hjm ht).symm]; exact hg.1
    | @rename i j t fs1 h1 h2 h3 h4 =>
      have hjm := List.mem_of_getElem? h1
      have hg := ih.good i j h1
      rw [h2] at hg
      have ht : j.temp ≠ none := by rw [h3]; simp
      have hd : j.dst = t := by simp [Job.dst, h3]
      have htp : t ≠ j.path := by rw [← hd]; exact (hne j hjm ht).symm
      obtain ⟨⟨k, m, e1, e2⟩, -, -⟩ := hg
      cases h4 with
      | @mk d tt g1 _ _ g4 =>
        rw [hd, g1] at e1
        cases e1
        refine micro_other hok ih h1 (fun q hq hq2 => .inl ?_) (nolinks_set (nolinks_set ih.nolinks (by simp)) (by simp)) ?_
        · rw [set_ne hq, set_ne (by rw [← hd]; exact hq2)]
        · refine ⟨⟨k, m, set_eq, e2⟩, ht, ?_⟩
          rw [hd, set_ne htp, set_eq]
    | @timePatched i j fs1 h1 h2 h4 =>
      have hjm := List.mem_of_getElem? h1
      have hg := ih.good i j h1
      rw [h2] at hg
      obtain ⟨d, t, e1, rfl⟩ := setTime_plain ih.nolinks (hroot j hjm).1 h4
      obtain ⟨⟨k, m, e2, e3⟩, ht, e4⟩ := hg
      rw [e1] at e2
      cases e2
      refine micro_other hok ih h1 (fun q hq _ => .inl (set_ne hq)) (nolinks_set ih.nolinks (by simp)) ?_
      exact ⟨⟨k, set_eq, e3⟩, fun _ => by rw [set_ne (hne j hjm ht).symm]; exact e4⟩
    | @fail i j h1 h2 =>
      have hg := ih.good i j h1
      refine micro_other hok ih h1 (fun q _ _ => .inl rfl) ih.nolinks ?_
      cases hpc : s.pc i with
      | done => exact absurd hpc h2
      | todo =>
        rw [hpc] at hg
        rcases hg with e | ⟨ht, e | e⟩
        · exact .inl e
        · exact .inr (.inl e)
        · exact .inr (.inr (.inl ⟨ht, e⟩))
      | opened k =>
        rw [hpc] at hg
        rcases dst_cases j with ⟨ht, e⟩ | ht
        · obtain ⟨⟨m, hm⟩, -⟩ := hg
          rw [e] at hm
          exact .inr (.inr (.inr (.inl ⟨ht, k, m, hm⟩)))
        · exact .inl (hg.2 (by rw [ht]; simp))
      | closed =>
        rw [hpc] at hg
        rcases dst_cases j with ⟨ht, e⟩ | ht
        · have := hg.1
          rw [e] at this
          exact .inr (.inr (.inr (.inr this)))
        · exact .inl (hg.2 (by rw [ht]; simp))
      | removed => rw [hpc] at hg; exact .inr (.inl hg.2.2)
      | renamed => rw [hpc] at hg; exact .inr (.inr (.inr (.inr hg.1)))
      | failed => rw [hpc] at hg; exact hg

end Verif.Sync
