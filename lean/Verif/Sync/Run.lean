import Verif.Sync.Delete

/-! # C57, C58: the effect of a whole sync on the server's file system

`CdcRsyncServer::Sync`, cdc_rsync_server.cc:326-400, as far as it reads or writes the file system, for syncs that report success.
Other processes do not use the files meanwhile. The list of client files is received as sent (C37), missing files are received as sent
(C12) and patching gives the client's content (C07), for which the file patched must not change in between. -/
namespace Verif.Sync
open Verif.Text.Path (Str)

/-! ## Model -/

/-- `CreateMissingDirs`, cdc_rsync_server.cc:579-600. -/
inductive CreateDirs (dest : Str) : List Dir → Fs → Fs → Prop where
  | nil {fs : Fs} : CreateDirs dest [] fs fs
  | cons {d : Dir} {l : List Dir} {fs fs1 fs2 fs3 : Fs} : Removes fs (posix (Text.Path.join false dest d.path)) fs1 →
      MkdirRec fs1 (posix (Text.Path.join false dest d.path)) fs2 → CreateDirs dest l fs2 fs3 → CreateDirs dest (d :: l) fs fs3

/-- The transfer of one file. `mkdir`: the directory is created first; `temp`: the data is written to a file that replaces the old one
in the end. -/
structure Job where
  path : Path
  temp : Option Path
  mkdir : Option Path
  data : List UInt8
  mtime : Int

/-- Missing files: cdc_rsync_server.cc:684-701. -/
inductive Prepare (j : Job) (fs : Fs) : Fs → Prop where
  | none : j.mkdir = none → Prepare j fs fs
  | dir {d : Path} {fs1 fs2 : Fs} : j.mkdir = some d → fs j.path = some .dir → Removes fs j.path fs1 → MkdirRec fs1 d fs2 → Prepare j fs fs2
  | other {d : Path} {fs2 : Fs} : j.mkdir = some d → fs j.path ≠ some .dir → MkdirRec fs d fs2 → Prepare j fs fs2

/-- The first part, in the main thread or the only patching thread: `HandleSendMissingFileData`, cdc_rsync_server.cc:684-732, and
`PatchTask::Patch`, cdc_rsync_server.cc:105-119. -/
inductive First (j : Job) (fs : Fs) : Fs → Prop where
  | mk {fs1 fs2 : Fs} {m : Int} : Prepare j fs fs1 → OpenWrite fs1 (j.temp.getD j.path) j.data m fs2 → First j fs fs2

/-- The second part, in one of several background threads: `FinalizeCopiedFileTask::ThreadRun`, cdc_rsync_server.cc:210-240, and
`PatchTask::Finalize`, cdc_rsync_server.cc:121-169 with `ReplaceFile`, common/path.cc:1090-1108. -/
inductive Second (j : Job) (fs : Fs) : Fs → Prop where
  | plain {fs1 : Fs} : j.temp = none → SetTime fs j.path j.mtime fs1 → Second j fs fs1
  | replace {t : Path} {fs1 fs2 fs3 : Fs} : j.temp = some t → fs j.path ≠ none → Removes fs j.path fs1 → Renames fs1 t j.path fs2 →
      SetTime fs2 j.path j.mtime fs3 → Second j fs fs3

/-- The transfers of a list of files: the first parts one after the other, the second parts in any order and at any time after them.
`next` is the next file, `pending` are the files whose second part is not done. -/
inductive Jobs (js : List Job) : Nat → List Nat → Fs → Fs → Prop where
  | done {fs : Fs} : Jobs js js.length [] fs fs
  | first {next : Nat} {pending : List Nat} {j : Job} {fs fs1 fs2 : Fs} : js[next]? = some j → First j fs fs1 →
      Jobs js (next + 1) (next :: pending) fs1 fs2 → Jobs js next pending fs fs2
  | second {next i : Nat} {pending : List Nat} {j : Job} {fs fs1 fs2 : Fs} : i ∈ pending → js[i]? = some j → Second j fs fs1 →
      Jobs js next (pending.filter (· ≠ i)) fs1 fs2 → Jobs js next pending fs fs2

/-- The client's files (path relative to the base directory, content, modification time) and directories. -/
structure Source where
  files : List (Path × List UInt8 × Int)
  dirs : List Path

/-- The lists the server receives (C37). -/
def Source.fileList (src : Source) : List File := src.files.mapIdx fun i f => ⟨render f.1, f.2.2, f.2.1.length, i, .none⟩
def Source.dirList (src : Source) : List Dir := src.dirs.mapIdx fun i d => ⟨render d, i, .none⟩

/-- The transfer of a missing file, cdc_rsync_server.cc:664-742. The client sends the content of the file with the given index. -/
inductive MissingJob (src : Source) (dest : Str) (f : File) : Job → Prop where
  | mk {c : Path × List UInt8 × Int} : src.files[f.index]? = some c →
      MissingJob src dest f ⟨posix (Text.Path.join false dest f.path), none,
        some (posix (Text.Path.dirName (Text.Path.join false dest f.path))), c.2.1, f.mtime⟩

/-- The transfer of a changed file, cdc_rsync_server.cc:807-835 and 66-77. -/
inductive ChangedJob (src : Source) (dest copyDest : Str) (f : Changed) : Job → Prop where
  | mk {c : Path × List UInt8 × Int} : src.files[f.index]? = some c →
      ChangedJob src dest copyDest f ⟨posix (Text.Path.join false dest f.path),
        (if Text.Path.join false (if f.base = .copyDest then copyDest else dest) f.path = Text.Path.join false dest f.path then
          some (posix (Text.Path.join false dest f.path ++ tempSuffix)) else none), none, c.2.1, f.mtime⟩

structure Opts where
  recursive : Bool := true
  relative : Bool := false
  delete : Bool := false
  existing : Bool := false
  checksum : Bool := false
  whole : Bool := false
  dryRun : Bool := false

/-- `GetStats` of a path below a directory. For a directory it may report anything but the size and time of the client's file of
that name. -/
def StatOk (fs : Fs) (root : Path) (src : Source) (stat : Str → Option (Int × Nat)) : Prop :=
  ∀ s, match fs (root ++ posix s) with
    | none => stat s = none
    | some (.file data m) => stat s = some (m, data.length)
    | some _ => ∀ f ∈ src.files, render f.1 = s → stat s ≠ some (f.2.2, f.2.1.length)

/-- A successful sync: file system before and after. -/
inductive Sync (o : Opts) (dest copyDest : Str) (filter : Str → Bool) (src : Source) (fs : Fs) : Fs → Prop where
  | mk {ld lc : List Found} {stat : Base → Str → Option (Int × Nat)} {r r' : Result} {dirs : List Dir} {fs1 fs2 fs3 fs4 : Fs} {js1 js2 : List Job} :
      Listing fs (posix dest) o.recursive ld →
      (copyDest = [] → lc = []) → (copyDest ≠ [] → Listing fs (posix copyDest) o.recursive lc) →
      StatOk fs (posix dest) src (stat .dest) →
      Generate ⟨decide (copyDest ≠ []), o.relative && ! o.recursive, stat⟩ src.fileList (serverFiles filter ld lc)
        src.dirList (serverDirs filter ld lc) r →
      r' = adjust o.existing o.checksum o.whole r →
      SortsDesc r'.extraneousDirs dirs →
      (o.delete = true ∧ o.dryRun = false → DeleteAll dest (deletionOps r' dirs) fs fs1) →
      (¬ (o.delete = true ∧ o.dryRun = false) → fs1 = fs) →
      (o.dryRun = false → CreateDirs dest r'.missingDirs fs1 fs2 ∧
        List.Forall₂ (MissingJob src dest) r'.missing js1 ∧ Jobs js1 0 [] fs2 fs3 ∧
        List.Forall₂ (ChangedJob src dest copyDest) r'.changed js2 ∧ Jobs js2 0 [] fs3 fs4) →
      (o.dryRun = true → fs4 = fs1) →
      Sync o dest copyDest filter src fs fs4

/-! ## Specification -/

/-- The client's list: proper names, every file once, no path both file and directory, nothing with the name of the temporary file of
a file. -/
structure Source.OK (src : Source) : Prop where
  validFiles : ∀ f ∈ src.files, Valid f.1 ∧ f.1 ≠ [] ∧ ∀ n ∈ f.1, (92 : UInt8) ∉ n
  validDirs : ∀ d ∈ src.dirs, Valid d ∧ d ≠ []
  nodup : (src.files.map Prod.fst).Nodup
  disjoint : ∀ f ∈ src.files, f.1 ∉ src.dirs
  noTemp : ∀ f ∈ src.files, ∀ g ∈ src.files, f.1 ≠ tempOf g.1
  noTempDirs : ∀ g ∈ src.files, tempOf g.1 ∉ src.dirs

def NoLinks (fs : Fs) (root : Path) : Prop := ∀ q, root <+: q → ∀ t, fs q ≠ some (.link t)

/-- An entry of the destination the server takes notice of: not excluded, and directly in the destination unless the sync is
recursive. -/
def Seen (o : Opts) (filter : Str → Bool) (p : Path) : Prop := p ≠ [] ∧ (o.recursive = true ∨ p.length = 1) ∧ filter (render p) = true

/-- The client has the path, as file or directory. -/
def Source.Has (src : Source) (p : Path) : Prop := p ∈ src.files.map Prod.fst ∨ p ∈ src.dirs

/-- What a user expects of a sync of `src` to the directory `D`. -/
structure Synced (o : Opts) (D : Path) (useCopyDest : Bool) (filter : Str → Bool) (src : Source) (fs fs' : Fs) : Prop where
  /-- every file has the client's content and time, except that without `--checksum` a file with the client's size and time is left
  alone -/
  files : ∀ f ∈ src.files, o.existing = false ∨ ((∃ d m, fs (D ++ f.1) = some (.file d m)) ∧ Seen o filter f.1) →
    fs' (D ++ f.1) = some (.file f.2.1 f.2.2) ∨
    (o.checksum = false ∧ fs' (D ++ f.1) = fs (D ++ f.1) ∧ ∃ data, data.length = f.2.1.length ∧ fs (D ++ f.1) = some (.file data f.2.2))
  dirs : o.existing = false → ∀ d ∈ src.dirs, fs' (D ++ d) = some .dir
  /-- with `--delete`, everything else that is not excluded is gone -/
  deleted : o.delete = true → ∀ p, Seen o filter p → (∀ c, src.Has c → ¬ p <+: c) → fs' (D ++ p) = none
  /-- nothing else changes: apart from the client's paths, directories are created that lead to them, with `--delete` entries that are not
  excluded are deleted, and old temporary files may be gone -/
  frame : ∀ q, fs' q ≠ fs q →
    (∃ p, q = D ++ p ∧ src.Has p) ∨
    ((fs q = none ∨ (o.delete = true ∧ ∃ p, q = D ++ p ∧ Seen o filter p)) ∧ fs' q = some .dir ∧ ∃ p, src.Has p ∧ q <+: D ++ p) ∨
    (o.delete = true ∧ fs' q = none ∧ ∃ p, q = D ++ p ∧ Seen o filter p) ∨
    (fs' q = none ∧ ∃ f ∈ src.files, q = D ++ tempOf f.1)
  /-- with `--existing`, nothing is created -/
  existing : o.existing = true → useCopyDest = false → ∀ q, fs q = none → fs' q = none

/-! ## Proof -/

theorem append_cancel {D p q : Path} (h : D ++ p = D ++ q) : p = q := List.append_cancel_left h

theorem set_ne {fs : Fs} {p q : Path} {n : Option Node} (h : q ≠ p) : fs.set p n q = fs q := if_neg h
theorem set_eq {fs : Fs} {p : Path} {n : Option Node} : fs.set p n p = n := if_pos rfl

theorem nolinks_set {fs : Fs} {root p : Path} {n : Option Node} (h : NoLinks fs root) (hn : ∀ t, n ≠ some (.link t)) : NoLinks (fs.set p n) root := by
  intro q hq t
  unfold Fs.set
  split
  · exact hn t
  · exact h q hq t

theorem removes_nolinks {fs fs' : Fs} {root p : Path} (h : NoLinks fs root) (hr : Removes fs p fs') : NoLinks fs' root := by
  rw [removes_eq hr]; exact nolinks_set h (by simp)

/-- Only the given paths change, apart from directories created where there was nothing. -/
def Frame (touched : Path → Prop) (made : Path → Prop) (fs fs' : Fs) : Prop :=
  ∀ q, ¬ touched q → fs' q = fs q ∨ (fs q = none ∧ fs' q = some .dir ∧ made q)

theorem Frame.refl (t m : Path → Prop) (fs : Fs) : Frame t m fs fs := fun _ _ => .inl rfl
theorem Frame.trans {t m : Path → Prop} {a b c : Fs} (h1 : Frame t m a b) (h2 : Frame t m b c) : Frame t m a c := by
  intro q hq
  rcases h1 q hq with e1 | ⟨e1, e2, e3⟩ <;> rcases h2 q hq with f1 | ⟨f1, f2, f3⟩
  · exact .inl (f1.trans e1)
  · exact .inr ⟨by rw [← e1]; exact f1, f2, f3⟩
  · exact .inr ⟨e1, by rw [f1]; exact e2, e3⟩
  · rw [e2] at f1; cases f1
theorem Frame.mono {t t' m m' : Path → Prop} {a b : Fs} (h : Frame t m a b) (ht : ∀ q, t q → t' q) (hm : ∀ q, m q → m' q) : Frame t' m' a b := by
  intro q hq
  rcases h q (fun h => hq (ht q h)) with e | ⟨e1, e2, e3⟩
  · exact .inl e
  · exact .inr ⟨e1, e2, hm q e3⟩

theorem mkdir_spec {fs fs' : Fs} {p : Path} (h : MkdirRec fs p fs') :
    (∀ q, q <+: p → fs' q = some .dir) ∧ Frame (fun _ => False) (· <+: p) fs fs' := by
  cases h with
  | mk h =>
    constructor
    · intro q hq
      rcases h q hq with e | e
      · simp [hq, e]
      · simp [e]
    · intro q _
      by_cases hc : q <+: p ∧ fs q = none
      · exact .inr ⟨hc.2, by simp only; rw [if_pos hc], hc.1⟩
      · exact .inl (if_neg hc)

theorem mkdir_nolinks {fs fs' : Fs} {root p : Path} (h : NoLinks fs root) (hm : MkdirRec fs p fs') : NoLinks fs' root := by
  intro q hq t
  rcases (mkdir_spec hm).2 q (by simp) with e | ⟨-, e, -⟩
  · rw [e]; exact h q hq t
  · rw [e]; simp

theorem createDirs_spec {dest : Str} {l : List Dir} {fs fs' : Fs} (h : CreateDirs dest l fs fs') :
    (∀ d ∈ l, fs' (posix (Text.Path.join false dest d.path)) = some .dir) ∧
    Frame (fun q => ∃ d ∈ l, q = posix (Text.Path.join false dest d.path)) (fun q => ∃ d ∈ l, q <+: posix (Text.Path.join false dest d.path)) fs fs' ∧
    (∀ q, fs q = some .dir → (∃ d ∈ l, q = posix (Text.Path.join false dest d.path)) → fs' q = some .dir) ∧
    (∀ root, NoLinks fs root → NoLinks fs' root) := by
  induction h with
  | nil => exact ⟨by simp, Frame.refl _ _ _, by simp, fun _ h => h⟩
  | @cons d l fs fs1 fs2 fs3 h1 h2 h3 ih =>
    obtain ⟨i1, i2, i3, i4⟩ := ih
    have hd : fs3 (posix (Text.Path.join false dest d.path)) = some .dir := by
      have e := (mkdir_spec h2).1 _ (List.prefix_refl _)
      by_cases hm : ∃ d' ∈ l, posix (Text.Path.join false dest d.path) = posix (Text.Path.join false dest d'.path)
      · exact i3 _ e hm
      · rcases i2 _ hm with e' | ⟨e', -⟩
        · rw [e']; exact e
        · rw [e] at e'; cases e'
    have hall : ∀ d' ∈ d :: l, fs3 (posix (Text.Path.join false dest d'.path)) = some .dir := by
      intro d' hd'
      rcases List.mem_cons.mp hd' with rfl | hd'
      · exact hd
      · exact i1 d' hd'
    refine ⟨hall, ?_, ?_, ?_⟩
    · have f1 : Frame (fun q => ∃ d' ∈ d :: l, q = posix (Text.Path.join false dest d'.path))
          (fun q => ∃ d' ∈ d :: l, q <+: posix (Text.Path.join false dest d'.path)) fs fs1 := by
        intro q hq
        rw [removes_eq h1, set_ne fun e => hq ⟨d, by simp, e⟩]
        exact .inl rfl
      have f2 := ((mkdir_spec h2).2).mono (t' := fun q => ∃ d' ∈ d :: l, q = posix (Text.Path.join false dest d'.path))
        (m' := fun q => ∃ d' ∈ d :: l, q <+: posix (Text.Path.join false dest d'.path)) (fun _ h => h.elim) (fun q h => ⟨d, by simp, h⟩)
      have f3 := i2.mono (t' := fun q => ∃ d' ∈ d :: l, q = posix (Text.Path.join false dest d'.path))
        (m' := fun q => ∃ d' ∈ d :: l, q <+: posix (Text.Path.join false dest d'.path))
        (fun q ⟨x, hx, e⟩ => ⟨x, by simp [hx], e⟩) (fun q ⟨x, hx, e⟩ => ⟨x, by simp [hx], e⟩)
      exact (f1.trans f2).trans f3
    · rintro q - ⟨d', hd', rfl⟩
      exact hall d' hd'
    · intro root hn
      exact i4 root (mkdir_nolinks (removes_nolinks hn h1) h2)

/-- Where the data of a job is first written. -/
def Job.dst (j : Job) : Path := j.temp.getD j.path

theorem openWrite_plain {fs fs' : Fs} {root p : Path} {data : List UInt8} {m : Int} (hn : NoLinks fs root) (hp : root <+: p)
    (h : OpenWrite fs p data m fs') : fs' = fs.set p (some (.file data m)) ∧ fs p ≠ some .dir := by
  cases h with
  | plain _ _ h3 =>
    refine ⟨rfl, ?_⟩
    rcases h3 with e | ⟨d, t, e⟩ <;> rw [e] <;> simp
  | through h => exact absurd h (hn p hp _)

theorem setTime_plain {fs fs' : Fs} {root p : Path} {m : Int} (hn : NoLinks fs root) (hp : root <+: p)
    (h : SetTime fs p m fs') : ∃ d t, fs p = some (.file d t) ∧ fs' = fs.set p (some (.file d m)) := by
  cases h with
  | plain h => exact ⟨_, _, h, rfl⟩
  | through h => exact absurd h (hn p hp _)

theorem prepare_spec {j : Job} {fs fs' : Fs} {root : Path} (hn : NoLinks fs root) (h : Prepare j fs fs') :
    Frame (fun q => q = j.path ∧ j.mkdir ≠ none) (fun q => ∃ d, j.mkdir = some d ∧ q <+: d) fs fs' ∧ NoLinks fs' root := by
  cases h with
  | none h => exact ⟨Frame.refl _ _ _, hn⟩
  | @dir d fs1 _ h1 h2 h3 h4 =>
    refine ⟨?_, mkdir_nolinks (removes_nolinks hn h3) h4⟩
    have f1 : Frame (fun q => q = j.path ∧ j.mkdir ≠ none) (fun q => ∃ d, j.mkdir = some d ∧ q <+: d) fs fs1 := by
      intro q hq
      rw [removes_eq h3, set_ne fun e => hq ⟨e, by rw [h1]; simp⟩]
      exact .inl rfl
    exact f1.trans ((mkdir_spec h4).2.mono (fun _ h => h.elim) fun q hq => ⟨d, h1, hq⟩)
  | @other d _ h1 h2 h3 =>
    exact ⟨(mkdir_spec h3).2.mono (fun _ h => h.elim) fun q hq => ⟨d, h1, hq⟩, mkdir_nolinks hn h3⟩

theorem first_spec {j : Job} {fs fs' : Fs} {root : Path} (hn : NoLinks fs root) (hp : root <+: j.path) (ht : ∀ t, j.temp = some t → root <+: t)
    (h : First j fs fs') : (∃ m, fs' j.dst = some (.file j.data m)) ∧
      Frame (fun q => q = j.dst ∨ (q = j.path ∧ j.mkdir ≠ none)) (fun q => ∃ d, j.mkdir = some d ∧ q <+: d) fs fs' ∧ NoLinks fs' root := by
  cases h with
  | @mk fs1 _ m h1 h2 =>
    obtain ⟨f1, hn1⟩ := prepare_spec hn h1
    have hdst : root <+: j.temp.getD j.path := by
      cases hj : j.temp with
      | none => exact hp
      | some t => exact ht t hj
    obtain ⟨rfl, -⟩ := openWrite_plain hn1 hdst h2
    refine ⟨⟨m, set_eq⟩, ?_, nolinks_set hn1 (by simp)⟩
    refine (f1.mono (fun q h => .inr h) (fun q h => h)).trans fun q hq => ?_
    exact .inl (set_ne fun e => hq (.inl e))

/-- After the first part. -/
def Half (j : Job) (fs : Fs) : Prop := ∃ m, fs j.dst = some (.file j.data m)

/-- In the end. -/
def Finished (j : Job) (fs : Fs) : Prop := fs j.path = some (.file j.data j.mtime)

theorem second_spec {j : Job} {fs fs' : Fs} {root : Path} (hn : NoLinks fs root) (hp : root <+: j.path) (ht : ∀ t, j.temp = some t → t ≠ j.path)
    (hh : Half j fs) (h : Second j fs fs') : Finished j fs' ∧ (∀ t, j.temp = some t → fs' t = none) ∧
      (∀ q, q ≠ j.path → j.temp ≠ some q → fs' q = fs q) ∧ NoLinks fs' root := by
  obtain ⟨m, hm⟩ := hh
  cases h with
  | plain h1 h2 =>
    obtain ⟨d, t, e1, rfl⟩ := setTime_plain hn hp h2
    have : j.dst = j.path := by simp [Job.dst, h1]
    rw [this, e1] at hm
    cases hm
    refine ⟨set_eq, by simp [h1], fun q hq _ => set_ne hq, nolinks_set hn (by simp)⟩
  | @replace t fs1 fs2 _ h1 h2 h3 h4 h5 =>
    have hd : j.dst = t := by simp [Job.dst, h1]
    have htp := ht t h1
    rw [hd] at hm
    have hn1 := removes_nolinks hn h3
    have e1 := removes_eq h3
    cases h4 with
    | @mk d tt g1 _ _ g4 =>
      have : fs1 t = fs t := by rw [e1, set_ne htp]
      rw [this, hm] at g1
      cases g1
      have hn2 : NoLinks ((fs1.set t none).set j.path (some (.file j.data m))) root := nolinks_set (nolinks_set hn1 (by simp)) (by simp)
      obtain ⟨d', t', k1, rfl⟩ := setTime_plain hn2 hp h5
      rw [set_eq] at k1
      cases k1
      refine ⟨set_eq, ?_, ?_, nolinks_set hn2 (by simp)⟩
      · intro t2 ht2
        rw [h1] at ht2
        cases ht2
        rw [set_ne htp, set_ne htp, set_eq]
      · intro q hq hqt
        have : q ≠ t := fun e => hqt (by rw [h1, e])
        rw [set_ne hq, set_ne hq, set_ne this, e1, set_ne hq]

/-- What the transfers of different files have to do with each other. -/
structure JobsOK (root : Path) (js : List Job) : Prop where
  under : ∀ j ∈ js, root <+: j.path
  tempUnder : ∀ j ∈ js, ∀ t, j.temp = some t → root <+: t
  nodup : (js.map Job.path).Nodup
  noTemp : ∀ j ∈ js, ∀ k ∈ js, j.temp ≠ some k.path
  tempInj : ∀ j ∈ js, ∀ k ∈ js, ∀ t, j.temp = some t → k.temp = some t → j.path = k.path
  tempMkdir : ∀ j ∈ js, j.temp ≠ none → ∀ k ∈ js, k.mkdir = none

structure JobsInv (root : Path) (js : List Job) (next : Nat) (pending : List Nat) (fs : Fs) : Prop where
  lt : ∀ i ∈ pending, i < next
  nolinks : NoLinks fs root
  half : ∀ i ∈ pending, ∀ j, js[i]? = some j → Half j fs
  finished : ∀ i < next, i ∉ pending → ∀ j, js[i]? = some j → Finished j fs ∧ ∀ t, j.temp = some t → fs t = none

theorem jobs_distinct {root : Path} {js : List Job} (hok : JobsOK root js) {i k : Nat} {a b : Job} (hi : js[i]? = some a) (hk : js[k]? = some b)
    (h : a.path = b.path) : i = k := by
  have hi' := List.getElem?_eq_some_iff.mp hi
  have hk' := List.getElem?_eq_some_iff.mp hk
  obtain ⟨h1, rfl⟩ := hi'
  obtain ⟨h2, rfl⟩ := hk'
  have := (List.nodup_iff_injective_get.mp hok.nodup) (a₁ := ⟨i, by simpa using h1⟩) (a₂ := ⟨k, by simpa using h2⟩) (by simpa using h)
  simpa using this

/-- Paths changed by one of the jobs. -/
def Touched (js : List Job) (q : Path) : Prop := ∃ j ∈ js, q = j.path ∨ j.temp = some q
def Made (js : List Job) (q : Path) : Prop := ∃ j ∈ js, ∃ d, j.mkdir = some d ∧ q <+: d

theorem jobs_spec {root : Path} {js : List Job} (hok : JobsOK root js) {next : Nat} {pending : List Nat} {fs fs' : Fs}
    (h : Jobs js next pending fs fs') (hinv : JobsInv root js next pending fs) :
    (∀ j ∈ js, Finished j fs') ∧ (∀ j ∈ js, ∀ t, j.temp = some t → fs' t = none) ∧ Frame (Touched js) (Made js) fs fs' ∧ NoLinks fs' root := by
  induction h with
  | @done fs =>
    refine ⟨?_, ?_, Frame.refl _ _ _, hinv.nolinks⟩
    · intro j hj
      obtain ⟨i, hi⟩ := List.mem_iff_getElem?.mp hj
      exact (hinv.finished i (List.getElem?_eq_some_iff.mp hi).1 (by simp) j hi).1
    · intro j hj
      obtain ⟨i, hi⟩ := List.mem_iff_getElem?.mp hj
      exact (hinv.finished i (List.getElem?_eq_some_iff.mp hi).1 (by simp) j hi).2
  | @first next pending j fs fs1 fs2 h1 h2 _ ih =>
    have hj : j ∈ js := List.mem_of_getElem? h1
    obtain ⟨a1, a2, a3⟩ := first_spec hinv.nolinks (hok.under j hj) (hok.tempUnder j hj) h2
    have hfr : Frame (Touched js) (Made js) fs fs1 := by
      refine a2.mono ?_ fun q ⟨d, h⟩ => ⟨j, hj, d, h⟩
      rintro q (rfl | ⟨rfl, -⟩)
      · refine ⟨j, hj, ?_⟩
        unfold Job.dst
        cases j.temp with
        | none => exact .inl rfl
        | some t => exact .inr rfl
      · exact ⟨j, hj, .inl rfl⟩
    -- what another job relies on is not touched
    have hother : ∀ i k, js[i]? = some k → i ≠ next → (∀ q d t, (q = k.path ∨ k.temp = some q) → fs q = some (.file d t) → fs1 q = some (.file d t)) ∧
        (∀ q, k.temp = some q → fs q = none → fs1 q = none) := by
      intro i k hk hne
      have hkm : k ∈ js := List.mem_of_getElem? hk
      have hnt : ∀ q, (q = k.path ∨ k.temp = some q) → ¬ (q = j.dst ∨ (q = j.path ∧ j.mkdir ≠ none)) := by
        intro q hq hq2
        have hpp : k.path ≠ j.path := fun e => hne (jobs_distinct hok hk h1 e)
        have hdst : j.dst = j.path ∨ j.temp = some j.dst := by
          unfold Job.dst
          cases j.temp with
          | none => exact .inl rfl
          | some t => exact .inr rfl
        have hq3 : q = j.path ∨ j.temp = some q := by
          rcases hq2 with rfl | ⟨rfl, -⟩
          · exact hdst
          · exact .inl rfl
        rcases hq with rfl | hq <;> rcases hq3 with h3 | h3
        · exact hpp h3
        · exact hok.noTemp j hj k hkm h3
        · subst h3; exact hok.noTemp k hkm j hj hq
        · exact hpp (hok.tempInj k hkm j hj q hq h3)
      constructor
      · intro q d t hq he
        rcases a2 q (hnt q hq) with e | ⟨e, -⟩
        · rw [e]; exact he
        · rw [he] at e; cases e
      · intro q hq he
        rcases a2 q (hnt q (.inr hq)) with e | ⟨-, -, d, e, -⟩
        · rw [e]; exact he
        · rw [hok.tempMkdir k hkm (by rw [hq]; simp) j hj] at e; cases e
    have hdstk : ∀ k : Job, k.dst = k.path ∨ k.temp = some k.dst := by
      intro k
      unfold Job.dst
      cases k.temp with
      | none => exact .inl rfl
      | some t => exact .inr rfl
    have hinv1 : JobsInv root js (next + 1) (next :: pending) fs1 := by
      refine ⟨?_, a3, ?_, ?_⟩
      · intro i hi
        rcases List.mem_cons.mp hi with rfl | hi
        · omega
        · have := hinv.lt i hi; omega
      · intro i hi k hk
        rcases List.mem_cons.mp hi with rfl | hi
        · rw [h1] at hk; cases hk; exact a1
        · obtain ⟨m, hm⟩ := hinv.half i hi k hk
          have : i ≠ next := by have := hinv.lt i hi; omega
          exact ⟨m, (hother i k hk this).1 _ _ _ (hdstk k) hm⟩
      · intro i hi hnp k hk
        have hne : i ≠ next := fun e => hnp (by simp [e])
        obtain ⟨b1, b2⟩ := hinv.finished i (by omega) (fun h => hnp (by simp [h])) k hk
        exact ⟨(hother i k hk hne).1 _ _ _ (.inl rfl) b1, fun t ht => (hother i k hk hne).2 t ht (b2 t ht)⟩
    obtain ⟨c1, c2, c3, c4⟩ := ih hinv1
    exact ⟨c1, c2, hfr.trans c3, c4⟩
  | @second next i pending j fs fs1 fs2 hi h1 h2 _ ih =>
    have hj : j ∈ js := List.mem_of_getElem? h1
    obtain ⟨a1, a2, a3, a4⟩ := second_spec hinv.nolinks (hok.under j hj) (fun t ht e => hok.noTemp j hj j hj (by rw [ht, e])) (hinv.half i hi j h1) h2
    have hfr : Frame (Touched js) (Made js) fs fs1 := by
      intro q hq
      refine .inl (a3 q (fun e => hq ⟨j, hj, .inl e⟩) fun e => hq ⟨j, hj, .inr e⟩)
    have hother : ∀ l k, js[l]? = some k → l ≠ i → ∀ q, (q = k.path ∨ k.temp = some q) → fs1 q = fs q := by
      intro l k hk hne q hq
      have hkm : k ∈ js := List.mem_of_getElem? hk
      have hpp : k.path ≠ j.path := fun e => hne (jobs_distinct hok hk h1 e)
      refine a3 q ?_ ?_
      · rintro rfl
        rcases hq with h | h
        · exact hpp h.symm
        · exact hok.noTemp k hkm j hj h
      · intro h3
        rcases hq with rfl | h
        · exact hok.noTemp j hj k hkm h3
        · exact hpp (hok.tempInj k hkm j hj q h h3)
    have hdstk : ∀ k : Job, k.dst = k.path ∨ k.temp = some k.dst := by
      intro k
      unfold Job.dst
      cases k.temp with
      | none => exact .inl rfl
      | some t => exact .inr rfl
    have hinv1 : JobsInv root js next (pending.filter (· ≠ i)) fs1 := by
      refine ⟨fun l hl => hinv.lt l (List.mem_filter.mp hl).1, a4, ?_, ?_⟩
      · intro l hl k hk
        obtain ⟨hl1, hl2⟩ := List.mem_filter.mp hl
        obtain ⟨m, hm⟩ := hinv.half l hl1 k hk
        exact ⟨m, by rw [hother l k hk (by simpa using hl2) _ (hdstk k)]; exact hm⟩
      · intro l hl hnp k hk
        by_cases hli : l = i
        · subst hli
          rw [h1] at hk; cases hk
          exact ⟨a1, a2⟩
        · obtain ⟨b1, b2⟩ := hinv.finished l hl (fun h => hnp (List.mem_filter.mpr ⟨h, by simpa using hli⟩)) k hk
          refine ⟨?_, fun t ht => ?_⟩
          · unfold Finished; rw [hother l k hk hli _ (.inl rfl)]; exact b1
          · rw [hother l k hk hli t (.inr ht)]; exact b2 t ht
    obtain ⟨c1, c2, c3, c4⟩ := ih hinv1
    exact ⟨c1, c2, hfr.trans c3, c4⟩

end Verif.Sync
