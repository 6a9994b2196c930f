import Verif.Sync.Batch

/-! # The server's file system

Directories, files and symbolic links under absolute paths. Only what the server's file operations can see is modelled: contents and
modification times of files. Permissions are left out (the executable bit is C10). A path is looked up component by component
without following links in the middle; theorems that need it assume that there are no links below the destination. -/
namespace Verif.Sync
open Verif.Text.Path (Str)

/-- A path as the operating system sees it: the names between slashes. -/
abbrev Path := List Str

def posixFrom (cur : Str) : Str → Path
  | [] => Text.Path.flush cur
  | c :: s => if c = 47 then Text.Path.flush cur ++ posixFrom [] s else posixFrom (cur ++ [c]) s

/-- The path a string stands for. -/
def posix (s : Str) : Path := posixFrom [] s

def ValidName (n : Str) : Prop := n ≠ [] ∧ (47 : UInt8) ∉ n
def Valid (p : Path) : Prop := ∀ n ∈ p, ValidName n

/-- Names joined by slashes. -/
def render : Path → Str
  | [] => []
  | [n] => n
  | n :: m :: p => n ++ 47 :: render (m :: p)

/-- The same with a slash at the end. -/
def renderDir (p : Path) : Str := p.flatMap fun n => n ++ [47]

inductive Node where
  | file (data : List UInt8) (mtime : Int)
  | dir
  | link (target : Path)
deriving DecidableEq

abbrev Fs := Path → Option Node

def Fs.set (fs : Fs) (p : Path) (n : Option Node) : Fs := fun q => if q = p then n else fs q

/-- The entries have proper names and are in directories. -/
structure Fs.WF (fs : Fs) : Prop where
  root : fs [] = some .dir
  valid : ∀ p, fs p ≠ none → Valid p
  parent : ∀ p n, fs (p ++ [n]) ≠ none → fs p = some .dir

/-! ## Operations -/

/-- `path::RemoveFile`, common/path.cc:1072-1088: `remove`, where a missing file is not an error. A directory must be empty. -/
inductive Removes (fs : Fs) (p : Path) : Fs → Prop where
  | absent : fs p = none → Removes fs p fs
  | entry {n : Node} : fs p = some n → (n = .dir → ∀ x, fs (p ++ [x]) = none) → Removes fs p (fs.set p none)

/-- `path::CreateDirRec`, common/path.cc:1031-1037. -/
inductive MkdirRec (fs : Fs) (p : Path) : Fs → Prop where
  | mk : (∀ q, q <+: p → fs q = none ∨ fs q = some .dir) →
      MkdirRec fs p fun q => if q <+: p ∧ fs q = none then some .dir else fs q

/-- `fopen(path, "wb")` and writing of the data. A link is followed. -/
inductive OpenWrite (fs : Fs) (p : Path) (data : List UInt8) (m : Int) : Fs → Prop where
  | plain : p ≠ [] → fs p.dropLast = some .dir → (fs p = none ∨ ∃ d t, fs p = some (.file d t)) →
      OpenWrite fs p data m (fs.set p (some (.file data m)))
  | through {t : Path} : fs p = some (.link t) → t ≠ [] → fs t.dropLast = some .dir → (fs t = none ∨ ∃ d t', fs t = some (.file d t')) →
      OpenWrite fs p data m (fs.set t (some (.file data m)))

/-- `path::SetFileTime`, common/path.cc:1137-1171: `utime`, which follows links. -/
inductive SetTime (fs : Fs) (p : Path) (m : Int) : Fs → Prop where
  | plain {d : List UInt8} {t : Int} : fs p = some (.file d t) → SetTime fs p m (fs.set p (some (.file d m)))
  | through {q : Path} {d : List UInt8} {t : Int} : fs p = some (.link q) → fs q = some (.file d t) →
      SetTime fs p m (fs.set q (some (.file d m)))

/-- `rename` of a file. -/
inductive Renames (fs : Fs) (a b : Path) : Fs → Prop where
  | mk {d : List UInt8} {t : Int} : fs a = some (.file d t) → b ≠ [] → fs b.dropLast = some .dir → fs b ≠ some .dir →
      Renames fs a b ((fs.set a none).set b (some (.file d t)))

/-! ## Search -/

/-- `ftw_handler`, common/path.cc:653-687: what is reported for an entry at the given path relative to the directory searched. Links
are not reported. Times of directories are not used and set to zero here. -/
inductive FoundAt (fs : Fs) (root : Path) : Path → Found → Prop where
  | file {p : Path} {n : Str} {data : List UInt8} {m : Int} : fs (root ++ (p ++ [n])) = some (.file data m) →
      FoundAt fs root (p ++ [n]) ⟨renderDir p, n, m, data.length, false⟩
  | dir {p : Path} {n : Str} : fs (root ++ (p ++ [n])) = some .dir → FoundAt fs root (p ++ [n]) ⟨renderDir p, n, 0, 0, true⟩

/-- `SearchFilesLinux`, common/path.cc:691-715, in any order: without `recursive`, the entries of the directory only. Directories are
assumed to be readable. -/
structure Listing (fs : Fs) (root : Path) (recursive : Bool) (l : List Found) : Prop where
  sound : ∀ f ∈ l, ∃ p, FoundAt fs root p f ∧ (recursive = true ∨ p.length = 1)
  complete : ∀ p f, FoundAt fs root p f → (recursive = true ∨ p.length = 1) → f ∈ l

/-! ## Lemmas on paths -/

theorem posixFrom_append (cur a b : Str) : posixFrom cur (a ++ 47 :: b) = posixFrom cur a ++ posix b := by
  induction a generalizing cur with
  | nil => simp [posixFrom, posix]
  | cons c a ih =>
    simp only [List.cons_append, posixFrom]
    split
    · rw [ih, List.append_assoc]
    · exact ih _

theorem posix_append (a b : Str) : posix (a ++ 47 :: b) = posix a ++ posix b := posixFrom_append [] a b

theorem posixFrom_name {cur n : Str} (h : (47 : UInt8) ∉ n) : posixFrom cur n = Text.Path.flush (cur ++ n) := by
  induction n generalizing cur with
  | nil => simp [posixFrom]
  | cons c n ih =>
    simp only [List.mem_cons, not_or] at h
    simp only [posixFrom, if_neg (Ne.symm h.1)]
    rw [ih h.2]; simp

theorem posix_name {n : Str} (h : ValidName n) : posix n = [n] := by
  unfold posix
  rw [posixFrom_name h.2]
  simp [Text.Path.flush, h.1]

@[simp] theorem posix_nil : posix [] = [] := rfl

theorem posix_render {p : Path} (h : Valid p) : posix (render p) = p := by
  induction p with
  | nil => rfl
  | cons n p ih =>
    have h1 : ValidName n := h n (by simp)
    have h2 : Valid p := fun x hx => h x (by simp [hx])
    cases p with
    | nil => exact posix_name h1
    | cons m p =>
      rw [render, posix_append, posix_name h1, ih h2]; rfl

theorem posix_valid (s : Str) : Valid (posix s) := by
  have : ∀ s cur, (47 : UInt8) ∉ cur → Valid (posixFrom cur s) := by
    intro s
    induction s with
    | nil =>
      intro cur h n hn
      unfold posixFrom Text.Path.flush at hn
      split at hn
      · cases hn
      · next hc => simp only [List.mem_singleton] at hn; subst hn; exact ⟨hc, h⟩
    | cons c s ih =>
      intro cur h
      unfold posixFrom
      split
      · intro n hn
        rcases List.mem_append.mp hn with hn | hn
        · unfold Text.Path.flush at hn
          split at hn
          · cases hn
          · next hc => simp only [List.mem_singleton] at hn; subst hn; exact ⟨hc, h⟩
        · exact ih [] (by simp) n hn
      · next hc => exact ih _ (by simp [h, Ne.symm hc])
  exact this s [] (by simp)

theorem render_inj {p q : Path} (hp : Valid p) (hq : Valid q) (h : render p = render q) : p = q := by
  rw [← posix_render hp, ← posix_render hq, h]

theorem render_ne_nil {p : Path} (h : Valid p) (hne : p ≠ []) : render p ≠ [] := by
  intro e
  have := posix_render h
  rw [e] at this
  exact hne this.symm

theorem renderDir_join (p : Path) {n : Str} (hn : n ≠ []) : Text.Path.join false (renderDir p) n = render (p ++ [n]) := by
  have hr : renderDir p ++ n = render (p ++ [n]) := by
    induction p with
    | nil => rfl
    | cons m p ih =>
      have : renderDir (m :: p) = m ++ [47] ++ renderDir p := by simp [renderDir]
      rw [this, List.append_assoc, ih]
      cases p with
      | nil => simp [render]
      | cons k p => simp [render]
  have hs : Text.Path.needsSep (renderDir p) = false := by
    unfold Text.Path.needsSep
    cases hg : (renderDir p).getLast? with
    | none => rfl
    | some c =>
      rcases List.eq_nil_or_concat p with rfl | ⟨p', m, rfl⟩
      · simp [renderDir] at hg
      · simp [renderDir, List.flatMap_append] at hg
        subst hg; rfl
  unfold Text.Path.join Text.Path.joinWith
  rw [if_neg hn, hs, if_neg (by simp)]
  exact hr

theorem FoundAt.path_eq {fs : Fs} {root p : Path} {f : Found} (hv : fs.WF) (h : FoundAt fs root p f) : f.path = render p ∧ Valid p ∧ p ≠ [] := by
  cases h with
  | @file p n d m h =>
    have hval : Valid (root ++ (p ++ [n])) := hv.valid _ (by rw [h]; simp)
    have hval : Valid (p ++ [n]) := fun x hx => hval x (by simp only [List.mem_append] at hx ⊢; exact .inr hx)
    exact ⟨renderDir_join p (hval n (by simp)).1, hval, by simp⟩
  | @dir p n h =>
    have hval : Valid (root ++ (p ++ [n])) := hv.valid _ (by rw [h]; simp)
    have hval : Valid (p ++ [n]) := fun x hx => hval x (by simp only [List.mem_append] at hx ⊢; exact .inr hx)
    exact ⟨renderDir_join p (hval n (by simp)).1, hval, by simp⟩

/-- A directory given by the user, after `EnsureEndsWithPathSeparator` and `FixPathSeparators`. -/
def DirString (d : Str) : Prop := (∃ d0, d = d0 ++ [47]) ∧ (92 : UInt8) ∉ d

theorem join_dest {d : Str} (hd : DirString d) (s : Str) : Text.Path.join false d s = d ++ s := by
  obtain ⟨⟨d0, rfl⟩, -⟩ := hd
  unfold Text.Path.join Text.Path.joinWith
  split
  · next h => subst h; simp
  · have : Text.Path.needsSep (d0 ++ [47]) = false := by simp [Text.Path.needsSep, Text.Path.isSep]
    rw [this]; simp

theorem posix_join {d : Str} (hd : DirString d) (s : Str) : posix (Text.Path.join false d s) = posix d ++ posix s := by
  rw [join_dest hd]
  obtain ⟨⟨d0, rfl⟩, -⟩ := hd
  rw [List.append_assoc, List.singleton_append, posix_append, posix_append, posix_nil, List.append_nil]

theorem posix_eq_components {s : Str} (h : (92 : UInt8) ∉ s) : posix s = Text.Path.components s := by
  have : ∀ s cur, (92 : UInt8) ∉ s → posixFrom cur s = Text.Path.componentsFrom cur s := by
    intro s
    induction s with
    | nil => intro cur _; rfl
    | cons c s ih =>
      intro cur h
      simp only [List.mem_cons, not_or] at h
      unfold posixFrom Text.Path.componentsFrom
      by_cases hc : c = 47
      · rw [if_pos hc, if_pos (by subst hc; rfl), ih [] h.2]
      · have : Text.Path.isSep c = false := by
          simp [Text.Path.isSep, hc, Ne.symm h.1]
        rw [if_neg hc, this, if_neg (by simp), ih _ h.2]
  exact this s [] h

theorem dirName_subset {s : Str} {c : UInt8} (h : c ∈ Text.Path.dirName s) : c ∈ s := by
  unfold Text.Path.dirName Text.Path.dirNameWith at h
  split at h
  · cases h
  · dsimp only at h
    revert h
    simp only [List.length_nil, List.drop_zero]
    split
    · intro h; cases h
    · split
      · exact fun h => h
      · split <;> exact fun h => List.mem_of_mem_take h

/-- The directory of a file, as the server computes it. -/
theorem posix_dirName {d : Str} (hd : DirString d) {p : Path} (hp : Valid p) (hne : p ≠ []) (hb : ∀ n ∈ p, (92 : UInt8) ∉ n) :
    posix (Text.Path.dirName (Text.Path.join false d (render p))) = posix d ++ p.dropLast := by
  have hr : (92 : UInt8) ∉ render p := by
    have : ∀ p : Path, (∀ n ∈ p, (92 : UInt8) ∉ n) → (92 : UInt8) ∉ render p := by
      intro p
      induction p with
      | nil => intro _; simp [render]
      | cons n p ih =>
        intro h
        cases p with
        | nil => exact h n (by simp)
        | cons m p =>
          rw [render]
          simp only [List.mem_append, List.mem_cons, not_or]
          exact ⟨h n (by simp), by decide, ih fun x hx => h x (by simp [hx])⟩
    exact this p hb
  have hj : (92 : UInt8) ∉ Text.Path.join false d (render p) := by
    rw [join_dest hd]
    simp only [List.mem_append, not_or]
    exact ⟨hd.2, hr⟩
  have hpos := posix_join hd (render p)
  rw [posix_render hp] at hpos
  have hc : Text.Path.components (Text.Path.join false d (render p)) ≠ [] := by
    rw [← posix_eq_components hj, hpos]; simp [hne]
  have hs := Text.Path.C46_split_path _ hc
  rw [← posix_eq_components hj, hpos, ← posix_eq_components (fun h => hj (dirName_subset h))] at hs
  have := congrArg List.dropLast hs
  rw [List.dropLast_concat, List.dropLast_append_of_ne_nil hne] at this
  exact this.symm

/-- The name used for the patched file before it replaces the old one (`kIntermediatePathSuffix`, cdc_rsync_server.cc:44). -/
def tempSuffix : Str := [46, 95, 95, 99, 100, 99, 95, 114, 115, 121, 110, 99, 95, 116, 101, 109, 112, 95, 95]

/-- The path of that file. -/
def tempOf (p : Path) : Path := p.dropLast ++ [(p.getLast?.getD []) ++ tempSuffix]

theorem posix_temp {d : Str} (hd : DirString d) {p : Path} (hp : Valid p) (hne : p ≠ []) :
    posix (Text.Path.join false d (render p) ++ tempSuffix) = posix d ++ tempOf p := by
  obtain ⟨p, n, rfl⟩ : ∃ p' n, p = p' ++ [n] := ⟨p.dropLast, p.getLast hne, (List.dropLast_concat_getLast hne).symm⟩
  have hn := hp n (by simp)
  have hsuf : ValidName (n ++ tempSuffix) := ⟨by simp [hn.1], by
    simp only [List.mem_append, not_or]; exact ⟨hn.2, by decide⟩⟩
  have e : Text.Path.join false d (render (p ++ [n])) ++ tempSuffix = Text.Path.join false d (render (p ++ [n ++ tempSuffix])) := by
    rw [join_dest hd, join_dest hd, ← renderDir_join p hn.1, ← renderDir_join p hsuf.1, List.append_assoc]
    congr 1
    unfold Text.Path.join Text.Path.joinWith
    rw [if_neg hn.1, if_neg hsuf.1]
    simp [List.append_assoc]
  rw [e, posix_join hd, posix_render]
  · simp [tempOf]
  · intro x hx
    rcases List.mem_append.mp hx with hx | hx
    · exact hp x (by simp [hx])
    · simp only [List.mem_singleton] at hx; subst hx; exact hsuf

theorem tempOf_inj {p q : Path} (hp : p ≠ []) (hq : q ≠ []) (h : tempOf p = tempOf q) : p = q := by
  obtain ⟨p, n, rfl⟩ : ∃ p' n, p = p' ++ [n] := ⟨p.dropLast, p.getLast hp, (List.dropLast_concat_getLast hp).symm⟩
  obtain ⟨q, m, rfl⟩ : ∃ p' n, q = p' ++ [n] := ⟨q.dropLast, q.getLast hq, (List.dropLast_concat_getLast hq).symm⟩
  simp only [tempOf, List.dropLast_concat, List.getLast?_concat, Option.getD_some] at h
  obtain ⟨h1, h2⟩ := List.append_inj' h rfl
  simp only [List.cons.injEq, and_true] at h2
  rw [h1, List.append_cancel_right h2]

end Verif.Sync
