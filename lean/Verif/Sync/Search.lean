import Verif.Text.Path

/-!
# Finding the source files (`SearchFiles` on Windows, common/path.cc:498-637, 718-761)

The client runs on Windows. Modelled: the traversal. The file system is a tree that does not change during the search;
`FindFirstFileEx`/`FindNextFile` for `dir + pattern` deliver the entries of `dir` (with `.` and `..`) whose name matches
`pattern` in the sense of Windows, which is a parameter; a directory that cannot be read delivers none.
`FindExSearchLimitToDirectories` is a hint only and has no effect here. Not modelled: the conversion between UTF-8 and UTF-16,
reparse points, and a handler that fails (it ends the search).
-/
namespace Verif.Sync.Search
open Verif.Text.Path

/-- An entry of a directory. -/
inductive Node where
  | file (name : Str) (mtime : Int) (size : Nat)
  | dir (name : Str) (mtime : Int) (readable : Bool) (entries : List Node)

def Node.name : Node → Str
  | .file n _ _ => n
  | .dir n _ _ _ => n

/-- What the handler is told. -/
structure Hit where
  dir : Str
  name : Str
  mtime : Int
  size : Nat
  isDir : Bool
deriving DecidableEq

/-! ## Model -/

/-- `IsRegularDir`, common/path.cc:519-531, for a directory: neither `.` nor `..`. -/
def regular (n : Str) : Bool := decide (n ≠ [46]) && decide (n ≠ [46, 46])

/-- `need_separate_dir_pass`, common/path.cc:548-549; 42 is `*`. -/
def separatePass (pat : Str) : Bool := decide (pat ≠ [42]) && decide (42 ∈ pat)

/-- `new_pattern`, common/path.cc:577-580, 621-624. -/
def newPattern (reset : Bool) (pat : Str) : Str := if reset then [42] else pat

mutual
/-- The loop over all matching entries, common/path.cc:552-605. Inside, `SearchFilesWin` for a subdirectory is written out: in it
`recursive` is true and `reset_pattern` false, so it consists of the two loops. -/
def firstPass (m : Str → Str → Bool) (dir pat : Str) (recursive reset : Bool) : List Node → List Hit
  | [] => []
  | .file n t s :: es => (if m pat n then [⟨dir, n, t, s, false⟩] else []) ++ firstPass m dir pat recursive reset es
  | .dir n t r sub :: es =>
    (if m pat n && regular n then
      ⟨dir, n, t, 0, true⟩ ::
        (if recursive then
          (if r then firstPass m (dir ++ n ++ [92]) (newPattern reset pat) true false sub else []) ++
          (if separatePass (newPattern reset pat) then
            (if r then secondPass m (dir ++ n ++ [92]) (newPattern reset pat) false sub else []) else [])
        else [])
    else []) ++ firstPass m dir pat recursive reset es

/-- The separate loop over the subdirectories, common/path.cc:611-635. -/
def secondPass (m : Str → Str → Bool) (dir pat : Str) (reset : Bool) : List Node → List Hit
  | [] => []
  | .file _ _ _ :: es => secondPass m dir pat reset es
  | .dir n _ r sub :: es =>
    (if regular n then
      (if r then firstPass m (dir ++ n ++ [92]) (newPattern reset pat) true false sub else []) ++
      (if separatePass (newPattern reset pat) then
        (if r then secondPass m (dir ++ n ++ [92]) (newPattern reset pat) false sub else []) else [])
    else []) ++ secondPass m dir pat reset es
end

/-- `SearchFilesWin`, common/path.cc:533-638, for a directory that can be read or not. -/
def searchWin (m : Str → Str → Bool) (dir pat : Str) (recursive reset readable : Bool) (es : List Node) : List Hit :=
  if ! recursive && decide (pat = []) then []
  else (if readable then firstPass m dir pat recursive reset es else []) ++
    (if recursive && separatePass pat then (if readable then secondPass m dir pat reset es else []) else [])

/-- Windows, as far as the search asks it: name matching, whether a path is a directory (`GetFileAttributes`), and whether a directory
(written with its trailing `\`, or empty for the current one) can be read and what is in it. -/
structure Env where
  m : Str → Str → Bool
  isDir : Str → Bool
  readable : Str → Bool
  list : Str → List Node

/-- The part of a path up to its last `\`, common/path.cc:744-746, 751-753. -/
def upToLast (s : Str) : Str := (s.reverse.dropWhile fun c => c ≠ 92).reverse

/-- `SearchFiles`, common/path.cc:718-761. -/
def searchFiles (E : Env) (pattern : Str) (recursive : Bool) : List Hit :=
  let dir := upToLast pattern
  let rest := pattern.drop dir.length
  if E.isDir pattern then
    if ! recursive then searchWin E.m pattern [] recursive false (E.readable pattern) (E.list pattern)
    else if pattern.getLast? = some 92 then searchWin E.m pattern [42] recursive false (E.readable pattern) (E.list pattern)
    else searchWin E.m dir rest recursive true (E.readable dir) (E.list dir)
  else searchWin E.m dir rest recursive false (E.readable dir) (E.list dir)

/-! ## Specification -/

/-- The directory reached from the entries `es` through the subdirectories `ds` has the entries `l`; all directories on the way can be
read. -/
inductive DirAt : List Node → List Str → List Node → Prop where
  | here (es) : DirAt es [] es
  | down {es n t sub ds l} : Node.dir n t true sub ∈ es → regular n = true → DirAt sub ds l → DirAt es (n :: ds) l

/-- `.` and `..` are no entries in their own right. -/
def Real : Node → Prop
  | .file .. => True
  | .dir n .. => regular n = true

/-- Directories as a prefix of a path. -/
def pathStr (ds : List Str) : Str := (ds.map (· ++ [92])).flatten

/-- The report for an entry of the directory `dir`. -/
def hitOf (dir : Str) : Node → Hit
  | .file n t s => ⟨dir, n, t, s, false⟩
  | .dir n t _ _ => ⟨dir, n, t, 0, true⟩

/-- The entry `x`, found below `es` in the subdirectory `ds`. -/
def Below (es : List Node) (ds : List Str) (x : Node) : Prop := ∃ l, DirAt es ds l ∧ x ∈ l ∧ Real x

/-- No directory has two entries of the same name. -/
def Distinct (es : List Node) : Prop := ∀ ds l, DirAt es ds l → (l.map Node.name).Nodup

/-- Names are not empty and have no `\`. -/
def Named (es : List Node) : Prop := ∀ ds l x, DirAt es ds l → x ∈ l → x.name ≠ [] ∧ 92 ∉ x.name

/-! ## The search without strings -/

mutual
def walk1 (m : Str → Str → Bool) (pat : Str) (reset : Bool) : List Node → List (List Str × Node)
  | [] => []
  | .file n t s :: es => (if m pat n then [([], .file n t s)] else []) ++ walk1 m pat reset es
  | .dir n t r sub :: es =>
    (if m pat n && regular n then
      ([], .dir n t r sub) ::
        ((if r then walk1 m (newPattern reset pat) false sub else []) ++
        (if separatePass (newPattern reset pat) then
          (if r then walk2 m (newPattern reset pat) false sub else []) else [])).map (fun p => (n :: p.1, p.2))
    else []) ++ walk1 m pat reset es

def walk2 (m : Str → Str → Bool) (pat : Str) (reset : Bool) : List Node → List (List Str × Node)
  | [] => []
  | .file _ _ _ :: es => walk2 m pat reset es
  | .dir n _ r sub :: es =>
    (if regular n then
      ((if r then walk1 m (newPattern reset pat) false sub else []) ++
      (if separatePass (newPattern reset pat) then
        (if r then walk2 m (newPattern reset pat) false sub else []) else [])).map (fun p => (n :: p.1, p.2))
    else []) ++ walk2 m pat reset es
end

def walk (m : Str → Str → Bool) (pat : Str) (reset readable : Bool) (es : List Node) : List (List Str × Node) :=
  (if readable then walk1 m pat reset es else []) ++
    (if separatePass pat then (if readable then walk2 m pat reset es else []) else [])

def toHit (dir : Str) (p : List Str × Node) : Hit := hitOf (dir ++ pathStr p.1) p.2

theorem toHit_cons (dir n : Str) (p : List Str × Node) :
    toHit dir (n :: p.1, p.2) = toHit (dir ++ n ++ [92]) p := by
  simp [toHit, pathStr]

theorem map_toHit_cons (dir n : Str) (l : List (List Str × Node)) :
    (l.map fun p => (n :: p.1, p.2)).map (toHit dir) = l.map (toHit (dir ++ n ++ [92])) := by
  rw [List.map_map]
  exact List.map_congr_left fun p _ => toHit_cons dir n p

mutual
theorem firstPass_eq (m : Str → Str → Bool) (dir pat : Str) (reset : Bool) : (es : List Node) →
    firstPass m dir pat true reset es = (walk1 m pat reset es).map (toHit dir)
  | [] => by simp [firstPass, walk1]
  | .file n t s :: es => by
    rw [firstPass, walk1, List.map_append, firstPass_eq m dir pat reset es]
    congr 1
    split <;> simp [toHit, hitOf, pathStr]
  | .dir n t r sub :: es => by
    rw [firstPass, walk1, List.map_append, firstPass_eq m dir pat reset es]
    congr 1
    split
    · rw [List.map_cons, map_toHit_cons, List.map_append, if_pos rfl]
      congr 1
      · simp [toHit, hitOf, pathStr]
      · congr 1
        · split
          · exact firstPass_eq m _ _ false sub
          · rfl
        · split
          · split
            · exact secondPass_eq m _ _ false sub
            · rfl
          · rfl
    · rfl

theorem secondPass_eq (m : Str → Str → Bool) (dir pat : Str) (reset : Bool) : (es : List Node) →
    secondPass m dir pat reset es = (walk2 m pat reset es).map (toHit dir)
  | [] => by simp [secondPass, walk2]
  | .file n t s :: es => by rw [secondPass, walk2, secondPass_eq m dir pat reset es]
  | .dir n t r sub :: es => by
    rw [secondPass, walk2, List.map_append, secondPass_eq m dir pat reset es]
    congr 1
    split
    · rw [map_toHit_cons, List.map_append]
      congr 1
      · split
        · exact firstPass_eq m _ _ false sub
        · rfl
      · split
        · split
          · exact secondPass_eq m _ _ false sub
          · rfl
        · rfl
    · rfl
end

theorem searchWin_rec (m : Str → Str → Bool) (dir pat : Str) (reset readable : Bool) (es : List Node) :
    searchWin m dir pat true reset readable es = (walk m pat reset readable es).map (toHit dir) := by
  unfold searchWin walk
  rw [if_neg (by simp), List.map_append]
  congr 1
  · split
    · exact firstPass_eq m dir pat reset es
    · rfl
  · rw [Bool.true_and]
    split
    · split
      · exact secondPass_eq m dir pat reset es
      · rfl
    · rfl

/-! ## What is found -/

theorem mem_sub {m : Str → Str → Bool} {pat : Str} {r : Bool} {sub : List Node} {p : List Str × Node} :
    p ∈ (if r then walk1 m pat false sub else []) ++ (if separatePass pat then (if r then walk2 m pat false sub else []) else []) ↔
      p ∈ walk m pat false r sub := Iff.rfl

theorem mem_walk1 {m : Str → Str → Bool} {pat : Str} {reset : Bool} {es : List Node} {p : List Str × Node} :
    p ∈ walk1 m pat reset es ↔
      (p.1 = [] ∧ p.2 ∈ es ∧ Real p.2 ∧ m pat p.2.name = true) ∨
      ∃ n ds t r sub, p.1 = n :: ds ∧ Node.dir n t r sub ∈ es ∧ m pat n = true ∧ regular n = true ∧
        (ds, p.2) ∈ walk m (newPattern reset pat) false r sub := by
  induction es with
  | nil => simp [walk1]
  | cons e es ih =>
    cases e with
    | file n t s =>
      rw [walk1, List.mem_append, ih]
      constructor
      · rintro (h | ⟨h1, h2, h3, h4⟩ | ⟨n', ds, t', r, sub, h1, h2, h3, h4, h5⟩)
        · split at h
          · rename_i hm
            obtain rfl := List.mem_singleton.mp h
            exact .inl ⟨rfl, List.mem_cons_self, trivial, hm⟩
          · cases h
        · exact .inl ⟨h1, List.mem_cons_of_mem _ h2, h3, h4⟩
        · exact .inr ⟨n', ds, t', r, sub, h1, List.mem_cons_of_mem _ h2, h3, h4, h5⟩
      · rintro (⟨h1, h2, h3, h4⟩ | ⟨n', ds, t', r, sub, h1, h2, h3, h4, h5⟩)
        · rcases List.mem_cons.mp h2 with h2 | h2
          · refine .inl ?_
            rw [h2] at h4
            have h4 : m pat n = true := h4
            rw [if_pos h4]
            exact List.mem_singleton.mpr (Prod.ext h1 h2)
          · exact .inr (.inl ⟨h1, h2, h3, h4⟩)
        · rcases List.mem_cons.mp h2 with h2 | h2
          · cases h2
          · exact .inr (.inr ⟨n', ds, t', r, sub, h1, h2, h3, h4, h5⟩)
    | dir n t r sub =>
      rw [walk1, List.mem_append, ih]
      constructor
      · rintro (h | ⟨h1, h2, h3, h4⟩ | ⟨n', ds, t', r', sub', h1, h2, h3, h4, h5⟩)
        · split at h
          · rename_i hm
            rw [Bool.and_eq_true] at hm
            rcases List.mem_cons.mp h with rfl | h
            · exact .inl ⟨rfl, List.mem_cons_self, hm.2, hm.1⟩
            · obtain ⟨q, hq, rfl⟩ := List.mem_map.mp h
              exact .inr ⟨n, q.1, t, r, sub, rfl, List.mem_cons_self, hm.1, hm.2, mem_sub.mp hq⟩
          · cases h
        · exact .inl ⟨h1, List.mem_cons_of_mem _ h2, h3, h4⟩
        · exact .inr ⟨n', ds, t', r', sub', h1, List.mem_cons_of_mem _ h2, h3, h4, h5⟩
      · rintro (⟨h1, h2, h3, h4⟩ | ⟨n', ds, t', r', sub', h1, h2, h3, h4, h5⟩)
        · rcases List.mem_cons.mp h2 with h2 | h2
          · refine .inl ?_
            rw [h2] at h3 h4
            have h3 : regular n = true := h3
            have h4 : m pat n = true := h4
            rw [if_pos (by rw [Bool.and_eq_true]; exact ⟨h4, h3⟩)]
            exact List.mem_cons.mpr (.inl (Prod.ext h1 h2))
          · exact .inr (.inl ⟨h1, h2, h3, h4⟩)
        · rcases List.mem_cons.mp h2 with h2 | h2
          · injection h2 with e1 e2 e3 e4
            subst e1; subst e2; subst e3; subst e4
            refine .inl ?_
            rw [if_pos (by rw [Bool.and_eq_true]; exact ⟨h3, h4⟩)]
            refine List.mem_cons.mpr (.inr (List.mem_map.mpr ⟨(ds, p.2), mem_sub.mpr h5, ?_⟩))
            exact Prod.ext h1.symm rfl
          · exact .inr (.inr ⟨n', ds, t', r', sub', h1, h2, h3, h4, h5⟩)

theorem mem_walk2 {m : Str → Str → Bool} {pat : Str} {reset : Bool} {es : List Node} {p : List Str × Node} :
    p ∈ walk2 m pat reset es ↔
      ∃ n ds t r sub, p.1 = n :: ds ∧ Node.dir n t r sub ∈ es ∧ regular n = true ∧
        (ds, p.2) ∈ walk m (newPattern reset pat) false r sub := by
  induction es with
  | nil => simp [walk2]
  | cons e es ih =>
    cases e with
    | file n t s =>
      rw [walk2, ih]
      constructor
      · rintro ⟨n', ds, t', r, sub, h1, h2, h3, h4⟩
        exact ⟨n', ds, t', r, sub, h1, List.mem_cons_of_mem _ h2, h3, h4⟩
      · rintro ⟨n', ds, t', r, sub, h1, h2, h3, h4⟩
        rcases List.mem_cons.mp h2 with h2 | h2
        · cases h2
        · exact ⟨n', ds, t', r, sub, h1, h2, h3, h4⟩
    | dir n t r sub =>
      rw [walk2, List.mem_append, ih]
      constructor
      · rintro (h | ⟨n', ds, t', r', sub', h1, h2, h3, h4⟩)
        · split at h
          · rename_i hm
            obtain ⟨q, hq, rfl⟩ := List.mem_map.mp h
            exact ⟨n, q.1, t, r, sub, rfl, List.mem_cons_self, hm, mem_sub.mp hq⟩
          · cases h
        · exact ⟨n', ds, t', r', sub', h1, List.mem_cons_of_mem _ h2, h3, h4⟩
      · rintro ⟨n', ds, t', r', sub', h1, h2, h3, h4⟩
        rcases List.mem_cons.mp h2 with h2 | h2
        · injection h2 with e1 e2 e3 e4
          subst e1; subst e2; subst e3; subst e4
          refine .inl ?_
          rw [if_pos h3]
          exact List.mem_map.mpr ⟨(ds, p.2), mem_sub.mpr h4, Prod.ext h1.symm rfl⟩
        · exact .inr ⟨n', ds, t', r', sub', h1, h2, h3, h4⟩

theorem walk_unreadable (m : Str → Str → Bool) (pat : Str) (reset : Bool) (es : List Node) : walk m pat reset false es = [] := by
  unfold walk
  simp

theorem mem_walk {m : Str → Str → Bool} {pat : Str} {reset : Bool} {es : List Node} {p : List Str × Node} :
    p ∈ walk m pat reset true es ↔ p ∈ walk1 m pat reset es ∨ separatePass pat = true ∧ p ∈ walk2 m pat reset es := by
  unfold walk
  rw [if_pos rfl, if_pos rfl, List.mem_append]
  constructor
  · rintro (h | h)
    · exact .inl h
    · split at h
      · exact .inr ⟨by assumption, h⟩
      · cases h
  · rintro (h | ⟨h1, h⟩)
    · exact .inl h
    · rw [if_pos h1]; exact .inr h

theorem below_nil {es : List Node} {x : Node} : Below es [] x ↔ x ∈ es ∧ Real x := by
  constructor
  · rintro ⟨l, h, hx, hr⟩
    cases h
    exact ⟨hx, hr⟩
  · rintro ⟨hx, hr⟩
    exact ⟨es, .here es, hx, hr⟩

theorem below_cons {es : List Node} {n : Str} {ds : List Str} {x : Node} :
    Below es (n :: ds) x ↔ ∃ t sub, Node.dir n t true sub ∈ es ∧ regular n = true ∧ Below sub ds x := by
  constructor
  · rintro ⟨l, h, hx, hr⟩
    cases h with
    | down h1 h2 h3 => exact ⟨_, _, h1, h2, l, h3, hx, hr⟩
  · rintro ⟨t, sub, h1, h2, l, h3, hx, hr⟩
    exact ⟨l, .down h1 h2 h3, hx, hr⟩

/-- The condition under which an entry is found: its name matches, and unless the pattern has a `*`, the names of the directories
above it match as well. -/
theorem mem_walk_iff {m : Str → Str → Bool} (hstar : ∀ n, m [42] n = true) {pat : Str} {es : List Node} {ds : List Str} {x : Node} :
    (ds, x) ∈ walk m pat false true es ↔ Below es ds x ∧ m pat x.name = true ∧ (42 ∈ pat ∨ ∀ d ∈ ds, m pat d = true) := by
  induction ds generalizing es with
  | nil =>
    rw [mem_walk, mem_walk1, mem_walk2, below_nil]
    constructor
    · rintro ((⟨_, h2, h3, h4⟩ | ⟨n, ds, t, r, sub, h1, _⟩) | ⟨_, n, ds, t, r, sub, h1, _⟩)
      · exact ⟨⟨h2, h3⟩, h4, .inr (by simp)⟩
      · cases h1
      · cases h1
    · rintro ⟨⟨h2, h3⟩, h4, _⟩
      exact .inl (.inl ⟨rfl, h2, h3, h4⟩)
  | cons n ds ih =>
    rw [mem_walk, mem_walk1, mem_walk2, below_cons]
    have hsub : ∀ r sub, (ds, x) ∈ walk m (newPattern false pat) false r sub →
        r = true ∧ Below sub ds x ∧ m pat x.name = true ∧ (42 ∈ pat ∨ ∀ d ∈ ds, m pat d = true) := by
      intro r sub h
      cases r with
      | false => rw [walk_unreadable] at h; cases h
      | true => exact ⟨rfl, ih.mp h⟩
    constructor
    · rintro ((⟨h1, _⟩ | ⟨n', ds', t, r, sub, h1, h2, h3, h4, h5⟩) | ⟨hs, n', ds', t, r, sub, h1, h2, h4, h5⟩)
      · cases h1
      · cases h1
        obtain ⟨rfl, hb, hm, hc⟩ := hsub r sub h5
        refine ⟨⟨t, sub, h2, h4, hb⟩, hm, ?_⟩
        rcases hc with hc | hc
        · exact .inl hc
        · refine .inr fun d hd => ?_
          rcases List.mem_cons.mp hd with rfl | hd
          · exact h3
          · exact hc d hd
      · cases h1
        obtain ⟨rfl, hb, hm, hc⟩ := hsub r sub h5
        unfold separatePass at hs
        simp only [Bool.and_eq_true, decide_eq_true_eq] at hs
        exact ⟨⟨t, sub, h2, h4, hb⟩, hm, .inl hs.2⟩
    · rintro ⟨⟨t, sub, h2, h4, hb⟩, hm, hc⟩
      have hc' : 42 ∈ pat ∨ ∀ d ∈ ds, m pat d = true := hc.imp id fun h d hd => h d (List.mem_cons_of_mem _ hd)
      have hw : (ds, x) ∈ walk m (newPattern false pat) false true sub := ih.mpr ⟨hb, hm, hc'⟩
      by_cases hs : separatePass pat = true
      · exact .inr ⟨hs, n, ds, t, true, sub, rfl, h2, h4, hw⟩
      · refine .inl (.inr ⟨n, ds, t, true, sub, rfl, h2, ?_, h4, hw⟩)
        unfold separatePass at hs
        simp only [Bool.and_eq_true, decide_eq_true_eq, not_and, ne_eq] at hs
        rcases hc with hc | hc
        · have : pat = [42] := Decidable.byContradiction fun hne => hs hne hc
          rw [this]; exact hstar n
        · exact hc n List.mem_cons_self

/-- With `reset_pattern` only the first name has to match. -/
theorem mem_walk_reset {m : Str → Str → Bool} (hstar : ∀ n, m [42] n = true) {pat : Str} (hpat : 42 ∉ pat) {es : List Node}
    {ds : List Str} {x : Node} :
    (ds, x) ∈ walk m pat true true es ↔ Below es ds x ∧ ∀ n, (ds ++ [x.name]).head? = some n → m pat n = true := by
  have hs : separatePass pat = false := by unfold separatePass; simp [hpat]
  rw [mem_walk, mem_walk1, hs]
  cases ds with
  | nil =>
    rw [below_nil]
    constructor
    · rintro ((⟨_, h2, h3, h4⟩ | ⟨n, ds, t, r, sub, h1, _⟩) | ⟨h, _⟩)
      · refine ⟨⟨h2, h3⟩, ?_⟩
        rintro n hn
        cases hn
        exact h4
      · cases h1
      · cases h
    · rintro ⟨⟨h2, h3⟩, h4⟩
      exact .inl (.inl ⟨rfl, h2, h3, h4 _ rfl⟩)
  | cons n ds =>
    rw [below_cons]
    constructor
    · rintro ((⟨h1, _⟩ | ⟨n', ds', t, r, sub, h1, h2, h3, h4, h5⟩) | ⟨h, _⟩)
      · cases h1
      · cases h1
        cases r with
        | false => rw [walk_unreadable] at h5; cases h5
        | true =>
          refine ⟨⟨t, sub, h2, h4, ((mem_walk_iff hstar).mp h5).1⟩, ?_⟩
          intro n' hn
          cases hn
          exact h3
      · cases h
    · rintro ⟨⟨t, sub, h2, h4, hb⟩, hm⟩
      refine .inl (.inr ⟨n, ds, t, true, sub, rfl, h2, hm _ rfl, h4, ?_⟩)
      exact (mem_walk_iff hstar).mpr ⟨hb, hstar _, .inl (by simp [newPattern])⟩

/-! ## How often it is found -/

/-- The path of what is found, as names. -/
def names (p : List Str × Node) : List Str := p.1 ++ [p.2.name]

theorem names_cons (n : Str) (p : List Str × Node) : names (n :: p.1, p.2) = n :: names p := rfl

theorem head_walk1 {m : Str → Str → Bool} {pat : Str} {reset : Bool} {es : List Node} {p : List Str × Node}
    (h : p ∈ walk1 m pat reset es) : ∃ x ∈ es, (names p).head? = some x.name := by
  rcases mem_walk1.mp h with ⟨h1, h2, _⟩ | ⟨n, ds, t, r, sub, h1, h2, _⟩
  · exact ⟨p.2, h2, by simp [names, h1]⟩
  · exact ⟨_, h2, by simp [names, h1, Node.name]⟩

theorem head_walk2 {m : Str → Str → Bool} {pat : Str} {reset : Bool} {es : List Node} {p : List Str × Node}
    (h : p ∈ walk2 m pat reset es) : ∃ x ∈ es, (names p).head? = some x.name := by
  obtain ⟨n, ds, t, r, sub, h1, h2, _⟩ := mem_walk2.mp h
  exact ⟨_, h2, by simp [names, h1, Node.name]⟩

theorem nodup_map_cons {α : Type} {l : List (List α)} (a : α) (h : l.Nodup) : (l.map (a :: ·)).Nodup :=
  List.pairwise_map.mpr (List.Pairwise.imp (fun hne e => hne (List.cons.inj e).2) h)

theorem map_names_cons (n : Str) (l : List (List Str × Node)) :
    (l.map fun p => (n :: p.1, p.2)).map names = (l.map names).map (n :: ·) := by
  rw [List.map_map, List.map_map]
  rfl

theorem nodup_walk1 {m : Str → Str → Bool} {pat : Str} {reset : Bool} {es : List Node} (hn : (es.map Node.name).Nodup)
    (hsub : ∀ n t r sub, Node.dir n t r sub ∈ es → regular n = true → ((walk m (newPattern reset pat) false r sub).map names).Nodup) :
    ((walk1 m pat reset es).map names).Nodup := by
  induction es with
  | nil => simp [walk1]
  | cons e es ih =>
    rw [List.map_cons, List.nodup_cons] at hn
    have ih := ih hn.2 fun n t r sub h => hsub n t r sub (List.mem_cons_of_mem _ h)
    have hdis : ∀ x ∈ (walk1 m pat reset es).map names, x.head? ≠ some e.name := by
      intro x hx he
      obtain ⟨p, hp, rfl⟩ := List.mem_map.mp hx
      obtain ⟨y, hy, hh⟩ := head_walk1 hp
      rw [hh] at he
      exact hn.1 (List.mem_map.mpr ⟨y, hy, Option.some.inj he⟩)
    have hgo : ∀ b : List (List Str × Node), (b.map names).Nodup → (∀ x ∈ b.map names, x.head? = some e.name) →
        ((b ++ walk1 m pat reset es).map names).Nodup := by
      intro b h1 h2
      rw [List.map_append, List.nodup_append]
      exact ⟨h1, ih, fun x hx y hy e => by subst e; exact hdis _ hy (h2 _ hx)⟩
    cases e with
    | file n t s =>
      rw [walk1]
      apply hgo
      · split <;> simp
      · intro x hx
        split at hx
        · simp [names, Node.name] at hx; subst hx; rfl
        · cases hx
    | dir n t r sub =>
      rw [walk1]
      apply hgo
      · split
        · have hreg : regular n = true := by rename_i h; rw [Bool.and_eq_true] at h; exact h.2
          have hs := hsub n t r sub List.mem_cons_self hreg
          rw [List.map_cons, map_names_cons, List.nodup_cons]
          refine ⟨?_, nodup_map_cons n hs⟩
          intro hx
          obtain ⟨q, hq, he⟩ := List.mem_map.mp hx
          obtain ⟨p, hp, rfl⟩ := List.mem_map.mp hq
          have := congrArg List.length he
          simp [names] at this
        · simp
      · intro x hx
        split at hx
        · rw [List.map_cons, map_names_cons] at hx
          rcases List.mem_cons.mp hx with rfl | hx
          · rfl
          · obtain ⟨q, hq, rfl⟩ := List.mem_map.mp hx
            rfl
        · cases hx

theorem nodup_walk2 {m : Str → Str → Bool} {pat : Str} {reset : Bool} {es : List Node} (hn : (es.map Node.name).Nodup)
    (hsub : ∀ n t r sub, Node.dir n t r sub ∈ es → regular n = true → ((walk m (newPattern reset pat) false r sub).map names).Nodup) :
    ((walk2 m pat reset es).map names).Nodup := by
  induction es with
  | nil => simp [walk2]
  | cons e es ih =>
    rw [List.map_cons, List.nodup_cons] at hn
    have ih := ih hn.2 fun n t r sub h => hsub n t r sub (List.mem_cons_of_mem _ h)
    cases e with
    | file n t s => rw [walk2]; exact ih
    | dir n t r sub =>
      rw [walk2, List.map_append, List.nodup_append]
      refine ⟨?_, ih, ?_⟩
      · split
        · rename_i hreg
          have hs := hsub n t r sub List.mem_cons_self hreg
          rw [map_names_cons]; exact nodup_map_cons n hs
        · simp
      · intro x hx y hy e
        subst e
        obtain ⟨p, hp, rfl⟩ := List.mem_map.mp hy
        obtain ⟨z, hz, hh⟩ := head_walk2 hp
        split at hx
        · rw [map_names_cons] at hx
          obtain ⟨q, hq, he⟩ := List.mem_map.mp hx
          rw [← he] at hh
          simp only [List.head?_cons, Option.some.injEq] at hh
          exact hn.1 (List.mem_map.mpr ⟨z, hz, hh.symm⟩)
        · cases hx

theorem Distinct.sub {es : List Node} (h : Distinct es) {n : Str} {t : Int} {sub : List Node} (hm : Node.dir n t true sub ∈ es)
    (hr : regular n = true) : Distinct sub := fun ds l hd => h (n :: ds) l (.down hm hr hd)

/-- No subdirectory has a name that matches. -/
def NoDirMatches (m : Str → Str → Bool) (pat : Str) (es : List Node) : Prop :=
  ∀ ds n t r sub, Below es ds (.dir n t r sub) → m pat n = false

theorem nodup_walk {m : Str → Str → Bool} {pat : Str} {reset readable : Bool} {es : List Node} (hd : Distinct es)
    (hs : separatePass pat = true → reset = false ∧ NoDirMatches m pat es) :
    ((walk m pat reset readable es).map names).Nodup := by
  generalize hk : sizeOf es = k
  induction k using Nat.strongRecOn generalizing es pat reset readable with
  | _ k ih =>
    cases readable with
    | false => rw [walk_unreadable]; simp
    | true =>
      have hn := hd [] es (.here es)
      -- what is below a subdirectory
      have hsub : ∀ n t r sub, Node.dir n t r sub ∈ es → (regular n = true) →
          ((walk m (newPattern reset pat) false r sub).map names).Nodup := by
        intro n t r sub hm hr
        cases r with
        | false => rw [walk_unreadable]; simp
        | true =>
          have hlt : sizeOf sub < k := by
            have := List.sizeOf_lt_of_mem hm
            simp only [Node.dir.sizeOf_spec] at this
            omega
          refine ih (sizeOf sub) hlt (hd.sub hm hr) ?_ rfl
          intro h
          cases reset with
          | true => simp [newPattern, separatePass] at h
          | false =>
            refine ⟨rfl, fun ds n' t' r' sub' hb => ?_⟩
            exact (hs h).2 (n :: ds) n' t' r' sub' (below_cons.mpr ⟨t, sub, hm, hr, hb⟩)
      unfold walk
      rw [if_pos rfl, if_pos rfl, List.map_append, List.nodup_append]
      refine ⟨nodup_walk1 hn hsub, ?_, ?_⟩
      · split
        · exact nodup_walk2 hn hsub
        · simp
      · intro x hx y hy e
        subst e
        split at hy
        · rename_i hsep
          obtain ⟨p, hp, rfl⟩ := List.mem_map.mp hx
          obtain ⟨q, hq, he⟩ := List.mem_map.mp hy
          obtain ⟨n', ds', t', r', sub', g1, _⟩ := mem_walk2.mp hq
          rcases mem_walk1.mp hp with ⟨h1, _⟩ | ⟨n, ds, t, r, sub, h1, h2, h3, h4, _⟩
          · have := congrArg List.length he
            simp [names, h1, g1] at this
          · rw [(hs hsep).2 [] n t r sub (below_nil.mpr ⟨h2, h4⟩)] at h3
            cases h3
        · cases hy

/-! ## Paths as strings -/

/-- The path a report is about. -/
def Hit.path (h : Hit) : Str := h.dir ++ h.name

def flat (l : List Str) : Str := (l.flatMap fun n => 92 :: n)

theorem cons_flat_eq {n n' : Str} {r r' : List Str} (h1 : 92 ∉ n) (h2 : 92 ∉ n') (h : n ++ flat r = n' ++ flat r') :
    n = n' ∧ flat r = flat r' := by
  induction n generalizing n' with
  | nil =>
    cases n' with
    | nil => exact ⟨rfl, h⟩
    | cons c n' =>
      cases r with
      | nil => simp [flat] at h
      | cons a r =>
        have h : (92 : UInt8) :: (a ++ flat r) = c :: (n' ++ flat r') := by simpa [flat] using h
        injection h with e _
        exact absurd (by rw [← e]; exact List.mem_cons_self) h2
  | cons c n ih =>
    cases n' with
    | nil =>
      cases r' with
      | nil => simp [flat] at h
      | cons a r' =>
        have h : c :: (n ++ flat r) = (92 : UInt8) :: (a ++ flat r') := by simpa [flat] using h
        injection h with e _
        exact absurd (by rw [← e]; exact List.mem_cons_self) h1
    | cons c' n' =>
      injection h with e h
      subst e
      obtain ⟨e, hr⟩ := ih (fun h => h1 (List.mem_cons_of_mem _ h)) (fun h => h2 (List.mem_cons_of_mem _ h)) h
      exact ⟨by rw [e], hr⟩

theorem flat_inj {l l' : List Str} (h1 : ∀ n ∈ l, 92 ∉ n) (h2 : ∀ n ∈ l', 92 ∉ n) (h : flat l = flat l') : l = l' := by
  induction l generalizing l' with
  | nil =>
    cases l' with
    | nil => rfl
    | cons a l' => simp [flat] at h
  | cons a l ih =>
    cases l' with
    | nil => simp [flat] at h
    | cons b l' =>
      have h : (92 : UInt8) :: (a ++ flat l) = 92 :: (b ++ flat l') := by simpa [flat] using h
      injection h with _ h
      obtain ⟨e, hr⟩ := cons_flat_eq (h1 a List.mem_cons_self) (h2 b List.mem_cons_self) h
      rw [e, ih (fun n hn => h1 n (List.mem_cons_of_mem _ hn)) (fun n hn => h2 n (List.mem_cons_of_mem _ hn)) hr]

theorem pathStr_flat (ds : List Str) (n : Str) : 92 :: (pathStr ds ++ n) = flat (ds ++ [n]) := by
  induction ds with
  | nil => simp [pathStr, flat]
  | cons d ds ih =>
    have e : flat (d :: ds ++ [n]) = 92 :: (d ++ flat (ds ++ [n])) := by simp [flat]
    rw [e, ← ih]
    simp [pathStr]

theorem toHit_path (dir : Str) (p : List Str × Node) : (toHit dir p).path = dir ++ (pathStr p.1 ++ p.2.name) := by
  obtain ⟨ds, x⟩ := p
  cases x <;> simp [toHit, hitOf, Hit.path, Node.name]

theorem named_names {es : List Node} (hn : Named es) {ds : List Str} {x : Node} (hb : Below es ds x) : ∀ n ∈ ds ++ [x.name], 92 ∉ n := by
  induction ds generalizing es with
  | nil =>
    rw [below_nil] at hb
    intro n h
    simp only [List.nil_append, List.mem_singleton] at h
    subst h
    exact (hn [] es x (.here es) hb.1).2
  | cons d ds ih =>
    obtain ⟨t, sub, h1, h2, h3⟩ := below_cons.mp hb
    intro n h
    rcases List.mem_cons.mp h with rfl | h
    · exact (hn [] es _ (.here es) h1).2
    · exact ih (fun ds' l y hd hy => hn (d :: ds') l y (.down h1 h2 hd) hy) h3 n h

theorem nodup_paths {es : List Node} (hn : Named es) (dir : Str) {l : List (List Str × Node)} (hl : ∀ p ∈ l, Below es p.1 p.2)
    (h : (l.map names).Nodup) : ((l.map (toHit dir)).map Hit.path).Nodup := by
  rw [List.map_map]
  refine List.pairwise_map.mpr ((List.pairwise_map.mp h).imp_of_mem ?_)
  intro p q hp hq hne e
  apply hne
  have e : (toHit dir p).path = (toHit dir q).path := e
  rw [toHit_path, toHit_path] at e
  have e := List.append_cancel_left e
  have e : flat (p.1 ++ [p.2.name]) = flat (q.1 ++ [q.2.name]) := by rw [← pathStr_flat, ← pathStr_flat, e]
  exact flat_inj (named_names hn (hl p hp)) (named_names hn (hl q hq)) e

theorem below_of_walk {m : Str → Str → Bool} (hstar : ∀ n, m [42] n = true) {pat : Str} {reset readable : Bool}
    (hr : reset = true → 42 ∉ pat) {es : List Node} {p : List Str × Node} (h : p ∈ walk m pat reset readable es) : Below es p.1 p.2 := by
  cases readable with
  | false => rw [walk_unreadable] at h; cases h
  | true =>
    cases reset with
    | false => exact ((mem_walk_iff hstar).mp (show (p.1, p.2) ∈ _ from h)).1
    | true => exact ((mem_walk_reset hstar (hr rfl)).mp (show (p.1, p.2) ∈ _ from h)).1

theorem mem_map_toHit {dir : Str} {l : List (List Str × Node)} {h : Hit} :
    h ∈ l.map (toHit dir) ↔ ∃ ds x, (ds, x) ∈ l ∧ h = hitOf (dir ++ pathStr ds) x := by
  rw [List.mem_map]
  constructor
  · rintro ⟨p, hp, rfl⟩
    exact ⟨p.1, p.2, hp, rfl⟩
  · rintro ⟨ds, x, hp, rfl⟩
    exact ⟨(ds, x), hp, rfl⟩

/-! ## Where the search starts -/

theorem dropWhile_nil {α : Type} {q : α → Bool} {l : List α} (h : ∀ x ∈ l, q x = true) : l.dropWhile q = [] := by
  induction l with
  | nil => rfl
  | cons a l ih => rw [List.dropWhile_cons_of_pos (h a List.mem_cons_self), ih fun x hx => h x (List.mem_cons_of_mem _ hx)]

theorem upToLast_split (d n : Str) (hn : 92 ∉ n) (hd : d = [] ∨ d.getLast? = some 92) : upToLast (d ++ n) = d := by
  unfold upToLast
  rw [List.reverse_append]
  have h1 : ∀ x ∈ n.reverse, (decide (x ≠ 92)) = true := by
    intro x hx
    have : x ∈ n := List.mem_reverse.mp hx
    simp only [ne_eq, decide_eq_true_eq]
    exact fun e => hn (e ▸ this)
  have h2 : (n.reverse ++ d.reverse).dropWhile (fun c => decide (c ≠ 92)) = d.reverse.dropWhile (fun c => decide (c ≠ 92)) := by
    rw [List.dropWhile_append]
    have : n.reverse.dropWhile (fun c => decide (c ≠ 92)) = [] := dropWhile_nil h1
    rw [this]
    rfl
  rw [h2]
  rcases hd with rfl | hd
  · rfl
  · obtain ⟨d', rfl⟩ := List.getLast?_eq_some_iff.mp hd
    rw [List.reverse_append]
    simp

/-! ## C145: every source file is found, once -/

/-- **C145** A recursive search of a directory written with its trailing `\` reports exactly what is below it. -/
theorem C145_directory (E : Env) (hstar : ∀ n, E.m [42] n = true) (src : Str) (hdir : E.isDir src = true) (hsep : src.getLast? = some 92)
    (hr : E.readable src = true) (h : Hit) :
    h ∈ searchFiles E src true ↔ ∃ ds x, Below (E.list src) ds x ∧ h = hitOf (src ++ pathStr ds) x := by
  unfold searchFiles
  dsimp only
  rw [if_pos hdir, if_neg (by simp), if_pos hsep, searchWin_rec, hr, mem_map_toHit]
  constructor
  · rintro ⟨ds, x, h1, h2⟩
    exact ⟨ds, x, ((mem_walk_iff hstar).mp h1).1, h2⟩
  · rintro ⟨ds, x, h1, h2⟩
    exact ⟨ds, x, (mem_walk_iff hstar).mpr ⟨h1, hstar _, .inl (by simp)⟩, h2⟩

/-- **C145** A recursive search of the directory `d ++ n`, written without a trailing `\`, reports the entry `n` of `d` and exactly what
is below it; in general, the entries of `d` whose names match `n`. -/
theorem C145_named_directory (E : Env) (hstar : ∀ n, E.m [42] n = true) (d n : Str) (hn : n ≠ [] ∧ 92 ∉ n ∧ 42 ∉ n)
    (hd : d = [] ∨ d.getLast? = some 92) (hdir : E.isDir (d ++ n) = true) (hr : E.readable d = true) (h : Hit) :
    h ∈ searchFiles E (d ++ n) true ↔
      ∃ ds x, Below (E.list d) ds x ∧ (∀ k, (ds ++ [x.name]).head? = some k → E.m n k = true) ∧ h = hitOf (d ++ pathStr ds) x := by
  have hlast : (d ++ n).getLast? ≠ some 92 := by
    intro e
    rw [List.getLast?_append] at e
    cases hl : n.getLast? with
    | none => exact hn.1 (List.getLast?_eq_none_iff.mp hl)
    | some c =>
      rw [hl] at e
      have e : c = 92 := Option.some.inj e
      obtain ⟨n', hn'⟩ := List.getLast?_eq_some_iff.mp hl
      exact hn.2.1 (by rw [hn', e]; simp)
  unfold searchFiles
  dsimp only
  rw [if_pos hdir, if_neg (by simp), if_neg hlast, upToLast_split d n hn.2.1 hd, List.drop_left, searchWin_rec, hr, mem_map_toHit]
  constructor
  · rintro ⟨ds, x, h1, h2⟩
    obtain ⟨h3, h4⟩ := (mem_walk_reset hstar hn.2.2).mp h1
    exact ⟨ds, x, h3, h4, h2⟩
  · rintro ⟨ds, x, h1, h2, h3⟩
    exact ⟨ds, x, (mem_walk_reset hstar hn.2.2).mpr ⟨h1, h2⟩, h3⟩

/-- **C145** A recursive search for a pattern with a `*` reports exactly the entries below the directory of the pattern whose names
match, however deep. -/
theorem C145_pattern (E : Env) (hstar : ∀ n, E.m [42] n = true) (d pat : Str) (hp : 92 ∉ pat ∧ 42 ∈ pat)
    (hd : d = [] ∨ d.getLast? = some 92) (hdir : E.isDir (d ++ pat) = false) (hr : E.readable d = true) (h : Hit) :
    h ∈ searchFiles E (d ++ pat) true ↔
      ∃ ds x, Below (E.list d) ds x ∧ E.m pat x.name = true ∧ h = hitOf (d ++ pathStr ds) x := by
  unfold searchFiles
  dsimp only
  rw [if_neg (by rw [hdir]; simp), upToLast_split d pat hp.1 hd, List.drop_left, searchWin_rec, hr, mem_map_toHit]
  constructor
  · rintro ⟨ds, x, h1, h2⟩
    obtain ⟨h3, h4, _⟩ := (mem_walk_iff hstar).mp h1
    exact ⟨ds, x, h3, h4, h2⟩
  · rintro ⟨ds, x, h1, h2, h3⟩
    exact ⟨ds, x, (mem_walk_iff hstar).mpr ⟨h1, h2, .inl hp.2⟩, h3⟩

theorem mem_firstPass_flat {m : Str → Str → Bool} {dir pat : Str} {reset : Bool} {es : List Node} {h : Hit} :
    h ∈ firstPass m dir pat false reset es ↔ ∃ x ∈ es, Real x ∧ m pat x.name = true ∧ h = hitOf dir x := by
  induction es with
  | nil => simp [firstPass]
  | cons e es ih =>
    cases e with
    | file n t s =>
      rw [firstPass, List.mem_append, ih]
      constructor
      · rintro (h | ⟨x, h1, h2⟩)
        · split at h
          · rename_i hm
            obtain rfl := List.mem_singleton.mp h
            exact ⟨_, List.mem_cons_self, trivial, hm, rfl⟩
          · cases h
        · exact ⟨x, List.mem_cons_of_mem _ h1, h2⟩
      · rintro ⟨x, h1, h2, h3, h4⟩
        rcases List.mem_cons.mp h1 with rfl | h1
        · have h3 : m pat n = true := h3
          rw [if_pos h3]
          exact .inl (List.mem_singleton.mpr h4)
        · exact .inr ⟨x, h1, h2, h3, h4⟩
    | dir n t r sub =>
      rw [firstPass, List.mem_append, ih]
      constructor
      · rintro (h | ⟨x, h1, h2⟩)
        · split at h
          · rename_i hm
            rw [Bool.and_eq_true] at hm
            rw [if_neg (by simp)] at h
            obtain rfl := List.mem_singleton.mp h
            exact ⟨_, List.mem_cons_self, hm.2, hm.1, rfl⟩
          · cases h
        · exact ⟨x, List.mem_cons_of_mem _ h1, h2⟩
      · rintro ⟨x, h1, h2, h3, h4⟩
        rcases List.mem_cons.mp h1 with rfl | h1
        · have h2 : regular n = true := h2
          have h3 : m pat n = true := h3
          refine .inl ?_
          rw [if_pos (by rw [Bool.and_eq_true]; exact ⟨h3, h2⟩), if_neg (by simp)]
          exact List.mem_singleton.mpr h4
        · exact .inr ⟨x, h1, h2, h3, h4⟩

/-- **C145** A search that is not recursive reports the matching entries of the one directory, and nothing for a source that is itself a
directory. -/
theorem C145_not_recursive (E : Env) :
    (∀ src, E.isDir src = true → searchFiles E src false = []) ∧
    (∀ (d pat : Str) (h : Hit), 92 ∉ pat → pat ≠ [] → (d = [] ∨ d.getLast? = some 92) → E.isDir (d ++ pat) = false → E.readable d = true →
      (h ∈ searchFiles E (d ++ pat) false ↔ ∃ x ∈ E.list d, Real x ∧ E.m pat x.name = true ∧ h = hitOf d x)) := by
  constructor
  · intro src hdir
    unfold searchFiles
    dsimp only
    rw [if_pos hdir, if_pos (by simp)]
    rfl
  · intro d pat h hp hp2 hd hdir hr
    unfold searchFiles
    dsimp only
    rw [if_neg (by rw [hdir]; simp), upToLast_split d pat hp hd, List.drop_left]
    unfold searchWin
    rw [if_neg (by simp [hp2]), hr, if_pos rfl, if_neg (by simp), List.append_nil]
    exact mem_firstPass_flat

/-- **C145** (partial) Nothing is reported twice: a directory in either way of writing it, and a pattern provided that no directory has a
name that matches it. The full claim drops the proviso; `C145_twice_violated` refutes it. -/
theorem C145_once_partial (E : Env) (hstar : ∀ n, E.m [42] n = true) (src : Str)
    (hwf : ∀ d, Distinct (E.list d) ∧ Named (E.list d))
    (hreset : E.isDir src = true → 42 ∉ src)
    (hpat : E.isDir src = false → 42 ∈ src.drop (upToLast src).length →
      NoDirMatches E.m (src.drop (upToLast src).length) (E.list (upToLast src))) :
    ((searchFiles E src true).map Hit.path).Nodup := by
  unfold searchFiles
  dsimp only
  split
  · rename_i hdir
    rw [if_neg (by simp)]
    have hno := hreset hdir
    split
    · rw [searchWin_rec]
      refine nodup_paths (hwf src).2 src (fun p hp => below_of_walk hstar (by simp) hp) (nodup_walk (hwf src).1 ?_)
      intro h
      simp [separatePass] at h
    · have hno' : 42 ∉ src.drop (upToLast src).length := fun h => hno (List.mem_of_mem_drop h)
      rw [searchWin_rec]
      refine nodup_paths (hwf _).2 _ (fun p hp => below_of_walk hstar (fun _ => hno') hp) (nodup_walk (hwf _).1 ?_)
      intro h
      unfold separatePass at h
      simp [hno'] at h
  · rename_i hdir
    have hdir : E.isDir src = false := by simpa using hdir
    rw [searchWin_rec]
    refine nodup_paths (hwf _).2 _ (fun p hp => below_of_walk hstar (by simp) hp) (nodup_walk (hwf _).1 ?_)
    intro h
    unfold separatePass at h
    simp only [Bool.and_eq_true, decide_eq_true_eq] at h
    exact ⟨rfl, hpat hdir h.2⟩

/-! ### Examples -/

def str (s : String) : Str := s.toList.map (·.toNat.toUInt8)

/-- `*` matches everything, `*.txt` what ends in `.txt`, `a?` two characters with an `a` first, and other patterns themselves: the part
of the matching of Windows that the examples need. -/
def exMatch (pat n : Str) : Bool :=
  if pat = str "*" then true
  else if pat = str "*.txt" then decide (n.drop (n.length - 4) = str ".txt")
  else if pat = str "a?" then decide (n.length = 2 ∧ n.head? = some 97)
  else decide (pat = n)

def exTree : List Node :=
  [.dir (str ".") 0 true [], .dir (str "..") 0 true [],
   .dir (str "sub") 5 true [.file (str "b.txt") 6 20, .dir (str "deep") 7 true [.file (str "c.txt") 8 30]],
   .file (str "a.txt") 4 10]

def exEnv (t : List Node) : Env where
  m := exMatch
  isDir s := decide (s = str "C:\\d\\" ∨ s = str "C:\\d\\sub")
  readable _ := true
  list s := if s = str "C:\\d\\" then t else []

theorem exEnv_list (t : List Node) : (exEnv t).list (str "C:\\d\\") = t := by
  unfold exEnv
  dsimp only
  rw [if_pos rfl]

example : searchFiles (exEnv exTree) (str "C:\\d\\") true =
    [⟨str "C:\\d\\", str "sub", 5, 0, true⟩, ⟨str "C:\\d\\sub\\", str "b.txt", 6, 20, false⟩,
     ⟨str "C:\\d\\sub\\", str "deep", 7, 0, true⟩, ⟨str "C:\\d\\sub\\deep\\", str "c.txt", 8, 30, false⟩,
     ⟨str "C:\\d\\", str "a.txt", 4, 10, false⟩] := by decide +kernel

example : (searchFiles (exEnv exTree) (str "C:\\d\\sub") true).map Hit.path =
    [str "C:\\d\\sub", str "C:\\d\\sub\\b.txt", str "C:\\d\\sub\\deep", str "C:\\d\\sub\\deep\\c.txt"] := by decide +kernel

example : (searchFiles (exEnv exTree) (str "C:\\d\\*.txt") true).map Hit.path =
    [str "C:\\d\\a.txt", str "C:\\d\\sub\\b.txt", str "C:\\d\\sub\\deep\\c.txt"] := by decide +kernel

example : (searchFiles (exEnv exTree) (str "C:\\d\\*.txt") false).map Hit.path = [str "C:\\d\\a.txt"] := by decide +kernel

/-- **C145** (violated) A directory whose own name matches the pattern is searched in both loops: what is in it is reported twice. -/
theorem C145_twice_violated :
    ∃ (E : Env) (src : Str), (∀ n, E.m [42] n = true) ∧ E.isDir src = false ∧
      ((searchFiles E src true).map Hit.path).count (str "C:\\d\\sub.txt\\b.txt") = 2 :=
  ⟨exEnv [.dir (str "sub.txt") 5 true [.file (str "b.txt") 6 20]], str "C:\\d\\*.txt", fun n => by
    show exMatch [42] n = true
    unfold exMatch
    rw [if_pos (by decide)], by decide, by decide +kernel⟩

/-- **C145** (violated) A recursive search for a pattern with a `?` and no `*` does not look into the subdirectories. -/
theorem C145_question_mark_violated :
    ∃ (E : Env) (src : Str), E.isDir src = false ∧ (∃ x, Below (E.list (str "C:\\d\\")) [str "sub"] x ∧ E.m (str "a?") x.name = true) ∧
      src = str "C:\\d\\a?" ∧ (searchFiles E src true).map Hit.path = [str "C:\\d\\a1"] := by
  refine ⟨exEnv [.file (str "a1") 1 1, .dir (str "sub") 5 true [.file (str "a2") 6 20]], str "C:\\d\\a?", by decide,
    ⟨.file (str "a2") 6 20, ?_, by decide +kernel⟩, rfl, by decide +kernel⟩
  refine below_cons.mpr ⟨5, [.file (str "a2") 6 20], ?_, by decide, below_nil.mpr ⟨List.mem_cons_self, trivial⟩⟩
  rw [exEnv_list]
  simp

/-! ## C146: a directory that cannot be read -/

/-- The same tree with every unreadable directory replaced by an empty one. -/
def blank : List Node → List Node
  | [] => []
  | .file n t s :: es => .file n t s :: blank es
  | .dir n t r sub :: es => .dir n t true (if r then blank sub else []) :: blank es

mutual
theorem firstPass_blank (m : Str → Str → Bool) (dir pat : Str) (recursive reset : Bool) : (es : List Node) →
    firstPass m dir pat recursive reset (blank es) = firstPass m dir pat recursive reset es
  | [] => by rw [blank]
  | .file n t s :: es => by rw [blank, firstPass, firstPass, firstPass_blank m dir pat recursive reset es]
  | .dir n t r sub :: es => by
    rw [blank, firstPass, firstPass, firstPass_blank m dir pat recursive reset es]
    cases r with
    | false => simp [firstPass, secondPass]
    | true =>
      simp only [if_true]
      rw [firstPass_blank m _ _ true false sub, secondPass_blank m _ _ false sub]

theorem secondPass_blank (m : Str → Str → Bool) (dir pat : Str) (reset : Bool) : (es : List Node) →
    secondPass m dir pat reset (blank es) = secondPass m dir pat reset es
  | [] => by rw [blank]
  | .file n t s :: es => by rw [blank, secondPass, secondPass, secondPass_blank m dir pat reset es]
  | .dir n t r sub :: es => by
    rw [blank, secondPass, secondPass, secondPass_blank m dir pat reset es]
    cases r with
    | false => simp [firstPass, secondPass]
    | true =>
      simp only [if_true]
      rw [firstPass_blank m _ _ true false sub, secondPass_blank m _ _ false sub]
end

theorem searchWin_blank (m : Str → Str → Bool) (dir pat : Str) (recursive reset readable : Bool) (es : List Node) :
    searchWin m dir pat recursive reset true (if readable then blank es else []) = searchWin m dir pat recursive reset readable es := by
  unfold searchWin
  cases readable with
  | false => simp [firstPass, secondPass]
  | true => simp only [if_true]; rw [firstPass_blank, secondPass_blank]

/-- **C146** (violated) A source directory that cannot be read is not told from an empty one: for every tree and source the search
succeeds with the very reports it gives for the tree in which the unreadable directories are empty. -/
theorem C146_unreadable_violated (E : Env) (src : Str) (recursive : Bool) :
    searchFiles E src recursive =
      searchFiles { E with readable := fun _ => true, list := fun d => if E.readable d then blank (E.list d) else [] } src recursive := by
  unfold searchFiles
  dsimp only
  rw [searchWin_blank, searchWin_blank, searchWin_blank, searchWin_blank]

/-- An example in which something is lost. -/
example : (searchFiles (exEnv [.dir (str "sub") 5 false [.file (str "b.txt") 6 20], .file (str "a.txt") 4 10]) (str "C:\\d\\") true).map
      Hit.path = [str "C:\\d\\sub", str "C:\\d\\a.txt"] ∧
    (searchFiles (exEnv [.dir (str "sub") 5 true [], .file (str "a.txt") 4 10]) (str "C:\\d\\") true).map
      Hit.path = [str "C:\\d\\sub", str "C:\\d\\a.txt"] := by decide +kernel

/-- All directories below can be read. -/
def AllReadable (es : List Node) : Prop := ∀ ds n t r sub, Below es ds (.dir n t r sub) → r = true

/-- The directory reached through `ds`, whether the directories on the way can be read or not. -/
inductive Really : List Node → List Str → Node → Prop where
  | here {es x} : x ∈ es → Real x → Really es [] x
  | down {es n t r sub ds x} : Node.dir n t r sub ∈ es → regular n = true → Really sub ds x → Really es (n :: ds) x

/-- **C146** (partial) If all directories can be read, the search of a directory reports everything that is in it. -/
theorem C146_readable_partial (E : Env) (hstar : ∀ n, E.m [42] n = true) (src : Str) (hdir : E.isDir src = true)
    (hsep : src.getLast? = some 92) (hr : E.readable src = true) (hall : AllReadable (E.list src)) (ds : List Str) (x : Node)
    (hx : Really (E.list src) ds x) : hitOf (src ++ pathStr ds) x ∈ searchFiles E src true := by
  refine (C145_directory E hstar src hdir hsep hr _).mpr ⟨ds, x, ?_, rfl⟩
  generalize E.list src = es at hall hx
  induction hx with
  | here h1 h2 => exact below_nil.mpr ⟨h1, h2⟩
  | @down es n t r sub ds x h1 h2 _ ih =>
    have : r = true := hall [] n t r sub (below_nil.mpr ⟨h1, h2⟩)
    subst this
    refine below_cons.mpr ⟨t, sub, h1, h2, ih fun ds' n' t' r' sub' hb => ?_⟩
    exact hall (n :: ds') n' t' r' sub' (below_cons.mpr ⟨t, sub, h1, h2, hb⟩)

end Verif.Sync.Search
