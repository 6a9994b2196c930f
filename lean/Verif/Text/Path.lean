/-! # C46: joining and splitting paths (common/path.cc)

Paths are byte strings. -/
namespace Verif.Text.Path

abbrev Str := List UInt8

/-- `/` and `\` (`kPathSeparators`, common/path.cc:59). -/
def isSep (c : UInt8) : Bool := c == 47 || c == 92

/-- `PathSeparator` and `OtherPathSeparator`, common/path.h:53-68. -/
def native (windows : Bool) : UInt8 := if windows then 92 else 47
def other (windows : Bool) : UInt8 := if windows then 47 else 92

/-- Position of the last character for which `p` holds (`find_last_of`, `find_last_not_of` of `std::string`). -/
def findLast (p : UInt8 → Bool) : Str → Option Nat
  | [] => none
  | c :: s => match findLast p s with
    | some i => some (i + 1)
    | none => if p c then some 0 else none

/-- The part of the string a search that starts at `pos` looks at; `none` is `npos`. -/
def upTo (s : Str) : Option Nat → Str
  | none => s
  | some pos => s.take (pos + 1)

/-- `NeedsPathSep`, common/path.cc:72-76. -/
def needsSep (s : Str) : Bool := match s.getLast? with
  | none => false
  | some c => ! isSep c

/-- `JoinImpl`, common/path.cc:78-88. -/
def joinWith (sep : UInt8) (path append : Str) : Str :=
  if append = [] then path else (if needsSep path then path ++ [sep] else path) ++ append

/-- `Join`, common/path.cc:426-429. -/
def join (windows : Bool) (path append : Str) : Str := joinWith (native windows) path append

/-- `GetDrivePrefix`, common/path.cc:290-327; `find` with a start position. -/
def findFrom (c : UInt8) (s : Str) (pos : Nat) : Option Nat := ((s.drop pos).findIdx? (· == c)).map (· + pos)

def drivePrefix (path : Str) : Str :=
  match path with
  | [] => []
  | c :: rest =>
    if c ≠ 92 then
      (if findFrom 58 path 0 = some 1 then path.take 2 else [])
    else match rest with
      | [] => []
      | c1 :: _ =>
        if c1 ≠ 92 then [] else
        match findFrom 92 path 2 with
        | none => []
        | some third =>
          if third < 3 ∨ path.length = third + 1 then [] else
          match findFrom 92 path (third + 1) with
          | none => path
          | some fourth => if fourth < third + 2 then [] else path.take fourth

/-- `DirName`, common/path.cc:374-398; the drive prefix is empty on Linux. -/
def dirNameWith (drive path : Str) : Str :=
  if path = [] then [] else
  let dirpart := path.drop drive.length
  let nonSep := findLast (fun c => ! isSep c) dirpart
  match findLast isSep (upTo dirpart nonSep) with
  | none => drive
  | some sepPos =>
    if nonSep = none then path
    else match findLast (fun c => ! isSep c) (upTo dirpart (some sepPos)) with
      | none => path.take (drive.length + sepPos + 1)
      | some e => path.take (drive.length + e + 1)

def dirName (path : Str) : Str := dirNameWith [] path
def dirNameWindows (path : Str) : Str := dirNameWith (drivePrefix path) path

/-- `BaseName`, common/path.cc:400-408. -/
def baseName (path : Str) : Str :=
  if path = [] then [] else
  let nonSep := findLast (fun c => ! isSep c) path
  match findLast isSep (upTo path nonSep), nonSep with
  | some sepPos, some e => (path.drop (sepPos + 1)).take (e - sepPos)
  | some sepPos, none => (path.drop (sepPos + 1)).take (path.length - 1 - sepPos)
  | none, some e => path.take (e + 1)
  | none, none => path.take (path.length - 1 + 1)

/-- `EndsWithPathSeparator`, common/path.cc:445-448. -/
def endsWithSep (s : Str) : Bool := match s.getLast? with
  | none => false
  | some c => isSep c

/-- `EnsureEndsWithPathSeparator`, common/path.cc:450-454. -/
def ensureEndsWithSep (windows : Bool) (s : Str) : Str := if endsWithSep s then s else s ++ [native windows]

/-- `EnsureDoesNotEndWithPathSeparator`, common/path.cc:456-460. -/
def ensureNoSepAtEnd (s : Str) : Str := if endsWithSep s then ensureNoSepAtEnd s.dropLast else s
termination_by s.length
decreasing_by
  cases s with
  | nil => simp [endsWithSep] at *
  | cons => simp

/-- `FixPathSeparators` and `ToNative`, common/path.cc:462-465, 472-475. -/
def toNative (windows : Bool) (s : Str) : Str := s.map fun c => if c = other windows then native windows else c

/-- `ToUnix`, common/path.cc:467-470. -/
def toUnix (s : Str) : Str := s.map fun c => if c = 92 then 47 else c

/-! ### Specification -/

/-- Adds a component if it is not empty. -/
def flush (cur : Str) : List Str := if cur = [] then [] else [cur]

def componentsFrom (cur : Str) : Str → List Str
  | [] => flush cur
  | c :: s => if isSep c then flush cur ++ componentsFrom [] s else componentsFrom (cur ++ [c]) s

/-- The components of a path: the non-empty strings between separators. -/
def components (s : Str) : List Str := componentsFrom [] s

/-- A path that starts with a separator. -/
def rooted (s : Str) : Prop := ∃ c t, s = c :: t ∧ isSep c = true

def NoSep (s : Str) : Prop := ∀ c ∈ s, isSep c = false
def AllSep (s : Str) : Prop := ∀ c ∈ s, isSep c = true

/-! ### Proof -/

theorem findLast_none {p : UInt8 → Bool} {s : Str} (h : ∀ c ∈ s, p c = false) : findLast p s = none := by
  induction s with
  | nil => rfl
  | cons c s ih =>
    unfold findLast
    rw [ih fun x hx => h x (by simp [hx])]
    simp [h c (by simp)]

theorem findLast_some {p : UInt8 → Bool} {a b : Str} {c : UInt8} (hc : p c = true) (hb : ∀ x ∈ b, p x = false) :
    findLast p (a ++ c :: b) = some a.length := by
  induction a with
  | nil => simp [findLast, findLast_none hb, hc]
  | cons x a ih => simp [findLast, ih]

theorem sep_append (s b : Str) (hb : ∀ x ∈ b, isSep x = true) (hs : s ≠ []) (hl : ∀ c, s.getLast? = some c → isSep c = false) :
    findLast (fun c => ! isSep c) (s ++ b) = some (s.length - 1) := by
  obtain ⟨t, c, rfl⟩ : ∃ t c, s = t ++ [c] := ⟨s.dropLast, s.getLast hs, (List.dropLast_concat_getLast hs).symm⟩
  have := hl c (by simp)
  rw [List.append_assoc, List.singleton_append, findLast_some (by simp [this]) (fun x hx => by simp [hb x hx])]
  simp

theorem split_trailing (p : UInt8 → Bool) (s : Str) : ∃ a b, s = a ++ b ∧ (∀ c ∈ b, p c = true) ∧ ∀ c, a.getLast? = some c → p c = false := by
  induction s with
  | nil => exact ⟨[], [], rfl, by simp, by simp⟩
  | cons x s ih =>
    obtain ⟨a, b, rfl, hb, ha⟩ := ih
    cases a with
    | nil =>
      cases hx : p x with
      | true => exact ⟨[], x :: b, rfl, by simpa [hx] using hb, by simp⟩
      | false => exact ⟨[x], b, rfl, hb, by simp [hx]⟩
    | cons y a => exact ⟨x :: y :: a, b, rfl, hb, by simpa using ha⟩

/-- Every path is directory, separators, base name, separators. -/
theorem anatomy (s : Str) : ∃ d m n t, s = d ++ (m ++ (n ++ t)) ∧ AllSep t ∧ NoSep n ∧ AllSep m ∧
    (n = [] → m = [] ∧ d = []) ∧ (m = [] → d = []) ∧ ∀ c, d.getLast? = some c → isSep c = false := by
  obtain ⟨a, t, rfl, ht, ha⟩ := split_trailing isSep s
  obtain ⟨b, n, rfl, hn, hb⟩ := split_trailing (fun c => ! isSep c) a
  obtain ⟨d, m, rfl, hm, hd⟩ := split_trailing isSep b
  refine ⟨d, m, n, t, by simp, ht, fun c hc => by simpa using hn c hc, hm, ?_, ?_, hd⟩
  · rintro rfl
    rw [List.append_nil] at ha
    cases hx : (d ++ m).getLast? with
    | none => simpa [and_comm] using hx
    | some c =>
      have h1 := hb c hx
      rw [ha c hx] at h1; cases h1
  · rintro rfl
    rw [List.append_nil] at hb
    cases hx : d.getLast? with
    | none => simpa using hx
    | some c =>
      have h1 := hb c hx
      rw [hd c hx] at h1; cases h1

theorem take_left' (a b : Str) (n : Nat) (h : n = a.length) : (a ++ b).take n = a := by subst h; simp

/-- `DirName` and `BaseName` computed on the parts of a path. -/
theorem dirName_parts {drive d m n t : Str} (ht : AllSep t) (hn : NoSep n) (hm : AllSep m) (hn0 : n ≠ []) (hm0 : m = [] → d = [])
    (hd : ∀ c, d.getLast? = some c → isSep c = false) :
    dirNameWith drive (drive ++ (d ++ (m ++ (n ++ t)))) = drive ++ (if d = [] then m else d) := by
  unfold dirNameWith
  have hnl : ∀ c, n.getLast? = some c → isSep c = false := fun c hc => hn c (List.mem_of_getLast? hc)
  rw [if_neg (show ¬ (drive ++ (d ++ (m ++ (n ++ t))) = []) by simp [hn0]), List.drop_left]
  have h1 : findLast (fun c => ! isSep c) (d ++ (m ++ (n ++ t))) = some (d.length + m.length + n.length - 1) := by
    have := sep_append (d ++ (m ++ n)) t ht (by simp [hn0]) (fun c hc => by
      rw [List.getLast?_append, List.getLast?_append] at hc
      rw [List.getLast?_eq_some_getLast hn0] at hc
      simp at hc
      exact hnl c (by rw [List.getLast?_eq_some_getLast hn0, hc]))
    simpa [List.append_assoc, Nat.add_assoc] using this
  have hlen : 0 < n.length := List.length_pos_iff.mpr hn0
  dsimp only
  rw [h1]
  have h2 : upTo (d ++ (m ++ (n ++ t))) (some (d.length + m.length + n.length - 1)) = d ++ (m ++ n) := by
    show (d ++ (m ++ (n ++ t))).take _ = _
    rw [show d ++ (m ++ (n ++ t)) = (d ++ (m ++ n)) ++ t by simp]
    exact take_left' _ _ _ (by simp; omega)
  rw [h2]
  by_cases hm1 : m = []
  · have hd1 := hm0 hm1
    subst hm1; subst hd1
    rw [List.nil_append, List.nil_append, findLast_none (fun c hc => hn c hc)]
    simp
  · obtain ⟨m', c, rfl⟩ : ∃ t c, m = t ++ [c] := ⟨m.dropLast, m.getLast hm1, (List.dropLast_concat_getLast hm1).symm⟩
    have hc : isSep c = true := hm c (by simp)
    rw [show d ++ ((m' ++ [c]) ++ n) = (d ++ m') ++ c :: n by simp, findLast_some hc (fun x hx => hn x hx)]
    dsimp only
    rw [if_neg (by simp)]
    have h3 : upTo (d ++ ((m' ++ [c]) ++ (n ++ t))) (some (d ++ m').length) = d ++ (m' ++ [c]) := by
      show (d ++ ((m' ++ [c]) ++ (n ++ t))).take _ = _
      rw [show d ++ ((m' ++ [c]) ++ (n ++ t)) = (d ++ (m' ++ [c])) ++ (n ++ t) by simp]
      exact take_left' _ _ _ (by simp; omega)
    rw [h3]
    by_cases hd1 : d = []
    · subst hd1
      rw [List.nil_append, findLast_none (fun x hx => by simp [hm x hx]), if_pos rfl]
      dsimp only
      rw [show drive ++ ([] ++ ((m' ++ [c]) ++ (n ++ t))) = (drive ++ (m' ++ [c])) ++ (n ++ t) by simp]
      exact take_left' _ _ _ (by simp; omega)
    · rw [sep_append d (m' ++ [c]) hm hd1 hd, if_neg hd1]
      dsimp only
      have := List.length_pos_iff.mpr hd1
      rw [show drive ++ (d ++ ((m' ++ [c]) ++ (n ++ t))) = (drive ++ d) ++ ((m' ++ [c]) ++ (n ++ t)) by simp]
      exact take_left' _ _ _ (by simp; omega)

theorem baseName_parts {d m n t : Str} (ht : AllSep t) (hn : NoSep n) (hm : AllSep m) (hn0 : n ≠ []) (hm0 : m = [] → d = []) :
    baseName (d ++ (m ++ (n ++ t))) = n := by
  unfold baseName
  have hnl : ∀ c, n.getLast? = some c → isSep c = false := fun c hc => hn c (List.mem_of_getLast? hc)
  rw [if_neg (show ¬ (d ++ (m ++ (n ++ t)) = []) by simp [hn0])]
  have h1 : findLast (fun c => ! isSep c) (d ++ (m ++ (n ++ t))) = some (d.length + m.length + n.length - 1) := by
    have := sep_append (d ++ (m ++ n)) t ht (by simp [hn0]) (fun c hc => by
      rw [List.getLast?_append, List.getLast?_append] at hc
      rw [List.getLast?_eq_some_getLast hn0] at hc
      simp at hc
      exact hnl c (by rw [List.getLast?_eq_some_getLast hn0, hc]))
    simpa [List.append_assoc, Nat.add_assoc] using this
  have hlen : 0 < n.length := List.length_pos_iff.mpr hn0
  dsimp only
  rw [h1]
  have h2 : upTo (d ++ (m ++ (n ++ t))) (some (d.length + m.length + n.length - 1)) = d ++ (m ++ n) := by
    show (d ++ (m ++ (n ++ t))).take _ = _
    rw [show d ++ (m ++ (n ++ t)) = (d ++ (m ++ n)) ++ t by simp]
    exact take_left' _ _ _ (by simp; omega)
  rw [h2]
  by_cases hm1 : m = []
  · have hd1 := hm0 hm1
    subst hm1; subst hd1
    rw [List.nil_append, List.nil_append, findLast_none (fun c hc => hn c hc)]
    refine take_left' n t _ ?_
    have : ([] : Str).length = 0 := rfl
    omega
  · obtain ⟨m', c, rfl⟩ : ∃ t c, m = t ++ [c] := ⟨m.dropLast, m.getLast hm1, (List.dropLast_concat_getLast hm1).symm⟩
    have hc : isSep c = true := hm c (by simp)
    rw [show d ++ ((m' ++ [c]) ++ n) = (d ++ m') ++ c :: n by simp, findLast_some hc (fun x hx => hn x hx)]
    dsimp only
    rw [show d ++ ((m' ++ [c]) ++ (n ++ t)) = (d ++ (m' ++ [c])) ++ (n ++ t) by simp,
      List.drop_left' (by simp; omega)]
    exact take_left' _ _ _ (by simp; omega)

theorem componentsFrom_append_sep (cur a b : Str) {c : UInt8} (hc : isSep c = true) :
    componentsFrom cur (a ++ c :: b) = componentsFrom cur a ++ components b := by
  induction a generalizing cur with
  | nil => simp [componentsFrom, hc, components]
  | cons x a ih =>
    simp only [List.cons_append, componentsFrom]
    split
    · rw [ih, List.append_assoc]
    · exact ih _

theorem components_append_sep (a b : Str) {c : UInt8} (hc : isSep c = true) : components (a ++ c :: b) = components a ++ components b :=
  componentsFrom_append_sep [] a b hc

theorem componentsFrom_noSep {cur n : Str} (hn : NoSep n) : componentsFrom cur n = flush (cur ++ n) := by
  induction n generalizing cur with
  | nil => simp [componentsFrom]
  | cons c n ih =>
    simp only [componentsFrom, hn c (by simp), Bool.false_eq_true, if_false]
    rw [ih fun x hx => hn x (by simp [hx])]
    simp

theorem components_noSep {n : Str} (hn : NoSep n) : components n = flush n := by
  simpa [components] using componentsFrom_noSep (cur := []) hn

theorem components_allSep_append {m : Str} (hm : AllSep m) (b : Str) : components (m ++ b) = components b := by
  induction m with
  | nil => rfl
  | cons c m ih =>
    have := components_append_sep [] (m ++ b) (hm c (by simp))
    rw [List.nil_append] at this
    rw [List.cons_append, this, ih fun x hx => hm x (by simp [hx])]
    rfl

theorem components_allSep {m : Str} (hm : AllSep m) : components m = [] := by
  have := components_allSep_append hm []
  rw [List.append_nil] at this
  rw [this]; rfl

theorem components_append_allSep {m : Str} (hm : AllSep m) (a : Str) : components (a ++ m) = components a := by
  cases m with
  | nil => rw [List.append_nil]
  | cons c m =>
    rw [components_append_sep _ _ (hm c (by simp)), components_allSep (m := m) (fun x hx => hm x (by simp [hx])), List.append_nil]

/-- Directory, separators, base name, separators: the components. -/
theorem components_parts {d m n t : Str} (ht : AllSep t) (hn : NoSep n) (hm : AllSep m) (hn0 : n ≠ []) (hm0 : m = [] → d = []) :
    components (d ++ (m ++ (n ++ t))) = components d ++ [n] := by
  have hnt : components (n ++ t) = [n] := by
    rw [components_append_allSep ht, components_noSep hn]; simp [flush, hn0]
  cases m with
  | nil => rw [hm0 rfl, List.nil_append, List.nil_append, hnt]; rfl
  | cons c m =>
    rw [List.cons_append, components_append_sep _ _ (hm c (by simp)), components_allSep_append (fun x hx => hm x (by simp [hx])), hnt]

theorem exists_parts {p : Str} (h : components p ≠ []) : ∃ d m n t, p = d ++ (m ++ (n ++ t)) ∧ AllSep t ∧ NoSep n ∧ AllSep m ∧
    n ≠ [] ∧ (m = [] → d = []) ∧ ∀ c, d.getLast? = some c → isSep c = false := by
  obtain ⟨d, m, n, t, rfl, ht, hn, hm, h0, hm0, hd⟩ := anatomy p
  refine ⟨d, m, n, t, rfl, ht, hn, hm, ?_, hm0, hd⟩
  intro e
  obtain ⟨rfl, rfl⟩ := h0 e
  subst e
  exact h (by rw [List.nil_append, List.nil_append, List.nil_append]; exact components_allSep ht)

/-- C46: the directory name has all components but the last, the base name is the last. -/
theorem C46_split_path (p : Str) (h : components p ≠ []) : components p = components (dirName p) ++ [baseName p] := by
  obtain ⟨d, m, n, t, rfl, ht, hn, hm, hn0, hm0, hd⟩ := exists_parts h
  have h1 := dirName_parts (drive := []) ht hn hm hn0 hm0 hd
  rw [List.nil_append, List.nil_append] at h1
  rw [dirName, h1, baseName_parts ht hn hm hn0 hm0, components_parts ht hn hm hn0 hm0]
  congr 1
  split
  · next e => subst e; rw [components_allSep hm]; rfl
  · rfl

/-- C46: the directory name of an absolute path is absolute, that of a relative path is relative. -/
theorem C46_split_keeps_root (p : Str) (h : components p ≠ []) : rooted (dirName p) ↔ rooted p := by
  obtain ⟨d, m, n, t, rfl, ht, hn, hm, hn0, hm0, hd⟩ := exists_parts h
  have h1 := dirName_parts (drive := []) ht hn hm hn0 hm0 hd
  rw [List.nil_append, List.nil_append] at h1
  rw [dirName, h1]
  cases d with
  | cons c d => simp [rooted]
  | nil =>
    cases m with
    | cons c m => simp [rooted]
    | nil =>
      cases n with
      | nil => exact absurd rfl hn0
      | cons c n => simp [rooted, hn c (by simp)]

/-- C46: the components of a joined path are those of the two parts. -/
theorem C46_join_components (windows : Bool) (a b : Str) : components (join windows a b) = components a ++ components b := by
  have hs : isSep (native windows) = true := by cases windows <;> rfl
  unfold join joinWith
  by_cases hb : b = []
  · subst hb; simp [components, componentsFrom, flush]
  rw [if_neg hb]
  unfold needsSep
  cases ha : a.getLast? with
  | none =>
    have : a = [] := by simpa using ha
    subst this
    simp [components, componentsFrom, flush]
  | some c =>
    obtain ⟨a', rfl⟩ : ∃ t, a = t ++ [c] := by
      have hne : a ≠ [] := by rintro rfl; cases ha
      refine ⟨a.dropLast, ?_⟩
      rw [List.getLast?_eq_some_getLast hne] at ha
      cases ha
      exact (List.dropLast_concat_getLast hne).symm
    dsimp only
    rcases Bool.eq_false_or_eq_true (isSep c) with hc | hc
    · simp only [hc, Bool.not_true, Bool.false_eq_true, if_false]
      rw [List.append_assoc, List.singleton_append, components_append_sep _ _ hc, components_append_sep _ _ hc]
      simp [components, componentsFrom, flush]
    · simp only [hc, Bool.not_false, if_true]
      rw [List.append_assoc (a' ++ [c]), List.singleton_append, components_append_sep _ _ hs]

theorem join_parts (windows : Bool) (a n : Str) (hn : n ≠ []) : ∃ d m, join windows a n = d ++ (m ++ (n ++ [])) ∧ AllSep m ∧
    (m = [] → d = []) ∧ (∀ c, d.getLast? = some c → isSep c = false) ∧ a = d ++ (if a.getLast?.map isSep = some false then [] else m) := by
  have hs : isSep (native windows) = true := by cases windows <;> rfl
  obtain ⟨d, m, rfl, hm, hd⟩ := split_trailing isSep a
  unfold join joinWith
  rw [if_neg hn]
  cases hm1 : m with
  | nil =>
    subst hm1
    rw [List.append_nil]
    cases hx : d.getLast? with
    | none =>
      have : d = [] := by simpa using hx
      subst this
      exact ⟨[], [], by simp [needsSep], (by intro c hc; cases hc), by simp, by simp, by simp⟩
    | some c =>
      have hc := hd c hx
      refine ⟨d, [native windows], ?_, ?_, by simp, hd, by simp [hc]⟩
      · simp [needsSep, hx, hc]
      · intro x hx'; rw [List.mem_singleton.mp hx']; exact hs
  | cons c m' =>
    have hl : (d ++ m).getLast? = m.getLast? := by
      rw [List.getLast?_append, hm1, List.getLast?_eq_some_getLast (by simp)]; rfl
    have hne : m ≠ [] := by rw [hm1]; simp
    have hsl : isSep (m.getLast hne) = true := hm _ (List.getLast_mem hne)
    rw [← hm1]
    refine ⟨d, m, ?_, hm, fun e => absurd e hne, hd, ?_⟩
    · unfold needsSep
      rw [hl, List.getLast?_eq_some_getLast hne]
      simp [hsl]
    · rw [hl, List.getLast?_eq_some_getLast hne]
      simp [hsl]

/-- C46: the base name of a joined path is the name joined. -/
theorem C46_basename_of_join (windows : Bool) (a n : Str) (hn : NoSep n) (hn0 : n ≠ []) : baseName (join windows a n) = n := by
  obtain ⟨d, m, h, hm, hm0, -, -⟩ := join_parts windows a n hn0
  rw [h]
  exact baseName_parts (by intro c hc; cases hc) hn hm hn0 hm0

/-- C46: the directory name of a joined path is the directory joined, without separators at its end. If the directory consists of
separators only (as the root directory), it is the directory itself. -/
theorem C46_dirname_of_join (windows : Bool) (a n : Str) (hn : NoSep n) (hn0 : n ≠ []) :
    ∃ t, AllSep t ∧ a = dirName (join windows a n) ++ t ∧ ((∃ c ∈ a, isSep c = false) → endsWithSep (dirName (join windows a n)) = false) ∧
      (AllSep a → dirName (join windows a n) = a) := by
  obtain ⟨d, m, h, hm, hm0, hd, ha⟩ := join_parts windows a n hn0
  have h1 := dirName_parts (drive := []) (t := []) (by intro c hc; cases hc) hn hm hn0 hm0 hd
  rw [List.nil_append, List.nil_append] at h1
  have h2 : dirName (join windows a n) = if d = [] then m else d := by rw [h]; exact h1
  rw [h2]
  by_cases hd0 : d = []
  · subst hd0
    rw [if_pos rfl]
    have ham : a = m := by
      by_cases hl : a.getLast?.map isSep = some false
      · rw [if_pos hl] at ha
        rw [ha] at hl; simp at hl
      · rw [if_neg hl] at ha; exact ha
    rw [ham]
    exact ⟨[], (by intro c hc; cases hc), by simp, fun ⟨c, hc, h⟩ => (by rw [hm c hc] at h; cases h), fun _ => rfl⟩
  · rw [if_neg hd0]
    have hdl : endsWithSep d = false := by
      unfold endsWithSep
      rw [List.getLast?_eq_some_getLast hd0]
      exact hd _ (List.getLast?_eq_some_getLast hd0)
    refine ⟨_, ?_, ha, fun _ => hdl, fun hall => ?_⟩
    · split
      · intro c hc; cases hc
      · exact hm
    · have : d.getLast hd0 ∈ a := by rw [ha]; exact List.mem_append_left _ (List.getLast_mem hd0)
      have h3 := hd _ (List.getLast?_eq_some_getLast hd0)
      rw [hall _ this] at h3; cases h3

theorem drivePrefix_prefix (p : Str) : ∃ rest, p = drivePrefix p ++ rest := by
  have hnil : ∃ rest, p = [] ++ rest := ⟨p, rfl⟩
  have htake : ∀ k, ∃ rest, p = p.take k ++ rest := fun k => ⟨p.drop k, (List.take_append_drop k p).symm⟩
  unfold drivePrefix
  split
  · exact ⟨[], rfl⟩
  · split
    · split
      · exact htake 2
      · exact hnil
    · split
      · exact hnil
      · split
        · exact hnil
        · split
          · exact hnil
          · split
            · exact hnil
            · split
              · exact ⟨[], by simp⟩
              · split
                · exact hnil
                · exact htake _

/-- C46 on Windows: the same for what follows the drive or network share, which is kept. -/
theorem C46_split_path_windows (p rest : Str) (hp : p = drivePrefix p ++ rest) (hr : components rest ≠ []) :
    dirNameWindows p = drivePrefix p ++ dirName rest ∧ (rooted rest ∨ drivePrefix p = [] → components rest = components (dirName rest) ++ [baseName p]) := by
  obtain ⟨d, m, n, t, rfl, ht, hn, hm, hn0, hm0, hd⟩ := exists_parts hr
  have h1 := dirName_parts (drive := []) ht hn hm hn0 hm0 hd
  have h2 := dirName_parts (drive := drivePrefix p) ht hn hm hn0 hm0 hd
  rw [← hp] at h2
  rw [List.nil_append, List.nil_append] at h1
  refine ⟨by rw [dirNameWindows, h2, dirName, h1], fun hroot => ?_⟩
  rw [C46_split_path _ hr, baseName_parts ht hn hm hn0 hm0]
  congr 2
  rcases hroot with hroot | hroot
  · have hm1 : m ≠ [] := by
      rintro rfl
      rw [hm0 rfl] at hroot
      obtain ⟨c, s, e, hc⟩ := hroot
      cases n with
      | nil => exact hn0 rfl
      | cons x n =>
        simp only [List.nil_append, List.cons_append, List.cons.injEq] at e
        rw [← e.1, hn x (by simp)] at hc; cases hc
    have := baseName_parts (d := drivePrefix p ++ d) ht hn hm hn0 (fun e => absurd e hm1)
    rw [List.append_assoc, ← hp] at this
    exact this.symm
  · rw [hroot, List.nil_append] at hp
    rw [hp, baseName_parts ht hn hm hn0 hm0]

theorem components_map {f : UInt8 → UInt8} (hf : ∀ c, isSep (f c) = isSep c) (hg : ∀ c, isSep c = false → f c = c) (s : Str) :
    components (s.map f) = components s := by
  have h : ∀ s cur, componentsFrom cur (s.map f) = componentsFrom cur s := by
    intro s
    induction s with
    | nil => intro cur; rfl
    | cons c s ih =>
      intro cur
      simp only [List.map_cons, componentsFrom, hf, ih]
      cases hc : isSep c with
      | true => rfl
      | false => rw [hg c hc]
  exact h s []

theorem ensureNoSepAtEnd_eq (s : Str) : ∃ t, AllSep t ∧ s = ensureNoSepAtEnd s ++ t ∧ endsWithSep (ensureNoSepAtEnd s) = false := by
  fun_induction ensureNoSepAtEnd s with
  | case1 s h ih =>
    obtain ⟨t, ht, he, h2⟩ := ih
    have hne : s ≠ [] := by rintro rfl; cases h
    have hc : isSep (s.getLast hne) = true := by
      unfold endsWithSep at h
      rw [List.getLast?_eq_some_getLast hne] at h
      exact h
    refine ⟨t ++ [s.getLast hne], ?_, ?_, h2⟩
    · intro c hc'
      rcases List.mem_append.mp hc' with h' | h'
      · exact ht c h'
      · rw [List.mem_singleton.mp h']; exact hc
    · rw [← List.append_assoc, ← he, List.dropLast_concat_getLast]
  | case2 s h => exact ⟨[], (by intro c hc; cases hc), by simp, by simpa using h⟩

/-- C46: adding or removing separators at the end and changing the kind of separators keep the components; the result is as
announced. -/
theorem C46_normalise (windows : Bool) (p : Str) :
    (components (ensureEndsWithSep windows p) = components p ∧ endsWithSep (ensureEndsWithSep windows p) = true) ∧
    (components (ensureNoSepAtEnd p) = components p ∧ endsWithSep (ensureNoSepAtEnd p) = false) ∧
    (components (toNative windows p) = components p ∧ other windows ∉ toNative windows p) ∧
    (components (toUnix p) = components p ∧ 92 ∉ toUnix p) := by
  refine ⟨?_, ?_, ?_, ?_⟩
  · have hs : isSep (native windows) = true := by cases windows <;> rfl
    unfold ensureEndsWithSep
    by_cases h : endsWithSep p = true
    · rw [if_pos h]; exact ⟨rfl, h⟩
    · rw [if_neg h]
      exact ⟨components_append_allSep (fun c hc => by rw [List.mem_singleton.mp hc]; exact hs) p, by simp [endsWithSep, hs]⟩
  · obtain ⟨t, ht, he, h2⟩ := ensureNoSepAtEnd_eq p
    refine ⟨?_, h2⟩
    have := components_append_allSep ht (ensureNoSepAtEnd p)
    rw [← he] at this
    exact this.symm
  · refine ⟨components_map (fun c => ?_) (fun c hc => ?_) p, ?_⟩
    · split
      · next e => subst e; cases windows <;> rfl
      · rfl
    · split
      · next e => subst e; cases windows <;> cases hc
      · rfl
    · intro h
      obtain ⟨c, -, hc⟩ := List.mem_map.mp h
      split at hc
      · cases windows <;> cases hc
      · contradiction
  · refine ⟨components_map (fun c => ?_) (fun c hc => ?_) p, ?_⟩
    · split
      · next e => subst e; rfl
      · rfl
    · split
      · next e => subst e; cases hc
      · rfl
    · intro h
      obtain ⟨c, -, hc⟩ := List.mem_map.mp h
      split at hc
      · cases hc
      · contradiction

/-! Examples. -/
private def str (s : String) : Str := s.toUTF8.toList

example : components (str "/foo//bar\\baz/") = [str "foo", str "bar", str "baz"] := by decide +kernel
example : dirName (str "/foo//bar/") = str "/foo" ∧ baseName (str "/foo//bar/") = str "bar" := by decide +kernel
example : dirName (str "///foo") = str "///" ∧ dirName (str "foo") = [] := by decide +kernel
example : dirNameWindows (str "C:\\foo") = str "C:\\" ∧ dirNameWindows (str "\\\\pc\\share\\d\\f") = str "\\\\pc\\share\\d" := by decide +kernel
example : drivePrefix (str "\\\\pc\\share\\d\\f") = str "\\\\pc\\share" ∧ drivePrefix (str "user@host:file") = [] := by decide +kernel
example : join true (str "C:") (str "x") = str "C:\\x" ∧ join false (str "a/") (str "x") = str "a/x" := by decide +kernel

end Verif.Text.Path
