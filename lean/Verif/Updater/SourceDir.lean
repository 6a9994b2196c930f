import Verif.Text.Path
import Mathlib.Data.List.Induction

/-!
# C205: the directory to stream

`ManifestUpdater::IsValidDir`, manifest/manifest_updater.cc:408-427, which decides whether a directory can be streamed (it is called when a session is
started, session_manager.cc:72, and before the directory is scanned, manifest_updater.cc:440).
-/
namespace Verif.Updater.SourceDir

open Verif.Text.Path (Str isSep AllSep ensureNoSepAtEnd ensureNoSepAtEnd_eq endsWithSep)

/-! ## Model -/

inductive Kind where
  | file
  | dir
deriving DecidableEq, Repr

inductive Verdict where
  | ok
  | failedPrecondition
  | notFound
deriving DecidableEq, Repr

/-- A letter, the drive letters of Windows. -/
def isLetter (c : UInt8) : Bool := (65 ≤ c && c ≤ 90) || (97 ≤ c && c ≤ 122)

/-- `IsAbsolute`, common/path.cc:370-372, i.e. `std::filesystem::path::is_absolute`. Linux: the path begins with `/`. Windows: a drive followed by a
separator, or two separators followed by the name of a computer. (Simplified: paths that begin with `\??\` are not absolute.) -/
def isAbsolute (windows : Bool) (p : Str) : Bool :=
  if windows then
    match p with
    | a :: b :: c :: _ => (isLetter a && b == 58 && isSep c) || (isSep a && isSep b && !isSep c)
    | _ => false
  else
    match p with
    | a :: _ => a == 47
    | _ => false

/-- `IsValidDir`, manifest_updater.cc:409-427. `kind` is what `path::Exists` and `path::DirExists` (common/path.cc:1009-1022) see. -/
def isValidDir (windows : Bool) (kind : Str → Option Kind) (dir : Str) : Verdict :=
  if isAbsolute windows (ensureNoSepAtEnd dir) = false then .failedPrecondition
  else if kind (ensureNoSepAtEnd dir) = none then .notFound
  else if kind (ensureNoSepAtEnd dir) ≠ some .dir then .failedPrecondition
  else .ok

/-! ## Specification -/

/-- A separator of the operating system. -/
def Sep (windows : Bool) (c : UInt8) : Prop := c = 47 ∨ (windows = true ∧ c = 92)

instance (windows : Bool) (c : UInt8) : Decidable (Sep windows c) := by unfold Sep; infer_instance

/-- The root of the file system, or of a drive. -/
def Root (windows : Bool) (p : Str) : Prop :=
  if windows then ∃ a seps, isLetter a = true ∧ p = a :: 58 :: seps ∧ seps ≠ [] ∧ ∀ c ∈ seps, Sep windows c
  else p ≠ [] ∧ ∀ c ∈ p, Sep windows c

/-- Separators at the end of a path do not matter, unless it is a root. -/
def Sane (windows : Bool) (kind : Str → Option Kind) : Prop :=
  ∀ p seps, (∀ c ∈ seps, Sep windows c) → ¬ Root windows (p ++ seps) → kind (p ++ seps) = kind p

/-- An absolute path. Linux: it begins with a slash. Windows: it begins with a drive letter, a colon and a separator, or with two separators and the name
of a computer. -/
def Absolute (windows : Bool) (p : Str) : Prop :=
  if windows then
    (∃ drive s rest, ((65 ≤ drive ∧ drive ≤ 90) ∨ (97 ≤ drive ∧ drive ≤ 122)) ∧ Sep true s ∧ p = drive :: 58 :: s :: rest) ∨
    (∃ s s' c rest, Sep true s ∧ Sep true s' ∧ ¬ Sep true c ∧ p = s :: s' :: c :: rest)
  else ∃ rest, p = 47 :: rest

theorem sep_true (c : UInt8) : isSep c = true ↔ Sep true c := by
  unfold isSep Sep
  simp only [Bool.or_eq_true, beq_iff_eq, true_and, decide_eq_true_eq]
  try exact or_comm

theorem isAbsolute_iff (windows : Bool) (p : Str) : isAbsolute windows p = true ↔ Absolute windows p := by
  cases windows with
  | false =>
    unfold isAbsolute Absolute
    simp only [Bool.false_eq_true, if_false]
    cases p with
    | nil => simp
    | cons a p => simp
  | true =>
    unfold isAbsolute Absolute
    simp only [if_true]
    match p with
    | [] => simp
    | [_] => simp
    | [_, _] => simp
    | a :: b :: c :: p =>
      simp only [Bool.or_eq_true, Bool.and_eq_true, beq_iff_eq, sep_true, Bool.not_eq_true', List.cons.injEq]
      have hn : isSep c = false ↔ ¬ Sep true c := by rw [← sep_true]; simp
      rw [hn]
      have hl : isLetter a = true ↔ ((65 ≤ a ∧ a ≤ 90) ∨ (97 ≤ a ∧ a ≤ 122)) := by
        simp [isLetter]
      rw [hl]
      constructor
      · rintro (⟨⟨h1, h2⟩, h3⟩ | ⟨⟨h1, h2⟩, h3⟩)
        · exact .inl ⟨a, c, p, h1, h3, rfl, h2, rfl, rfl⟩
        · exact .inr ⟨a, b, c, p, h1, h2, h3, rfl, rfl, rfl, rfl⟩
      · rintro (⟨d, s, r, h1, h3, rfl, rfl, rfl, rfl⟩ | ⟨s, s', d, r, h1, h2, h3, rfl, rfl, rfl, rfl⟩)
        · exact .inl ⟨⟨h1, rfl⟩, h3⟩
        · exact .inr ⟨⟨h1, h2⟩, h3⟩

instance (windows : Bool) (p : Str) : Decidable (Absolute windows p) :=
  decidable_of_iff _ (isAbsolute_iff windows p)

/-- What a user expects. -/
def expected (windows : Bool) (kind : Str → Option Kind) (dir : Str) : Verdict :=
  if Absolute windows dir then
    match kind dir with
    | some .dir => .ok
    | some .file => .failedPrecondition
    | none => .notFound
  else .failedPrecondition

/-! ## Proof -/

theorem sep_isSep {windows : Bool} {c : UInt8} (h : Sep windows c) : isSep c = true := by
  rcases h with rfl | ⟨_, rfl⟩ <;> decide

theorem letter_not_sep : ∀ c : Fin 256, isLetter (UInt8.ofNat c.val) = true → isSep (UInt8.ofNat c.val) = false := by decide +kernel

theorem letter_sep {c : UInt8} (h : isLetter c = true) : isSep c = false := by
  have := letter_not_sep ⟨c.toNat, c.toNat_lt⟩
  simp only [UInt8.ofNat_toNat] at this
  exact this h

/-- Without the separators at the end a path is absolute as before, unless it is a root. -/
theorem absolute_strip {windows : Bool} {p t : Str} (ht : ∀ c ∈ t, Sep windows c) (hr : ¬ Root windows (p ++ t)) :
    isAbsolute windows (p ++ t) = isAbsolute windows p := by
  cases windows with
  | false =>
    cases p with
    | cons a p => rfl
    | nil =>
      cases t with
      | nil => rfl
      | cons a t => exact absurd ⟨by simp, ht⟩ hr
  | true =>
    unfold isAbsolute
    simp only [if_true]
    match p, t with
    | a :: b :: c :: p, t => rfl
    | p, [] => simp
    | [], [a] => simp
    | [], [a, b] => simp
    | [], a :: b :: c :: t =>
      have ha := sep_isSep (ht a (by simp))
      have hc := sep_isSep (ht c (by simp))
      have : isLetter a = false := by
        cases h : isLetter a with
        | false => rfl
        | true => rw [letter_sep h] at ha; cases ha
      simp [this, hc]
    | [a], [b] => simp
    | [a], b :: c :: t =>
      have hb := sep_isSep (ht b (by simp))
      have hc := sep_isSep (ht c (by simp))
      have : (b == 58) = false := by
        cases h : b == 58 with
        | false => rfl
        | true => have : b = 58 := by simpa using h
                  subst this; revert hb; decide
      simp [this, hc]
    | [a, b], c :: t =>
      have hc := sep_isSep (ht c (by simp))
      cases h : isLetter a && b == 58 with
      | false => simp [hc, h]
      | true =>
        simp only [Bool.and_eq_true, beq_iff_eq] at h
        exact absurd ⟨a, c :: t, h.1, by simp [h.2], by simp, ht⟩ hr

/-- **C205**, the part that holds: a path that is not a root, and does not end in a character that only the other operating system takes for a separator,
is accepted if it is absolute and a directory; otherwise the error tells why it is not. -/
theorem C205_valid_partial (windows : Bool) (kind : Str → Option Kind) (hk : Sane windows kind) (p t : Str) (hp : endsWithSep p = false)
    (ht : ∀ c ∈ t, Sep windows c) (hr : ¬ Root windows (p ++ t)) : isValidDir windows kind (p ++ t) = expected windows kind (p ++ t) := by
  have hstrip : ∀ t : Str, (∀ c ∈ t, Sep windows c) → ensureNoSepAtEnd (p ++ t) = p := by
    intro t
    induction t using List.reverseRecOn with
    | nil =>
      intro _
      rw [List.append_nil]
      unfold ensureNoSepAtEnd
      rw [hp]
      rfl
    | append_singleton t c ih =>
      intro h
      unfold ensureNoSepAtEnd
      have hc : endsWithSep (p ++ (t ++ [c])) = true := by
        unfold endsWithSep
        rw [← List.append_assoc, List.getLast?_concat]
        exact sep_isSep (h c (by simp))
      rw [hc, if_pos rfl, ← List.append_assoc, List.dropLast_concat]
      exact ih fun x hx => h x (List.mem_append_left _ hx)
  unfold isValidDir expected
  have hab : Absolute windows (p ++ t) ↔ isAbsolute windows p = true := by rw [← isAbsolute_iff, absolute_strip ht hr]
  rw [hstrip t ht, hk p t ht hr]
  cases ha : isAbsolute windows p with
  | false => rw [if_pos rfl, if_neg (by rw [hab, ha]; simp)]
  | true =>
    rw [if_neg (by simp), if_pos (hab.2 ha)]
    cases kind p with
    | none => rfl
    | some k => cases k <;> rfl

/-- **C205** is false of the code for the root directory and the roots of drives: they are refused as not absolute, whatever there is. -/
theorem C205_root_violated (windows : Bool) (kind : Str → Option Kind) (p : Str) (h : Root windows p) :
    isValidDir windows kind p = .failedPrecondition := by
  obtain ⟨t, ht, he, h2⟩ := ensureNoSepAtEnd_eq p
  have key : isAbsolute windows (ensureNoSepAtEnd p) = false := by
    generalize ensureNoSepAtEnd p = q at he h2
    cases windows with
    | false =>
      obtain ⟨_, h⟩ := h
      cases q with
      | nil => rfl
      | cons a q =>
        exfalso
        have hl : (a :: q).getLast? = some ((a :: q).getLast (by simp)) := List.getLast?_eq_some_getLast (by simp)
        unfold endsWithSep at h2
        rw [hl] at h2
        dsimp only at h2
        have := h ((a :: q).getLast (by simp)) (by rw [he]; exact List.mem_append_left _ (List.getLast_mem _))
        rw [sep_isSep this] at h2
        cases h2
    | true =>
      obtain ⟨a, seps, ha, hp, _, hs⟩ := h
      match q with
      | [] => rfl
      | [x] => rfl
      | [x, y] => rfl
      | x :: y :: z :: q =>
        exfalso
        rw [hp] at he
        simp only [List.cons_append, List.cons.injEq] at he
        obtain ⟨_, _, hz⟩ := he
        have hmem : (x :: y :: z :: q).getLast (by simp) ∈ seps := by
          rw [hz]
          rw [List.getLast_cons (by simp), List.getLast_cons (by simp)]
          have := List.getLast_mem (l := z :: q) (by simp)
          rcases List.mem_cons.mp this with h | h
          · rw [h]; exact List.mem_cons_self ..
          · exact List.mem_cons_of_mem _ (List.mem_append_left _ h)
        have hl : (x :: y :: z :: q).getLast? = some ((x :: y :: z :: q).getLast (by simp)) := List.getLast?_eq_some_getLast (by simp)
        unfold endsWithSep at h2
        rw [hl] at h2
        dsimp only at h2
        rw [sep_isSep (hs _ hmem)] at h2
        cases h2
  unfold isValidDir
  rw [if_pos key]

/-! ## Examples -/

namespace Example

/-- `/data/foo` is a directory, `/data/bar` a file. -/
def foo : Str := [47, 100, 97, 116, 97, 47, 102, 111, 111]
def bar : Str := [47, 100, 97, 116, 97, 47, 98, 97, 114]

/-- A path without the slashes at its end. -/
def trim (p : Str) : Str := (p.reverse.dropWhile (· == 47)).reverse

def kind (p : Str) : Option Kind := if trim p = foo then some .dir else if trim p = bar then some .file else none

theorem trim_append (p t : Str) (h : ∀ c ∈ t, Sep false c) : trim (p ++ t) = trim p := by
  unfold trim
  rw [List.reverse_append, List.dropWhile_append, if_pos]
  have : t.reverse.dropWhile (· == 47) = [] := by
    apply List.eq_nil_iff_forall_not_mem.mpr
    have : ∀ l : Str, (∀ c ∈ l, (c == 47) = true) → ∀ c, c ∉ l.dropWhile (· == 47) := by
      intro l
      induction l with
      | nil => intro _ c; simp
      | cons a l ih =>
        intro h c
        rw [List.dropWhile_cons, if_pos (h a (List.mem_cons_self ..))]
        exact ih (fun x hx => h x (List.mem_cons_of_mem _ hx)) c
    apply this
    intro c hc
    rcases h c (List.mem_reverse.mp hc) with rfl | ⟨h, _⟩
    · decide
    · cases h
  rw [this]; rfl

theorem sane : Sane false kind := by
  intro p t ht _
  unfold kind
  rw [trim_append p t ht]

example : isValidDir false kind (foo ++ [47, 47]) = .ok ∧ isValidDir false kind bar = .failedPrecondition ∧ isValidDir false kind [47, 120] = .notFound ∧
    isValidDir false kind [102, 111, 111] = .failedPrecondition ∧ ¬ Root false (foo ++ [47, 47]) ∧ endsWithSep foo = false := by
  refine ⟨by decide +kernel, by decide +kernel, by decide +kernel, by decide +kernel, fun h => ?_, by decide +kernel⟩
  have := h.2 100 (by decide)
  revert this
  decide

/-- `C:\` and `/` are refused. -/
example : Root true [67, 58, 92] ∧ Root false [47] ∧ Absolute true [67, 58, 92] ∧ Absolute false [47] :=
  ⟨⟨67, [92], by decide, rfl, by simp, by decide⟩, ⟨by simp, by decide⟩, by decide, by decide⟩

end Example

/-- **C205** is false of the code on Linux for names that end in a backslash: `/data/foo\` does not exist, but is accepted since `/data/foo` does. -/
theorem C205_backslash_violated : Sane false Example.kind ∧ ¬ Root false (Example.foo ++ [92]) ∧ Example.kind (Example.foo ++ [92]) = none ∧
    expected false Example.kind (Example.foo ++ [92]) = .notFound ∧ isValidDir false Example.kind (Example.foo ++ [92]) = .ok := by
  refine ⟨Example.sane, fun h => ?_, by decide +kernel, by decide +kernel, by decide +kernel⟩
  have := h.2 100 (by decide)
  revert this
  decide

/-- **C205, exactly when.** Let `p` be the path and `t` all slashes and backslashes at its end. The answer is the expected one if and only if
the path is not absolute at all, or `p` alone is absolute (so the path is no root) and names the same thing as the whole path; or the
path is a root and names a file, which is refused in any case. -/
theorem C205_exactly (windows : Bool) (kind : Str → Option Kind) (p t : Str) (hp : endsWithSep p = false) (ht : ∀ c ∈ t, c = 47 ∨ c = 92) :
    isValidDir windows kind (p ++ t) = expected windows kind (p ++ t) ↔
      (Absolute windows (p ++ t) → Absolute windows p ∧ kind p = kind (p ++ t) ∨ ¬ Absolute windows p ∧ kind (p ++ t) = some .file) := by
  have hstrip : ensureNoSepAtEnd (p ++ t) = p := by
    revert ht
    induction t using List.reverseRecOn with
    | nil =>
      intro _
      rw [List.append_nil]
      unfold ensureNoSepAtEnd
      rw [hp]
      rfl
    | append_singleton t c ih =>
      intro h
      unfold ensureNoSepAtEnd
      have hc : endsWithSep (p ++ (t ++ [c])) = true := by
        unfold endsWithSep
        rw [← List.append_assoc, List.getLast?_concat]
        rcases h c (by simp) with rfl | rfl <;> decide
      rw [hc, if_pos rfl, ← List.append_assoc, List.dropLast_concat]
      exact ih fun c' hc' => h c' (by simp [hc'])
  have mono : Absolute windows p → Absolute windows (p ++ t) := by
    unfold Absolute
    split
    · rintro (⟨d, s, r, h1, h2, rfl⟩ | ⟨s, s', c, r, h1, h2, h3, rfl⟩)
      · exact .inl ⟨d, s, r ++ t, h1, h2, by simp⟩
      · exact .inr ⟨s, s', c, r ++ t, h1, h2, h3, by simp⟩
    · rintro ⟨r, rfl⟩
      exact ⟨r ++ t, by simp⟩
  unfold isValidDir expected
  rw [hstrip]
  have hab := isAbsolute_iff windows p
  by_cases h1 : Absolute windows (p ++ t)
  · rw [if_pos h1]
    by_cases h2 : Absolute windows p
    · rw [if_neg (by rw [hab.2 h2]; simp)]
      simp only [h1, h2, true_and, true_implies, not_true, false_and, or_false]
      cases kind p with
      | none => cases kind (p ++ t) with
        | none => simp
        | some k => cases k <;> simp
      | some k => cases kind (p ++ t) with
        | none => cases k <;> simp
        | some k' => cases k <;> cases k' <;> simp
    · rw [if_pos (by rw [← Bool.not_eq_true, hab]; exact h2)]
      simp only [h1, h2, false_and, true_implies, not_false_eq_true, true_and, false_or]
      cases kind (p ++ t) with
      | none => simp
      | some k => cases k <;> simp
  · have h2 : ¬ Absolute windows p := fun h => h1 (mono h)
    rw [if_neg h1, if_pos (by rw [← Bool.not_eq_true, hab]; exact h2)]
    simp [h1]

/-- Non-vacuity: on Linux `/d/` is answered rightly, `/` and, if `/data/foo` is there, `/data/foo\` are not. -/
example : endsWithSep [47, 100] = false ∧ Absolute false [47, 100, 47] ∧ Absolute false [47, 100] ∧ endsWithSep [] = false ∧
    Absolute false [47] ∧ ¬ Absolute false [] ∧ Example.kind Example.foo ≠ Example.kind (Example.foo ++ [92]) := by decide +kernel

end Verif.Updater.SourceDir
