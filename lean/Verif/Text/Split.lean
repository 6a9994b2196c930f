import Verif.Text.Path
/-!
# Splitting and joining strings (C153)

Model of `SplitString` and `JoinStrings`, common/util.cc:214-250, 282-296, and of their use for the
paths of a manifest, manifest/manifest_builder.cc:34-43.  The number of parts computed first
(util.cc:218-226) only reserves memory and is not modelled.
-/

namespace Verif.Text.Split
open Verif.Text.Path

/-- `string_view::find(delim, first)`: `none` is `npos`. -/
def find (s : Str) (delim : UInt8) (first : Nat) : Option Nat :=
  match (s.drop first).findIdx? (· == delim) with
  | some i => some (first + i)
  | none => none

/-- The part `[first, last)`: `string_view(s.data() + first, last - first)`. -/
def part (s : Str) (first last : Nat) : Str := (s.drop first).take (last - first)

/-- The second loop of `SplitString` and what follows it, util.cc:231-243; `fuel` bounds the number
of rounds (the string's length suffices, each round moves `first` forward). -/
def collect (s : Str) (delim : UInt8) (keep : Bool) : Nat → Nat → List Str → List Str
  | 0, _, parts => parts
  | fuel + 1, first, parts =>
    match find s delim first with
    | some last =>
      collect s delim keep fuel (last + 1)
        (if keep = true ∨ first < last then parts ++ [part s first last] else parts)
    | none => if keep = true ∨ first < s.length then parts ++ [part s first s.length] else parts

/-- `SplitString(s, delim, keep_empty)`, util.cc:214-244. -/
def splitString (s : Str) (delim : UInt8) (keep : Bool) : List Str :=
  if s.isEmpty then [] else collect s delim keep (s.length + 1) 0 []

/-- The loop of `JoinStrings`, util.cc:282-290. -/
def joinLoop (parts : List Str) (first last : Nat) (delim : UInt8) : Nat → Nat → Str → Str
  | 0, _, ret => ret
  | fuel + 1, i, ret =>
    if i < last ∧ i < parts.length then
      joinLoop parts first last delim fuel (i + 1)
        ((if i ≠ first then ret ++ [delim] else ret) ++ parts.getD i [])
    else ret

/-- `JoinStrings(parts, first, last, delim)`, util.cc:282-290. -/
def joinRange (parts : List Str) (first last : Nat) (delim : UInt8) : Str :=
  joinLoop parts first last delim (parts.length + 1) first []

/-- `JoinStrings(parts, delim)`, util.cc:292-296. -/
def joinStrings (parts : List Str) (delim : UInt8) : Str :=
  if parts.isEmpty then [] else joinRange parts 0 parts.length delim

/-- `SplitUnixPath`, manifest_builder.cc:35-37. -/
def splitUnixPath (path : Str) : List Str := splitString path 47 false

/-- `JoinUnixPath`, manifest_builder.cc:41-43. -/
def joinUnixPath (path : List Str) : Str := joinRange path 0 path.length 47

/-! ## Specification -/

/-- The parts written one after the other with the delimiter in between. -/
def between (delim : UInt8) : List Str → Str
  | [] => []
  | [p] => p
  | p :: q :: ps => p ++ delim :: between delim (q :: ps)

/-- `ps` is `s` cut at all delimiters. -/
def Cut (delim : UInt8) (s : Str) (ps : List Str) : Prop :=
  ps ≠ [] ∧ between delim ps = s ∧ ∀ p ∈ ps, delim ∉ p

/-! ## Proofs -/

theorem cut_unique (d : UInt8) : ∀ (ps qs : List Str) (s : Str), Cut d s ps → Cut d s qs → ps = qs := by
  intro ps
  induction ps with
  | nil => intro qs s h; exact absurd rfl h.1
  | cons p ps ih =>
    intro qs s ⟨_, hp, np⟩ ⟨hq0, hq, nq⟩
    match qs, hq0 with
    | q :: qs, _ =>
      have head : ∀ (a b x y : Str), d ∉ a → d ∉ b → a ++ d :: x = b ++ d :: y → a = b ∧ x = y := by
        intro a
        induction a with
        | nil =>
          intro b x y _ hb e
          cases b with
          | nil => simp at e; exact ⟨rfl, e⟩
          | cons c b => simp at e hb; exact absurd e.1 hb.1
        | cons c a iha =>
          intro b x y ha hb e
          cases b with
          | nil => simp at e ha; exact absurd e.1.symm ha.1
          | cons c' b =>
            simp only [List.mem_cons, not_or] at ha hb
            simp only [List.cons_append, List.cons.injEq] at e
            obtain ⟨h1, h2⟩ := iha b x y ha.2 hb.2 e.2
            exact ⟨by rw [e.1, h1], h2⟩
      have no : ∀ (a b x : Str), d ∉ a → a ≠ b ++ d :: x := by
        intro a b x ha e
        apply ha; rw [e]; simp
      match ps, qs with
      | [], [] => simp only [between] at hp hq; rw [hp, hq]
      | [], q' :: qs =>
        simp only [between] at hp hq
        exact absurd (hp.trans hq.symm) (no p q _ (np p (by simp)))
      | p' :: ps, [] =>
        simp only [between] at hp hq
        exact absurd (hq.trans hp.symm) (no q p _ (nq q (by simp)))
      | p' :: ps, q' :: qs =>
        simp only [between] at hp hq
        obtain ⟨h1, h2⟩ := head p q _ _ (np p (by simp)) (nq q (by simp)) (hp.trans hq.symm)
        have := ih (q' :: qs) (between d (p' :: ps)) ⟨by simp, rfl, fun x hx => np x (List.mem_cons_of_mem _ hx)⟩
          ⟨by simp, h2.symm, fun x hx => nq x (List.mem_cons_of_mem _ hx)⟩
        rw [h1, this]

/-- The text cut at the delimiters, by recursion on the text. -/
def pieces (d : UInt8) : Str → List Str
  | [] => [[]]
  | c :: s => if c = d then [] :: pieces d s else
    match pieces d s with
    | [] => [[c]]
    | p :: ps => (c :: p) :: ps

theorem pieces_ne (d : UInt8) (s : Str) : pieces d s ≠ [] := by
  cases s with
  | nil => simp [pieces]
  | cons c s =>
    rw [pieces]
    split
    · simp
    · split <;> simp

theorem pieces_none (d : UInt8) (s : Str) (h : d ∉ s) : pieces d s = [s] := by
  induction s with
  | nil => rfl
  | cons c s ih =>
    simp only [List.mem_cons, not_or] at h
    rw [pieces, if_neg (fun e => h.1 e.symm), ih h.2]

theorem pieces_some (d : UInt8) (a b : Str) (h : d ∉ a) : pieces d (a ++ d :: b) = a :: pieces d b := by
  induction a with
  | nil => show (if d = d then [] :: pieces d b else _) = _; rw [if_pos rfl]
  | cons c a ih =>
    simp only [List.mem_cons, not_or] at h
    rw [List.cons_append, pieces, if_neg (fun e => h.1 e.symm), ih h.2]

theorem cut_pieces (d : UInt8) (s : Str) : Cut d s (pieces d s) := by
  refine ⟨pieces_ne d s, ?_, ?_⟩
  · induction s with
    | nil => rfl
    | cons c s ih =>
      rw [pieces]
      have ne := pieces_ne d s
      split
      · rename_i h
        match hp : pieces d s, ne with
        | p :: ps, _ => rw [hp] at ih; rw [between, ih, h]; rfl
      · match hp : pieces d s, ne with
        | [p], _ => rw [hp] at ih; simp only [between] at ih ⊢; rw [ih]
        | p :: q :: ps, _ =>
          rw [hp] at ih; simp only [between] at ih ⊢; rw [List.cons_append, ih]
  · induction s with
    | nil => simp [pieces]
    | cons c s ih =>
      rw [pieces]
      split
      · intro p hp
        rcases List.mem_cons.1 hp with rfl | hp
        · simp
        · exact ih p hp
      · rename_i h
        split
        · intro p hp
          simp only [List.mem_singleton] at hp; subst hp
          simp only [List.mem_singleton]; exact fun e => h e.symm
        · rename_i q qs hq
          intro p hp
          rcases List.mem_cons.1 hp with rfl | hp
          · simp only [List.mem_cons, not_or]
            exact ⟨fun e => h e.symm, ih q (by rw [hq]; simp)⟩
          · exact ih p (by rw [hq]; simp [hp])

theorem find_cases (s : Str) (d : UInt8) (first : Nat) :
    (∃ a b, s.drop first = a ++ d :: b ∧ d ∉ a ∧ find s d first = some (first + a.length)) ∨
    (d ∉ s.drop first ∧ find s d first = none) := by
  have key : ∀ t : Str, (∃ a b, t = a ++ d :: b ∧ d ∉ a ∧ t.findIdx? (· == d) = some a.length) ∨
      (d ∉ t ∧ t.findIdx? (· == d) = none) := by
    intro t
    induction t with
    | nil => right; simp
    | cons c t ih =>
      by_cases h : c = d
      · left; exact ⟨[], t, by rw [h]; rfl, by simp, by simp [List.findIdx?_cons, h]⟩
      · rcases ih with ⟨a, b, e, na, hf⟩ | ⟨nt, hf⟩
        · left
          refine ⟨c :: a, b, by rw [e]; rfl, ?_, ?_⟩
          · simp only [List.mem_cons, not_or]; exact ⟨fun e => h e.symm, na⟩
          · simp [List.findIdx?_cons, h, hf]
        · right
          refine ⟨?_, ?_⟩
          · simp only [List.mem_cons, not_or]; exact ⟨fun e => h e.symm, nt⟩
          · simp [List.findIdx?_cons, h, hf]
  unfold find
  rcases key (s.drop first) with ⟨a, b, e, na, hf⟩ | ⟨nt, hf⟩
  · left; exact ⟨a, b, e, na, by rw [hf]⟩
  · right; exact ⟨nt, by rw [hf]⟩

/-- The parts kept. -/
def kept (keep : Bool) (ps : List Str) : List Str :=
  if keep then ps else ps.filter fun p => !p.isEmpty

theorem kept_cons (keep : Bool) (p : Str) (ps : List Str) :
    kept keep (p :: ps) = (if keep = true ∨ 0 < p.length then [p] else []) ++ kept keep ps := by
  unfold kept
  cases keep with
  | true => simp
  | false =>
    cases p with
    | nil => simp
    | cons c p => simp

theorem collect_eq (s : Str) (d : UInt8) (keep : Bool) : ∀ (fuel first : Nat) (parts : List Str),
    first ≤ s.length → s.length - first < fuel →
    collect s d keep fuel first parts = parts ++ kept keep (pieces d (s.drop first)) := by
  intro fuel
  induction fuel with
  | zero => intro first parts _ h; omega
  | succ fuel ih =>
    intro first parts hf hl
    rw [collect]
    rcases find_cases s d first with ⟨a, b, e, na, hq⟩ | ⟨nt, hq⟩
    · have len : (s.drop first).length = a.length + 1 + b.length := by
        rw [e]; simp only [List.length_append, List.length_cons]; omega
      rw [List.length_drop] at len
      rw [hq]
      simp only
      rw [ih _ _ (by omega) (by omega)]
      have hd : s.drop (first + a.length + 1) = b := by
        rw [Nat.add_assoc, ← List.drop_drop, e]
        have : a ++ d :: b = (a ++ [d]) ++ b := by simp
        rw [this, List.drop_left' (by simp)]
      have hpt : part s first (first + a.length) = a := by
        unfold part
        rw [e, Nat.add_sub_cancel_left, List.take_left' rfl]
      rw [hd, hpt, e, pieces_some d a b na, kept_cons]
      by_cases c : keep = true ∨ 0 < a.length
      · rw [if_pos (by rcases c with c | c; exact Or.inl c; right; omega), if_pos c, List.append_assoc]
      · rw [if_neg (by intro h; apply c; rcases h with h | h; exact Or.inl h; right; omega), if_neg c]; rfl
    · rw [hq, pieces_none d _ nt]
      have hpt : part s first s.length = s.drop first := by
        unfold part; rw [List.take_of_length_le (by rw [List.length_drop]; omega)]
      simp only [hpt]
      rw [kept_cons]
      have hk : kept keep [] = [] := by cases keep <;> rfl
      rw [hk, List.append_nil]
      by_cases c : keep = true ∨ first < s.length
      · rw [if_pos c, if_pos (by rw [List.length_drop]; rcases c with c | c; exact Or.inl c; right; omega)]
      · rw [if_neg c, if_neg (by
          rw [List.length_drop]; intro h; apply c; rcases h with h | h; exact Or.inl h; right; omega)]
        simp

theorem split_eq (s : Str) (d : UInt8) (keep : Bool) (hs : s ≠ []) :
    splitString s d keep = kept keep (pieces d s) := by
  unfold splitString
  rw [if_neg (by simpa using hs), collect_eq s d keep _ 0 [] (Nat.zero_le _) (by omega)]
  rfl

theorem join_eq (parts : List Str) (first last : Nat) (d : UInt8) : ∀ (fuel i : Nat) (ret : Str),
    first ≤ i → parts.length - i < fuel →
    joinLoop parts first last d fuel i ret
      = ret ++ (if i = first then between d ((parts.take last).drop i)
                else ((parts.take last).drop i).flatMap fun p => d :: p) := by
  intro fuel
  have tail : ∀ (p : Str) (ps : List Str), between d (p :: ps) = p ++ ps.flatMap fun p => d :: p := by
    intro p ps
    induction ps generalizing p with
    | nil => simp [between]
    | cons q ps ih => rw [between, ih q]; simp
  induction fuel with
  | zero => intro i ret _ h; omega
  | succ fuel ih =>
    intro i ret hi hl
    rw [joinLoop]
    by_cases c : i < last ∧ i < parts.length
    · rw [if_pos c, ih (i + 1) _ (by omega) (by omega)]
      rw [if_neg (show ¬ i + 1 = first by omega)]
      have hlen : i < (parts.take last).length := by rw [List.length_take]; omega
      have hd : (parts.take last).drop i = parts.getD i [] :: (parts.take last).drop (i + 1) := by
        rw [List.drop_eq_getElem_cons hlen]
        congr 1
        rw [List.getElem_take, List.getD_eq_getElem?_getD, List.getElem?_eq_getElem c.2]
        rfl
      rw [hd]
      by_cases e : i = first
      · rw [if_neg (show ¬ i ≠ first from fun h => h e), if_pos e, tail, List.append_assoc]
      · rw [if_pos (show i ≠ first from e), if_neg e, List.flatMap_cons]
        simp
    · rw [if_neg c]
      have : (parts.take last).drop i = [] := by
        apply List.drop_of_length_le; rw [List.length_take]; omega
      rw [this]
      simp [between]

theorem joinRange_eq (parts : List Str) (first last : Nat) (d : UInt8) :
    joinRange parts first last d = between d ((parts.take last).drop first) := by
  unfold joinRange
  rw [join_eq parts first last d _ first [] (Nat.le_refl _) (by omega), if_pos rfl]
  rfl

theorem joinStrings_eq (parts : List Str) (d : UInt8) : joinStrings parts d = between d parts := by
  unfold joinStrings
  cases parts with
  | nil => rfl
  | cons p ps =>
    rw [if_neg (by simp), joinRange_eq, List.take_of_length_le (Nat.le_refl _)]
    rfl

/-- **C153.** The parts of a non-empty string are the string cut at all delimiters; without empty
parts if those are not to be kept. -/
theorem C153_split (s : Str) (d : UInt8) (hs : s ≠ []) (ps : List Str) (h : Cut d s ps) :
    splitString s d true = ps ∧ splitString s d false = ps.filter fun p => !p.isEmpty := by
  have e := cut_unique d _ _ s (cut_pieces d s) h
  rw [split_eq s d true hs, split_eq s d false hs, e]
  exact ⟨rfl, rfl⟩

theorem C153_split_empty (d : UInt8) (keep : Bool) : splitString [] d keep = [] := rfl

/-- Every string can be cut, in one way. -/
theorem C153_cut (s : Str) (d : UInt8) : ∃ ps, Cut d s ps ∧ ∀ qs, Cut d s qs → qs = ps :=
  ⟨pieces d s, cut_pieces d s, fun qs h => cut_unique d _ _ s h (cut_pieces d s)⟩

/-- Joining writes the parts `first`, ..., `last - 1` with the delimiter in between; indices out of
bounds are ignored. -/
theorem C153_join (parts : List Str) (first last : Nat) (d : UInt8) :
    joinRange parts first last d = between d ((parts.take last).drop first) ∧
    joinStrings parts d = between d parts :=
  ⟨joinRange_eq parts first last d, joinStrings_eq parts d⟩

/-- Joining undoes splitting. -/
theorem C153_join_split (s : Str) (d : UInt8) : joinStrings (splitString s d true) d = s := by
  rw [joinStrings_eq]
  by_cases hs : s = []
  · subst hs; rfl
  · rw [split_eq s d true hs]
    exact (cut_pieces d s).2.1

/-- Splitting undoes joining if no part has the delimiter, except that a single empty part is
lost. -/
theorem C153_split_join (ps : List Str) (d : UInt8) (h : ∀ p ∈ ps, d ∉ p) (h1 : ps ≠ [[]]) :
    splitString (joinStrings ps d) d true = ps := by
  rw [joinStrings_eq]
  match ps, h1 with
  | [], _ => rfl
  | p :: qs, h1 =>
    have ne : between d (p :: qs) ≠ [] := by
      cases qs with
      | nil => rw [between]; intro e; exact h1 (by rw [e])
      | cons q qs => rw [between]; simp
    exact (C153_split _ d ne (p :: qs) ⟨by simp, rfl, h⟩).1

/-- The components of a path of a manifest are the maximal runs without `/`: slashes at the ends
and repeated ones do not count. -/
theorem C153_path (path : Str) (ps : List Str) (h : Cut 47 path ps) :
    splitUnixPath path = ps.filter fun p => !p.isEmpty := by
  by_cases hp : path = []
  · subst hp
    have : ps = [[]] := cut_unique 47 _ _ [] h ⟨by simp, rfl, by simp⟩
    subst this; rfl
  · exact (C153_split path 47 hp ps h).2

/-- A path made of components is taken apart into the same components. -/
theorem C153_path_roundtrip (cs : List Str) (h : ∀ c ∈ cs, c ≠ [] ∧ (47 : UInt8) ∉ c) :
    splitUnixPath (joinUnixPath cs) = cs := by
  unfold splitUnixPath joinUnixPath
  rw [joinRange_eq, List.take_of_length_le (Nat.le_refl _), List.drop_zero]
  match cs with
  | [] => rfl
  | c :: cs =>
    have ne : between 47 (c :: cs) ≠ [] := by
      have := (h c (by simp)).1
      cases cs with
      | nil => rw [between]; exact this
      | cons q qs => rw [between]; simp
    rw [(C153_split _ 47 ne (c :: cs) ⟨by simp, rfl, fun p hp => (h p hp).2⟩).2]
    apply List.filter_eq_self.2
    intro p hp
    have := (h p hp).1
    simpa using this

/-- "/a//bc/" has the components "a" and "bc". -/
example : splitUnixPath [47, 97, 47, 47, 98, 99, 47] = [[97], [98, 99]] ∧
    splitString [47, 97, 47, 47, 98, 99, 47] 47 true = [[], [97], [], [98, 99], []] ∧
    joinRange [[97], [98], [99], [100]] 1 9 47 = [98, 47, 99, 47, 100] := by decide

example : Cut 47 [47, 97, 47, 47, 98, 99, 47] [[], [97], [], [98, 99], []] :=
  ⟨by decide, by decide, by decide⟩

end Verif.Text.Split
