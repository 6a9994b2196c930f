/-! # C41, C42: path filter rules and wildcard matching (common/path_filter.cc) -/
namespace Verif.Text.Filter

abbrev Str := List UInt8

/-- `?` and `*`. -/
def qmark : UInt8 := 63
def star : UInt8 := 42

/-! ## Model -/

/-- Reading the character at offset `i` of the C string of `s`: the terminating zero is at offset `s.length`; a read
behind it is outside of the string and gives `none`. -/
def rd (s : Str) (i : Nat) : Option UInt8 :=
  if i < s.length then s[i]? else if i = s.length then some 0 else none

/-- The loop over `n` in the `*` case, common/path_filter.cc:34-39: `path + n` and `path_len - n` for
`n < path_len`; `f` is the recursive call. -/
def starLoop (f : Nat → Nat → Option Bool) (pos : Nat) : Nat → Option Bool
  | 0 => some false
  | len + 1 => match f pos (len + 1) with
    | none => none
    | some true => some true
    | some false => starLoop f (pos + 1) len

/-- `internal::IsMatch(pattern, path, path_len)`, common/path_filter.cc:20-50. The pattern is a list without zero
bytes, `path` is the offset `pos` into the C string of `s`. `none`: a character outside of the string is read. -/
def isMatch (s : Str) : Str → Nat → Nat → Option Bool
  | [], pos, _ => match rd s pos with
    | none => none
    | some c => some (c = 0)
  | c :: p, pos, len =>
    if c = qmark then
      match rd s pos with
      | none => none
      | some d => if d = 0 then some false else isMatch s p (pos + 1) len
    else if c = star then
      if p = [] then some true else starLoop (fun pos len => isMatch s p pos len) pos len
    else
      match rd s pos with
      | none => none
      | some d => if d ≠ c then some false else isMatch s p (pos + 1) len

/-- `internal::IsMatch(pattern, path)`, common/path_filter.cc:52-54. -/
def isMatchStr (pattern path : Str) : Option Bool := isMatch path pattern 0 path.length

/-- `PathFilter::Rule`, common/path_filter.h:34-43. -/
structure Rule where
  incl : Bool
  pattern : Str
deriving DecidableEq

/-- `PathFilter::IsMatch`, common/path_filter.cc:68-75. -/
def filterMatch : List Rule → Str → Option Bool
  | [], _ => some true
  | r :: rs, path => match isMatchStr r.pattern path with
    | none => none
    | some true => some r.incl
    | some false => filterMatch rs path

/-! ## Specification -/

/-- The pattern can be turned into the path by replacing each `?` by one character and each `*` by any string. -/
inductive Matches : Str → Str → Prop
  | nil : Matches [] []
  | any (d : UInt8) {p s : Str} : Matches p s → Matches (qmark :: p) (d :: s)
  | star (w : Str) {p s : Str} : Matches p s → Matches (Filter.star :: p) (w ++ s)
  | lit {c : UInt8} {p s : Str} : c ≠ qmark → c ≠ Filter.star → Matches p s → Matches (c :: p) (c :: s)

/-- A path is filtered in: the first rule that matches (if any) is an include rule. -/
def Included (rules : List Rule) (path : Str) : Prop :=
  ∀ before r after, rules = before ++ r :: after → (∀ q ∈ before, ¬ Matches q.pattern path) →
    Matches r.pattern path → r.incl = true

/-! ## Facts about the specification -/

theorem matches_nil (s : Str) : Matches [] s ↔ s = [] := by
  constructor
  · intro h; cases h; rfl
  · rintro rfl; exact .nil

theorem matches_qmark (p s : Str) : Matches (qmark :: p) s ↔ ∃ d t, s = d :: t ∧ Matches p t := by
  constructor
  · intro h
    generalize hq : qmark :: p = q at h
    cases h with
    | nil => cases hq
    | any d h => cases hq; exact ⟨_, _, rfl, h⟩
    | star w h => exact absurd (List.cons.inj hq).1 (by decide)
    | lit h1 h2 h => exact absurd (List.cons.inj hq).1.symm h1
  · rintro ⟨d, t, rfl, h⟩; exact .any d h

theorem matches_star (p s : Str) : Matches (star :: p) s ↔ ∃ n ≤ s.length, Matches p (s.drop n) := by
  constructor
  · intro h
    generalize hq : star :: p = q at h
    cases h with
    | nil => cases hq
    | any d h => exact absurd (List.cons.inj hq).1 (by decide)
    | star w h => cases hq; exact ⟨w.length, by simp, by simpa using h⟩
    | lit h1 h2 h => exact absurd (List.cons.inj hq).1.symm h2
  · rintro ⟨n, hn, h⟩
    have := Matches.star (s.take n) h
    rwa [List.take_append_drop] at this

theorem matches_lit (c : UInt8) (p s : Str) (h1 : c ≠ qmark) (h2 : c ≠ star) :
    Matches (c :: p) s ↔ ∃ t, s = c :: t ∧ Matches p t := by
  constructor
  · intro h
    cases h with
    | any d h => exact absurd rfl h1
    | star w h => exact absurd rfl h2
    | lit _ _ h => exact ⟨_, rfl, h⟩
  · rintro ⟨t, rfl, h⟩; exact .lit h1 h2 h

/-- A match of a suffix is a match of the whole string if the pattern begins with `*`. -/
theorem matches_star_drop (p s : Str) (m : Nat) (h : Matches (star :: p) (s.drop m)) : Matches (star :: p) s := by
  have := Matches.star (s.take m) h
  rw [List.take_append_drop] at this
  obtain ⟨n, hn, h2⟩ := (matches_star _ _).1 this
  obtain ⟨n2, hn2, h3⟩ := (matches_star _ _).1 h2
  rw [List.drop_drop] at h3
  by_cases hle : n + n2 ≤ s.length
  · exact (matches_star _ _).2 ⟨n + n2, hle, h3⟩
  · rw [List.drop_of_length_le (by omega)] at h3
    exact (matches_star _ _).2 ⟨s.length, Nat.le_refl _, by simpa using h3⟩

/-- A pattern that matches the empty string consists of stars. -/
theorem matches_empty_iff (p : Str) : Matches p [] ↔ ∀ c ∈ p, c = star := by
  induction p with
  | nil => simp [matches_nil]
  | cons c p ih =>
    constructor
    · intro h
      by_cases h1 : c = qmark
      · subst h1; obtain ⟨_, _, h, _⟩ := (matches_qmark _ _).1 h; cases h
      · by_cases h2 : c = star
        · subst h2
          obtain ⟨n, _, h⟩ := (matches_star _ _).1 h
          simp only [List.drop_nil] at h
          intro d hd
          rcases List.mem_cons.1 hd with rfl | hd
          · rfl
          · exact ih.1 h d hd
        · obtain ⟨_, h, _⟩ := (matches_lit _ _ _ h1 h2).1 h; cases h
    · intro h
      have hc := h c (List.mem_cons_self ..)
      subst hc
      exact (matches_star _ _).2 ⟨0, by simp, by simpa using ih.2 (fun d hd => h d (List.mem_cons_of_mem _ hd))⟩

theorem matches_stars (p s : Str) (hp : p ≠ []) (h : ∀ c ∈ p, c = star) : Matches p s := by
  induction p with
  | nil => exact absurd rfl hp
  | cons c p ih =>
    have hc := h c (List.mem_cons_self ..)
    subst hc
    exact (matches_star _ _).2 ⟨s.length, Nat.le_refl _, by
      simpa using (matches_empty_iff p).2 (fun d hd => h d (List.mem_cons_of_mem _ hd))⟩

/-! ## The matcher -/

theorem rd_lt {s : Str} {i : Nat} (h : i < s.length) : rd s i = some s[i] := by simp [rd, h]
theorem rd_end {s : Str} : rd s s.length = some 0 := by simp [rd]
theorem rd_none {s : Str} {i : Nat} (h : s.length < i) : rd s i = none := by
  simp only [rd]; rw [if_neg (by omega), if_neg (by omega)]

theorem drop_cons {s : Str} {i : Nat} (h : i < s.length) : s.drop i = s[i] :: s.drop (i + 1) :=
  List.drop_eq_getElem_cons h

/-- The `*` loop finds the first offset for which the rest matches. -/
theorem starLoop_true (f : Nat → Nat → Option Bool) (pos len : Nat) (h : starLoop f pos len = some true) :
    ∃ n < len, f (pos + n) (len - n) = some true := by
  induction len generalizing pos with
  | zero => simp [starLoop] at h
  | succ len ih =>
    simp only [starLoop] at h
    split at h
    · cases h
    · rename_i h1; exact ⟨0, by omega, h1⟩
    · obtain ⟨n, hn, h2⟩ := ih (pos + 1) h
      exact ⟨n + 1, by omega, by rw [show pos + (n + 1) = pos + 1 + n by omega, Nat.add_sub_add_right]; exact h2⟩

theorem starLoop_false (f : Nat → Nat → Option Bool) (pos len : Nat) (h : starLoop f pos len = some false) :
    ∀ n < len, f (pos + n) (len - n) = some false := by
  induction len generalizing pos with
  | zero => intro n hn; omega
  | succ len ih =>
    simp only [starLoop] at h
    split at h
    · cases h
    · cases h
    · rename_i h1
      intro n hn
      cases n with
      | zero => exact h1
      | succ n =>
        rw [show pos + (n + 1) = pos + 1 + n by omega, Nat.add_sub_add_right]
        exact ih (pos + 1) h n (by omega)

theorem starLoop_find (f : Nat → Nat → Option Bool) (pos len n : Nat) (hn : n < len)
    (h1 : f (pos + n) (len - n) = some true) (h2 : ∀ m < n, f (pos + m) (len - m) = some false) :
    starLoop f pos len = some true := by
  induction n generalizing pos len with
  | zero =>
    cases len with
    | zero => omega
    | succ len => simp only [starLoop]; simp only [Nat.add_zero, Nat.sub_zero] at h1; rw [h1]
  | succ n ih =>
    cases len with
    | zero => omega
    | succ len =>
      simp only [starLoop]
      have := h2 0 (by omega)
      simp only [Nat.add_zero, Nat.sub_zero] at this
      rw [this]
      refine ih (pos + 1) len (by omega) ?_ ?_
      · rw [show pos + 1 + n = pos + (n + 1) by omega, show len - n = len + 1 - (n + 1) by omega]; exact h1
      · intro m hm
        rw [show pos + 1 + m = pos + (m + 1) by omega, show len - m = len + 1 - (m + 1) by omega]
        exact h2 (m + 1) (by omega)

/-- Whenever the matcher says yes, the pattern matches. -/
theorem isMatch_sound (s : Str) (h0 : (0 : UInt8) ∉ s) (p : Str) : (0 : UInt8) ∉ p → ∀ pos len, pos ≤ s.length →
    isMatch s p pos len = some true → Matches p (s.drop pos) := by
  induction p with
  | nil =>
    intro _ pos len hpos h
    by_cases hlt : pos < s.length
    · simp only [isMatch, rd_lt hlt, Option.some.injEq, decide_eq_true_eq] at h
      exact absurd (h ▸ List.getElem_mem hlt) h0
    · rw [List.drop_of_length_le (by omega)]; exact .nil
  | cons c p ih =>
    intro hp pos len hpos h
    have hp' : (0 : UInt8) ∉ p := fun hm => hp (List.mem_cons_of_mem _ hm)
    simp only [isMatch] at h
    by_cases h1 : c = qmark
    · rw [if_pos h1] at h
      subst h1
      by_cases hlt : pos < s.length
      · rw [rd_lt hlt] at h
        simp only at h
        split at h
        · cases h
        · rw [drop_cons hlt]; exact .any _ (ih hp' _ _ (by omega) h)
      · rw [show pos = s.length by omega, rd_end] at h
        simp at h
    · rw [if_neg h1] at h
      by_cases h2 : c = star
      · rw [if_pos h2] at h
        subst h2
        by_cases hpe : p = []
        · subst hpe
          exact matches_stars _ _ (by simp) (by simp)
        · rw [if_neg hpe] at h
          obtain ⟨n, hn, h3⟩ := starLoop_true _ _ _ h
          by_cases hle : pos + n ≤ s.length
          · have := ih hp' _ _ hle h3
            rw [← List.drop_drop] at this
            exact (matches_star _ _).2 ⟨n, by simp; omega, this⟩
          · -- a read behind the end is never part of a match unless the rest is stars only
            have key : ∀ (q : Str) (i l : Nat), s.length < i → isMatch s q i l = some true → ∀ c ∈ q, c = star := by
              intro q
              induction q with
              | nil => intro i l _ _ c hc; cases hc
              | cons d q ihq =>
                intro i l hi hm
                simp only [isMatch] at hm
                by_cases k1 : d = qmark
                · rw [if_pos k1, rd_none hi] at hm; cases hm
                · rw [if_neg k1] at hm
                  by_cases k2 : d = star
                  · rw [if_pos k2] at hm
                    intro e he
                    rcases List.mem_cons.1 he with rfl | he
                    · exact k2
                    · by_cases k3 : q = []
                      · subst k3; cases he
                      · rw [if_neg k3] at hm
                        obtain ⟨m, _, hm2⟩ := starLoop_true _ _ _ hm
                        exact ihq _ _ (by omega) hm2 e he
                  · rw [if_neg k2, rd_none hi] at hm; cases hm
            refine matches_stars _ _ (by simp) ?_
            intro d hd
            rcases List.mem_cons.1 hd with rfl | hd
            · rfl
            · exact key p _ _ (by omega) h3 d hd
      · rw [if_neg h2] at h
        by_cases hlt : pos < s.length
        · rw [rd_lt hlt] at h
          simp only at h
          split at h
          · cases h
          · rename_i he
            have he : s[pos] = c := by simpa using he
            rw [drop_cons hlt, he]; exact .lit h1 h2 (ih hp' _ _ (by omega) h)
        · rw [show pos = s.length by omega, rd_end] at h
          simp only at h
          have : (0 : UInt8) ≠ c := by rintro rfl; simp at hp
          rw [if_pos this] at h; cases h

/-- If the pattern does not match here but matches a later suffix, the matcher says no without leaving the
string. -/
theorem isMatch_no_but_later (s : Str) (h0 : (0 : UInt8) ∉ s) (p : Str) : (0 : UInt8) ∉ p → ∀ pos len m,
    pos + m ≤ s.length → ¬ Matches p (s.drop pos) → Matches p (s.drop (pos + m)) →
    isMatch s p pos len = some false := by
  induction p with
  | nil =>
    intro _ pos len m hpos hno _
    have hlt : pos < s.length := by
      rw [matches_nil] at hno
      apply Nat.lt_of_not_le; intro hle; exact hno (List.drop_of_length_le hle)
    simp only [isMatch, rd_lt hlt]
    rw [show decide (s[pos] = 0) = false from decide_eq_false (fun he => h0 (he ▸ List.getElem_mem hlt))]
  | cons c p ih =>
    intro hp pos len m hpos hno hyes
    have hp' : (0 : UInt8) ∉ p := fun hm => hp (List.mem_cons_of_mem _ hm)
    simp only [isMatch]
    by_cases h1 : c = qmark
    · rw [if_pos h1]
      subst h1
      obtain ⟨d, t, h2, h3⟩ := (matches_qmark _ _).1 hyes
      have hlt2 : pos + m < s.length := by
        apply Nat.lt_of_not_le; intro hle; rw [List.drop_of_length_le hle] at h2; cases h2
      have hlt : pos < s.length := by omega
      rw [rd_lt hlt]
      simp only
      rw [if_neg (fun he : s[pos] = 0 => h0 (he ▸ List.getElem_mem hlt))]
      rw [drop_cons hlt2] at h2
      obtain ⟨_, rfl⟩ := List.cons.inj h2
      refine ih hp' (pos + 1) len m (by omega) (fun hm => hno ?_) ?_
      · rw [drop_cons hlt]; exact .any _ hm
      · rw [show pos + 1 + m = pos + m + 1 by omega]; exact h3
    · rw [if_neg h1]
      by_cases h2 : c = star
      · subst h2
        exfalso; apply hno
        rw [← List.drop_drop] at hyes
        exact matches_star_drop _ _ _ hyes
      · rw [if_neg h2]
        obtain ⟨t, h4, h3⟩ := (matches_lit _ _ _ h1 h2).1 hyes
        have hlt2 : pos + m < s.length := by
          apply Nat.lt_of_not_le; intro hle; rw [List.drop_of_length_le hle] at h4; cases h4
        have hlt : pos < s.length := by omega
        rw [rd_lt hlt]
        simp only
        by_cases he : s[pos] = c
        · rw [if_neg (by simpa using he)]
          rw [drop_cons hlt2] at h4
          obtain ⟨_, rfl⟩ := List.cons.inj h4
          refine ih hp' (pos + 1) len m (by omega) (fun hm => hno ?_) ?_
          · rw [drop_cons hlt, he]; exact .lit h1 h2 hm
          · rw [show pos + 1 + m = pos + m + 1 by omega]; exact h3
        · rw [if_pos he]

/-- If the pattern matches, the matcher says yes (unless the length left is zero). -/
theorem isMatch_complete (s : Str) (h0 : (0 : UInt8) ∉ s) (p : Str) : (0 : UInt8) ∉ p → ∀ pos len,
    pos ≤ s.length → s.length ≤ pos + len → 0 < len → Matches p (s.drop pos) →
    isMatch s p pos len = some true := by
  induction p with
  | nil =>
    intro _ pos len hpos _ _ h
    rw [matches_nil] at h
    have := List.drop_eq_nil_iff.1 h
    simp only [isMatch, show pos = s.length by omega, rd_end]
    rfl
  | cons c p ih =>
    intro hp pos len hpos hlen hpl h
    have hp' : (0 : UInt8) ∉ p := fun hm => hp (List.mem_cons_of_mem _ hm)
    simp only [isMatch]
    by_cases h1 : c = qmark
    · rw [if_pos h1]
      subst h1
      obtain ⟨d, t, h2, h3⟩ := (matches_qmark _ _).1 h
      have hlt : pos < s.length := by
        apply Nat.lt_of_not_le; intro hle; rw [List.drop_of_length_le hle] at h2; cases h2
      rw [rd_lt hlt]
      simp only
      rw [if_neg (fun he : s[pos] = 0 => h0 (he ▸ List.getElem_mem hlt))]
      rw [drop_cons hlt] at h2
      obtain ⟨_, rfl⟩ := List.cons.inj h2
      exact ih hp' _ _ (by omega) (by omega) hpl h3
    · rw [if_neg h1]
      by_cases h2 : c = star
      · rw [if_pos h2]
        subst h2
        by_cases hpe : p = []
        · rw [if_pos hpe]
        · rw [if_neg hpe]
          obtain ⟨n, hn, h3⟩ := (matches_star _ _).1 h
          simp only [List.length_drop] at hn
          rw [List.drop_drop] at h3
          -- the least offset at which the rest matches
          have hex : ∃ n, n ≤ s.length - pos ∧ Matches p (s.drop (pos + n)) ∧
              ∀ m < n, ¬ Matches p (s.drop (pos + m)) := by
            clear ih
            revert hn
            induction n using Nat.strongRecOn with
            | _ n ihn =>
              intro hn
              by_cases hm : ∃ m < n, Matches p (s.drop (pos + m))
              · obtain ⟨m, hmn, hm⟩ := hm
                exact ihn m hmn hm (by omega)
              · exact ⟨n, hn, h3, fun m hmn hmm => hm ⟨m, hmn, hmm⟩⟩
          obtain ⟨n, hn, h3, hleast⟩ := hex
          have hnl : n < len := by
            apply Nat.lt_of_not_le; intro hle
            -- then the rest matches the empty string, so it is stars only and matches at once
            have he : s.drop (pos + n) = [] := List.drop_of_length_le (by omega)
            rw [he, matches_empty_iff] at h3
            have := matches_stars p (s.drop (pos + 0)) hpe h3
            exact hleast 0 (by omega) this
          refine starLoop_find _ _ _ n hnl ?_ ?_
          · exact ih hp' _ _ (by omega) (by omega) (by omega) h3
          · intro m hm
            exact isMatch_no_but_later s h0 p hp' (pos + m) _ (n - m) (by omega) (hleast m hm)
              (by rw [show pos + m + (n - m) = pos + n by omega]; exact h3)
      · rw [if_neg h2]
        obtain ⟨t, h4, h3⟩ := (matches_lit _ _ _ h1 h2).1 h
        have hlt : pos < s.length := by
          apply Nat.lt_of_not_le; intro hle; rw [List.drop_of_length_le hle] at h4; cases h4
        rw [rd_lt hlt]
        rw [drop_cons hlt] at h4
        obtain ⟨he, rfl⟩ := List.cons.inj h4
        simp only
        rw [if_neg (by simpa using he)]
        exact ih hp' _ _ (by omega) (by omega) hpl h3

/-! ## When the matcher stays inside the string -/

/-- The matcher does not leave the string if at most `k` fixed characters can come before an inner `*` and the length
is at most `1 - k` bigger than what is left. -/
theorem isMatch_inside (s : Str) (p : Str) : (0 : UInt8) ∉ p → ∀ pos len k, pos ≤ s.length →
    pos + len ≤ s.length + k →
    (∀ q r, p = q ++ star :: r → r ≠ [] → k + (q.filter (· ≠ star)).length ≤ 1) →
    isMatch s p pos len ≠ none := by
  induction p with
  | nil =>
    intro _ pos len k hpos _ _
    by_cases hlt : pos < s.length
    · simp [isMatch, rd_lt hlt]
    · simp [isMatch, show pos = s.length by omega, rd_end]
  | cons c p ih =>
    intro hp pos len k hpos hlen hk
    have hp' : (0 : UInt8) ∉ p := fun hm => hp (List.mem_cons_of_mem _ hm)
    have hstep : c ≠ star → ∀ q r, p = q ++ star :: r → r ≠ [] → (k + 1) + (q.filter (· ≠ star)).length ≤ 1 := by
      intro hc q r e hr
      have := hk (c :: q) r (by rw [e]; rfl) hr
      rw [List.filter_cons, if_pos (by simpa using hc)] at this
      simp only [List.length_cons] at this
      omega
    simp only [isMatch]
    by_cases h1 : c = qmark
    · rw [if_pos h1]
      have hcs : c ≠ star := by subst h1; decide
      by_cases hlt : pos < s.length
      · rw [rd_lt hlt]
        simp only
        split
        · simp
        · exact ih hp' _ _ (k + 1) (by omega) (by omega) (hstep hcs)
      · rw [show pos = s.length by omega, rd_end]; simp
    · rw [if_neg h1]
      by_cases h2 : c = star
      · rw [if_pos h2]
        subst h2
        split
        · simp
        · rename_i hpe
          have hk1 : k ≤ 1 := by simpa using hk [] p rfl hpe
          have hrest : ∀ q r, p = q ++ star :: r → r ≠ [] → k + (q.filter (· ≠ star)).length ≤ 1 := by
            intro q r e hr
            have := hk (star :: q) r (by rw [e]; rfl) hr
            rw [List.filter_cons, if_neg (by simp)] at this
            exact this
          -- the loop stops at the terminating zero
          have loop : ∀ len pos, pos ≤ s.length ∨ len = 0 → pos + len ≤ s.length + k →
              starLoop (fun pos len => isMatch s p pos len) pos len ≠ none := by
            intro len
            induction len with
            | zero => intro pos _ _; simp [starLoop]
            | succ len ihl =>
              intro pos hpos hlen
              simp only [starLoop]
              have := ih hp' pos (len + 1) k (by omega) hlen hrest
              split
              · exact absurd (by assumption) this
              · simp
              · refine ihl (pos + 1) ?_ (by omega)
                omega
          exact loop len pos (.inl hpos) hlen
      · rw [if_neg h2]
        by_cases hlt : pos < s.length
        · rw [rd_lt hlt]
          simp only
          split
          · simp
          · exact ih hp' _ _ (k + 1) (by omega) (by omega) (hstep h2)
        · rw [show pos = s.length by omega, rd_end]
          simp only
          have : (0 : UInt8) ≠ c := by rintro rfl; simp at hp
          rw [if_pos this]; simp

/-! ## Theorems -/

/-- Patterns for which the matcher is safe on every path: at most one fixed character in front of each `*` that is not
the last character of the pattern. -/
def FewFixed (pattern : Str) : Prop :=
  ∀ q r, pattern = q ++ star :: r → r ≠ [] → (q.filter (· ≠ star)).length ≤ 1

/-- C42: for every pattern and non-empty path, a matching path is always recognised, and an answer is always right.
(Missing: the matcher may read behind the end of a path that does not match, `C42_out_of_bounds_violated`.) -/
theorem C42_wildcards_partial (pattern path : Str) (hp : (0 : UInt8) ∉ pattern) (hs : (0 : UInt8) ∉ path)
    (hne : path ≠ []) :
    (Matches pattern path → isMatchStr pattern path = some true) ∧
    (∀ b, isMatchStr pattern path = some b → (b = true ↔ Matches pattern path)) := by
  have hc : Matches pattern path → isMatchStr pattern path = some true := fun h =>
    isMatch_complete path hs pattern hp 0 _ (by omega) (by omega) (List.length_pos_iff.2 hne) (by simpa using h)
  refine ⟨hc, ?_⟩
  intro b hb
  constructor
  · rintro rfl
    simpa using isMatch_sound path hs pattern hp 0 _ (by omega) hb
  · intro h
    have := hc h
    rw [hb] at this
    exact Option.some.inj this

/-- C42: patterns such as `*.txt`, `*` or `a*b` are matched without leaving the path, so they are decided right. -/
theorem C42_simple_patterns (pattern path : Str) (hp : (0 : UInt8) ∉ pattern) (hs : (0 : UInt8) ∉ path)
    (hne : path ≠ []) (hf : FewFixed pattern) :
    ∃ b, isMatchStr pattern path = some b ∧ (b = true ↔ Matches pattern path) := by
  have := isMatch_inside path pattern hp 0 path.length 0 (by omega) (by omega)
    (fun q r e hr => by simpa using hf q r e hr)
  cases h : isMatchStr pattern path with
  | none => exact absurd h this
  | some b => exact ⟨b, rfl, (C42_wildcards_partial pattern path hp hs hne).2 b h⟩

/-- "*.txt" has few fixed characters; it matches "a.txt". -/
def txt : Str := [42, 46, 116, 120, 116]

theorem C42_example : FewFixed txt ∧ isMatchStr txt [97, 46, 116, 120, 116] = some true ∧
    isMatchStr txt [97, 46, 100] = some false := by
  refine ⟨?_, by decide, by decide⟩
  intro q r e hr
  unfold txt at e
  cases q with
  | nil => simp
  | cons d q =>
    exfalso
    have hm : star ∈ [46, 116, 120, (116 : UInt8)] := by
      simp only [List.cons_append, List.cons.injEq] at e
      rw [e.2]; simp
    revert hm; decide

/-- C42 is violated: the pattern of the unit test "dir1\dir2\*.txt" (common/path_filter_test.cc:64-67) makes the
matcher read behind the end of the path "dir1\dir2\file2.dat"; and the shortest case, "ab*c" on "abd". -/
theorem C42_out_of_bounds_violated :
    isMatchStr [97, 98, 42, 99] [97, 98, 100] = none ∧
    isMatchStr [100, 105, 114, 49, 92, 100, 105, 114, 50, 92, 42, 46, 116, 120, 116]
      [100, 105, 114, 49, 92, 100, 105, 114, 50, 92, 102, 105, 108, 101, 50, 46, 100, 97, 116] = none := by
  decide

/-- More generally, a path of two or more fixed characters, then other characters, read against the same characters
followed by `*` and a character that does not occur in the path: the matcher always reads behind the end. -/
theorem C42_every_long_prefix_violated (pre rest : Str) (x : UInt8) (hpre : 2 ≤ pre.length)
    (hlit : ∀ c ∈ pre, c ≠ star ∧ c ≠ qmark) (h0 : (0 : UInt8) ∉ pre ++ rest)
    (hx : x ∉ pre ++ rest) (hx0 : x ≠ 0 ∧ x ≠ star ∧ x ≠ qmark) :
    isMatchStr (pre ++ [star, x]) (pre ++ rest) = none := by
  -- consuming the prefix
  have consume : ∀ (pre : Str) (s p : Str) (pos len : Nat), (∀ c ∈ pre, c ≠ star ∧ c ≠ qmark) → (pre <+: s.drop pos) →
      isMatch s (pre ++ p) pos len = isMatch s p (pos + pre.length) len := by
    intro pre
    induction pre with
    | nil => intros; simp
    | cons c pre ih =>
      intro s p pos len hl hpre
      have hlt : pos < s.length := by
        have := hpre.length_le
        simp only [List.length_cons, List.length_drop] at this; omega
      rw [drop_cons hlt] at hpre
      obtain ⟨he, hpre'⟩ := List.cons_prefix_cons.1 hpre
      have hc := hl c (List.mem_cons_self ..)
      simp only [List.cons_append, isMatch, if_neg hc.1, if_neg hc.2, rd_lt hlt]
      rw [if_neg (by simpa using he.symm), ih s p (pos + 1) len (fun d hd => hl d (List.mem_cons_of_mem _ hd)) hpre']
      congr 1
      simp only [List.length_cons]; omega
  unfold isMatchStr
  rw [consume pre (pre ++ rest) [star, x] 0 _ hlit (by simp)]
  simp only [isMatch]
  rw [if_neg (by decide), if_pos trivial, if_neg (by simp)]
  -- the loop
  have loop : ∀ len pos, pos ≤ (pre ++ rest).length + 1 → (pre ++ rest).length + 2 ≤ pos + len →
      starLoop (fun pos len => isMatch (pre ++ rest) [x] pos len) pos len = none := by
    intro len
    induction len with
    | zero => intro pos h1 h2; omega
    | succ len ih =>
      intro pos h1 h2
      have hstep : ∀ pos len, isMatch (pre ++ rest) [x] pos len = match rd (pre ++ rest) pos with
          | none => none
          | some d => if d ≠ x then some false else isMatch (pre ++ rest) [] (pos + 1) len := by
        intro pos len
        simp only [isMatch, if_neg hx0.2.1, if_neg hx0.2.2]
      rw [starLoop, hstep]
      by_cases hlt : pos < (pre ++ rest).length
      · rw [rd_lt hlt]
        simp only
        rw [if_pos (fun he : (pre ++ rest)[pos] = x => hx (he ▸ List.getElem_mem hlt))]
        exact ih (pos + 1) (by omega) (by omega)
      · by_cases heq : pos = (pre ++ rest).length
        · rw [heq, rd_end]
          simp only
          rw [if_pos (Ne.symm hx0.1)]
          rw [heq] at h2
          exact ih _ (Nat.le_refl _) (by omega)
        · rw [rd_none (by omega)]
  apply loop
  · simp only [List.length_append]; omega
  · simp only [List.length_append]; omega

/-- The empty path is answered wrong for two or more stars. -/
theorem C42_empty_path_violated (p : Str) (h : p ≠ []) (hs : ∀ c ∈ p, c = star) :
    Matches (star :: p) [] ∧ isMatchStr (star :: p) [] = some false := by
  refine ⟨(matches_empty_iff _).2 (by simpa using hs), ?_⟩
  simp only [isMatchStr, isMatch]
  rw [if_neg (by decide), if_pos trivial, if_neg h]
  rfl

/-- C41: whenever the filter answers for a non-empty path, the answer is that of the first matching rule. (Missing: it
may not answer, because of `C42_out_of_bounds_violated`.) -/
theorem C41_first_match_partial (rules : List Rule) (path : Str) (hp : ∀ r ∈ rules, (0 : UInt8) ∉ r.pattern)
    (hs : (0 : UInt8) ∉ path) (hne : path ≠ []) (b : Bool) (h : filterMatch rules path = some b) :
    b = true ↔ Included rules path := by
  induction rules with
  | nil =>
    simp only [filterMatch, Option.some.injEq] at h
    subst h
    simp only [true_iff]
    intro before r after e
    simp at e
  | cons r rs ih =>
    simp only [filterMatch] at h
    have hm := (C42_wildcards_partial r.pattern path (hp r (List.mem_cons_self ..)) hs hne).2
    split at h
    · cases h
    · rename_i h1
      have h2 : Matches r.pattern path := (hm true h1).1 rfl
      simp only [Option.some.injEq] at h
      subst h
      constructor
      · intro hi before q after e hb hq
        cases before with
        | nil => simp only [List.nil_append, List.cons.injEq] at e; rw [← e.1]; exact hi
        | cons x before =>
          simp only [List.cons_append, List.cons.injEq] at e
          exact absurd (e.1 ▸ h2) (hb x (List.mem_cons_self ..))
      · intro hi
        exact hi [] r rs rfl (by simp) h2
    · rename_i h1
      have h2 : ¬ Matches r.pattern path := fun hc => by have := (hm false h1).2 hc; cases this
      rw [ih (fun q hq => hp q (List.mem_cons_of_mem _ hq)) h]
      constructor
      · intro hi before q after e hb hq
        cases before with
        | nil => simp only [List.nil_append, List.cons.injEq] at e; exact absurd (e.1 ▸ hq) h2
        | cons x before =>
          simp only [List.cons_append, List.cons.injEq] at e
          exact hi before q after e.2 (fun y hy => hb y (List.mem_cons_of_mem _ hy)) hq
      · intro hi before q after e hb hq
        refine hi (r :: before) q after (by rw [e]; rfl) ?_ hq
        intro y hy
        rcases List.mem_cons.1 hy with rfl | hy
        · exact h2
        · exact hb y hy

/-- C41: rules with simple patterns always give an answer, that of the first matching rule. -/
theorem C41_simple_rules (rules : List Rule) (path : Str) (hp : ∀ r ∈ rules, (0 : UInt8) ∉ r.pattern)
    (hf : ∀ r ∈ rules, FewFixed r.pattern) (hs : (0 : UInt8) ∉ path) (hne : path ≠ []) :
    ∃ b, filterMatch rules path = some b ∧ (b = true ↔ Included rules path) := by
  have : ∃ b, filterMatch rules path = some b := by
    induction rules with
    | nil => exact ⟨true, rfl⟩
    | cons r rs ih =>
      obtain ⟨b, hb, _⟩ := C42_simple_patterns r.pattern path (hp r (List.mem_cons_self ..)) hs hne
        (hf r (List.mem_cons_self ..))
      simp only [filterMatch, hb]
      cases b with
      | true => exact ⟨_, rfl⟩
      | false => exact ih (fun q hq => hp q (List.mem_cons_of_mem _ hq)) (fun q hq => hf q (List.mem_cons_of_mem _ hq))
  obtain ⟨b, hb⟩ := this
  exact ⟨b, hb, C41_first_match_partial rules path hp hs hne b hb⟩

/-- Not vacuous: include `*.txt`, then exclude everything. -/
theorem C41_example : filterMatch [⟨true, txt⟩, ⟨false, [42]⟩] [97, 46, 116, 120, 116] = some true ∧
    filterMatch [⟨true, txt⟩, ⟨false, [42]⟩] [97, 46, 100] = some false ∧
    filterMatch [⟨false, [42]⟩, ⟨true, txt⟩] [97, 46, 116, 120, 116] = some false := by decide

end Verif.Text.Filter
