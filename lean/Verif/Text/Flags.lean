/-! # C47, C94, C95, C96: flag values and terminal output
(absl_helper/jedec_size_flag.cc, common/port_range_parser.cc, common/ansi_filter.cc) -/
namespace Verif.Text.Flags

abbrev Str := List UInt8

def isDigit (c : UInt8) : Bool := 48 ≤ c && c ≤ 57

/-! ## Sizes with a unit: model -/

/-- `ToJedecUnit` and `LeftShiftAmount`, absl_helper/jedec_size_flag.cc:21-61; `none` is `JedecUnit::Unkown`. -/
def shiftOf (c : UInt8) : Option Nat :=
  if c = 98 ∨ c = 66 then some 0
  else if c = 107 ∨ c = 75 then some 10
  else if c = 109 ∨ c = 77 then some 20
  else if c = 103 ∨ c = 71 then some 30
  else if c = 116 ∨ c = 84 then some 40
  else if c = 112 ∨ c = 80 then some 50
  else none

/-- `AbslParseFlag`, absl_helper/jedec_size_flag.cc:65-88; `parseU64` is `absl::ParseFlag` for `uint64_t`. -/
def jedec (parseU64 : Str → Option UInt64) (text : Str) : Option UInt64 :=
  match text.getLast? with
  | none => none
  | some c => match shiftOf c with
    | some k => match parseU64 text.dropLast with
      | none => none
      | some size => some (size <<< (UInt64.ofNat k))
    | none => if isDigit c then parseU64 text else none

/-! ## Sizes: specification -/

/-- The documented units, in any case: bytes, and kilo, mega, giga, tera, peta as powers of 1024. -/
inductive Unit : UInt8 → Nat → Prop
  | b : Unit 98 1
  | B : Unit 66 1
  | k : Unit 107 1024
  | K : Unit 75 1024
  | m : Unit 109 (1024 ^ 2)
  | M : Unit 77 (1024 ^ 2)
  | g : Unit 103 (1024 ^ 3)
  | G : Unit 71 (1024 ^ 3)
  | t : Unit 116 (1024 ^ 4)
  | T : Unit 84 (1024 ^ 4)
  | p : Unit 112 (1024 ^ 5)
  | P : Unit 80 (1024 ^ 5)

/-- The number of bytes a text denotes: a number with a unit, or a number that ends in a digit. -/
inductive Denotes (parseU64 : Str → Option UInt64) : Str → Nat → Prop
  | unit {num : Str} {u : UInt8} {factor : Nat} {n : UInt64} : Unit u factor → parseU64 num = some n →
      Denotes parseU64 (num ++ [u]) (n.toNat * factor)
  | plain {num : Str} {d : UInt8} {n : UInt64} : isDigit d = true → parseU64 (num ++ [d]) = some n →
      Denotes parseU64 (num ++ [d]) n.toNat

theorem unit_iff (c : UInt8) (f : Nat) : Unit c f ↔ ∃ k, shiftOf c = some k ∧ f = 2 ^ k := by
  constructor
  · intro h; cases h
    case b => exact ⟨0, by decide, rfl⟩
    case B => exact ⟨0, by decide, rfl⟩
    case k => exact ⟨10, by decide, rfl⟩
    case K => exact ⟨10, by decide, rfl⟩
    case m => exact ⟨20, by decide, rfl⟩
    case M => exact ⟨20, by decide, rfl⟩
    case g => exact ⟨30, by decide, rfl⟩
    case G => exact ⟨30, by decide, rfl⟩
    case t => exact ⟨40, by decide, rfl⟩
    case T => exact ⟨40, by decide, rfl⟩
    case p => exact ⟨50, by decide, rfl⟩
    case P => exact ⟨50, by decide, rfl⟩
  · rintro ⟨k, h, rfl⟩
    unfold shiftOf at h
    split at h
    · rename_i hc; cases h; rcases hc with rfl | rfl <;> constructor
    split at h
    · rename_i hc; cases h; rcases hc with rfl | rfl <;> constructor
    split at h
    · rename_i hc; cases h; rcases hc with rfl | rfl <;> constructor
    split at h
    · rename_i hc; cases h; rcases hc with rfl | rfl <;> constructor
    split at h
    · rename_i hc; cases h; rcases hc with rfl | rfl <;> constructor
    split at h
    · rename_i hc; cases h; rcases hc with rfl | rfl <;> constructor
    · cases h

theorem shift_le {c : UInt8} {k : Nat} (h : shiftOf c = some k) : k ≤ 50 := by
  unfold shiftOf at h
  repeat' split at h
  all_goals first | (cases h; decide) | cases h

theorem shift_digit {c : UInt8} (h : isDigit c = true) : shiftOf c = none := by
  have h1 : 48 ≤ c.toNat ∧ c.toNat ≤ 57 := by
    simp only [isDigit, Bool.and_eq_true, decide_eq_true_eq] at h
    have h2 := UInt8.le_iff_toNat_le.1 h.1
    have h3 := UInt8.le_iff_toNat_le.1 h.2
    simpa using And.intro h2 h3
  have : ∀ d : UInt8, 57 < d.toNat → c ≠ d := by rintro d hd rfl; omega
  unfold shiftOf
  have e : ∀ d : UInt8, 57 < d.toNat → (c = d) = False := fun d hd => by simp [this d hd]
  simp [e 98 (by decide), e 66 (by decide), e 107 (by decide), e 75 (by decide), e 109 (by decide), e 77 (by decide),
    e 103 (by decide), e 71 (by decide), e 116 (by decide), e 84 (by decide), e 112 (by decide), e 80 (by decide)]

theorem shift_toNat (n : UInt64) (k : Nat) (hk : k ≤ 50) :
    (n <<< UInt64.ofNat k).toNat = n.toNat * 2 ^ k % 2 ^ 64 := by
  rw [UInt64.toNat_shiftLeft]
  have : (UInt64.ofNat k).toNat % 64 = k := by
    rw [UInt64.toNat_ofNat']
    omega
  rw [this, Nat.shiftLeft_eq]

/-- The parser returns the denoted number modulo 2^64. -/
theorem jedec_iff (parseU64 : Str → Option UInt64) (text : Str) (v : UInt64) :
    jedec parseU64 text = some v ↔ ∃ b, Denotes parseU64 text b ∧ v.toNat = b % 2 ^ 64 := by
  constructor
  · intro h
    unfold jedec at h
    cases hl : text.getLast? with
    | none => rw [hl] at h; cases h
    | some c =>
      rw [hl] at h
      have ht : text = text.dropLast ++ [c] := by
        have hne : text ≠ [] := by rintro rfl; cases hl
        have := List.dropLast_concat_getLast hne
        rw [List.getLast?_eq_some_getLast hne] at hl
        rw [← Option.some.inj hl]; exact this.symm
      simp only at h
      cases hs : shiftOf c with
      | some k =>
        rw [hs] at h
        simp only at h
        cases hp : parseU64 text.dropLast with
        | none => rw [hp] at h; cases h
        | some n =>
          rw [hp] at h
          simp only [Option.some.injEq] at h
          refine ⟨n.toNat * 2 ^ k, ?_, ?_⟩
          · have := Denotes.unit (parseU64 := parseU64) ((unit_iff c (2 ^ k)).2 ⟨k, hs, rfl⟩) hp
            rwa [← ht] at this
          · rw [← h, shift_toNat n k (shift_le hs)]
      | none =>
        rw [hs] at h
        simp only at h
        split at h
        · rename_i hd
          refine ⟨v.toNat, ?_, ?_⟩
          · rw [ht] at h ⊢
            exact .plain hd h
          · rw [Nat.mod_eq_of_lt v.toNat_lt]
        · cases h
  · rintro ⟨b, hd, hv⟩
    cases hd with
    | @unit num u f n hu hn =>
      obtain ⟨k, hk, rfl⟩ := (unit_iff _ _).1 hu
      unfold jedec
      simp only [List.getLast?_concat, hk, List.dropLast_concat, hn, Option.some.injEq]
      apply UInt64.toNat_inj.1
      rw [shift_toNat n k (shift_le hk), hv]
    | @plain num d n hdig hn =>
      unfold jedec
      simp only [List.getLast?_concat, shift_digit hdig, hdig, if_true, hn, Option.some.injEq]
      apply UInt64.toNat_inj.1
      rw [hv, Nat.mod_eq_of_lt n.toNat_lt]

/-- C47: a size flag is accepted exactly when it denotes a size, and the value is the number of bytes denoted whenever
that fits into 64 bits. (Missing: bigger sizes should be rejected, `C47_size_overflow_violated`.) -/
theorem C47_size_partial (parseU64 : Str → Option UInt64) (text : Str) :
    ((jedec parseU64 text).isSome ↔ ∃ b, Denotes parseU64 text b) ∧
    (∀ v b, jedec parseU64 text = some v → Denotes parseU64 text b → b < 2 ^ 64 → v.toNat = b) := by
  constructor
  · constructor
    · intro h
      obtain ⟨v, hv⟩ := Option.isSome_iff_exists.1 h
      obtain ⟨b, hb, _⟩ := (jedec_iff _ _ _).1 hv
      exact ⟨b, hb⟩
    · rintro ⟨b, hb⟩
      have : (UInt64.ofNat b).toNat = b % 2 ^ 64 := UInt64.toNat_ofNat'
      rw [(jedec_iff parseU64 text (UInt64.ofNat b)).2 ⟨b, hb, this⟩]
      rfl
  · intro v b hv hb hlt
    obtain ⟨v', hv'⟩ : ∃ v' : UInt64, v'.toNat = b % 2 ^ 64 := ⟨UInt64.ofNat b, UInt64.toNat_ofNat'⟩
    have := (jedec_iff parseU64 text v').2 ⟨b, hb, hv'⟩
    rw [hv] at this
    rw [Option.some.inj this, hv', Nat.mod_eq_of_lt hlt]

/-- C47, exactly: a flag is read as `v` if and only if it denotes a number of bytes that is `v` modulo 2^64. So every size of 2^64 bytes or more is accepted and read wrongly. -/
theorem C47_size_exactly (parseU64 : Str → Option UInt64) (text : Str) (v : UInt64) :
    jedec parseU64 text = some v ↔ ∃ b, Denotes parseU64 text b ∧ v.toNat = b % 2 ^ 64 := jedec_iff parseU64 text v

/-- C47 is violated: "16777216T" denotes 2^64 bytes and is accepted as 0 bytes. -/
theorem C47_size_overflow_violated (parseU64 : Str → Option UInt64)
    (h : parseU64 [49, 54, 55, 55, 55, 50, 49, 54] = some 16777216) :
    Denotes parseU64 [49, 54, 55, 55, 55, 50, 49, 54, 84] (2 ^ 64) ∧
    jedec parseU64 [49, 54, 55, 55, 55, 50, 49, 54, 84] = some 0 := by
  have hd : Denotes parseU64 [49, 54, 55, 55, 55, 50, 49, 54, 84] (2 ^ 64) :=
    Denotes.unit (num := [49, 54, 55, 55, 55, 50, 49, 54]) .T h
  exact ⟨hd, (jedec_iff _ _ _).2 ⟨_, hd, rfl⟩⟩

/-- A hexadecimal size that ends in b is cut: "0x1b" is read as "0x1" bytes. -/
theorem C47_hex_violated (parseU64 : Str → Option UInt64) (h : parseU64 [48, 120, 49] = some 1)
    (_ : parseU64 [48, 120, 49, 98] = some 27) : jedec parseU64 [48, 120, 49, 98] = some 1 :=
  (jedec_iff _ _ _).2 ⟨1, Denotes.unit (num := [48, 120, 49]) .b h, rfl⟩

/-! ## Port ranges: model -/

/-- `absl::StrSplit(value, sep)`. -/
def split (sep : UInt8) : Str → List Str
  | [] => [[]]
  | c :: s => if c = sep then [] :: split sep s else
    match split sep s with
    | [] => [[c]]
    | p :: ps => (c :: p) :: ps

/-- White space as in `isspace`. -/
def isSpace (c : UInt8) : Bool := c = 32 || (9 ≤ c && c ≤ 13)

def digitsVal (acc : Nat) : Str → Nat
  | [] => acc
  | c :: s => if isDigit c then digitsVal (10 * acc + (c.toNat - 48)) s else acc

/-- `atoi` of glibc on a 64-bit system: `strtol` (which clamps to 64 bits) converted to a 32-bit integer. The result for
numbers outside of 32 bits is not defined by the C standard. -/
def atoi (s : Str) : Int :=
  let s := s.dropWhile isSpace
  let (neg, s) := match s with
    | 45 :: t => (true, t)
    | 43 :: t => (false, t)
    | _ => (false, s)
  let v : Int := if neg then max (-(digitsVal 0 s : Int)) (-2 ^ 63) else min (digitsVal 0 s : Int) (2 ^ 63 - 1)
  (BitVec.ofInt 32 v).toInt

/-- `port_range::Parse`, common/port_range_parser.cc:24-37. -/
def parseRange (value : Str) : Option (Nat × Nat) :=
  match split 45 value with
  | [] => none
  | [a] =>
    let i := atoi a
    if i ≤ 0 ∨ i > 65535 then none else some (i.toNat, i.toNat)
  | [a, b] =>
    let i := atoi a
    let j := atoi b
    if i ≤ 0 ∨ i > 65535 then none
    else if j ≤ 0 ∨ j > 65535 ∨ i > j then none
    else some (i.toNat, j.toNat)
  | _ => none

/-! ## Port ranges: specification -/

/-- A decimal number: digits only, at least one. -/
def IsNumber (s : Str) : Prop := s ≠ [] ∧ ∀ c ∈ s, isDigit c = true

/-- Its value. -/
def value (s : Str) : Nat := s.foldl (fun v c => 10 * v + (c.toNat - 48)) 0

theorem digitsVal_eq (s : Str) (h : ∀ c ∈ s, isDigit c = true) (acc : Nat) :
    digitsVal acc s = s.foldl (fun v c => 10 * v + (c.toNat - 48)) acc := by
  induction s generalizing acc with
  | nil => rfl
  | cons c s ih =>
    rw [digitsVal, if_pos (h c (List.mem_cons_self ..)), List.foldl_cons,
      ih fun d hd => h d (List.mem_cons_of_mem _ hd)]

theorem digit_range {c : UInt8} (h : isDigit c = true) : 48 ≤ c.toNat ∧ c.toNat ≤ 57 := by
  simp only [isDigit, Bool.and_eq_true, decide_eq_true_eq] at h
  have h2 := UInt8.le_iff_toNat_le.1 h.1
  have h3 := UInt8.le_iff_toNat_le.1 h.2
  simpa using And.intro h2 h3

theorem digit_not {c d : UInt8} (h : isDigit c = true) (hd : d.toNat < 48) : c ≠ d := by
  rintro rfl
  have := digit_range h
  omega

theorem atoi_number (s : Str) (h : IsNumber s) (hv : value s < 2 ^ 31) : atoi s = value s := by
  obtain ⟨hne, hd⟩ := h
  cases s with
  | nil => exact absurd rfl hne
  | cons c s =>
    have hc := hd c (List.mem_cons_self ..)
    have hr := digit_range hc
    have hsp : isSpace c = false := by
      have h32 : c ≠ 32 := digit_not hc (by decide)
      have : ¬ c ≤ 13 := by
        intro hle
        have := UInt8.le_iff_toNat_le.1 hle
        simp at this; omega
      simp [isSpace, h32, this]
    have hval : digitsVal 0 (c :: s) = value (c :: s) := digitsVal_eq _ hd 0
    unfold atoi
    have hdw : (c :: s).dropWhile isSpace = c :: s := by rw [List.dropWhile_cons, if_neg (by simp [hsp])]
    rw [hdw]
    have hm : (match (c :: s : Str) with
        | 45 :: t => (true, t)
        | 43 :: t => (false, t)
        | _ => (false, c :: s)) = (false, c :: s) := by
      have h45 : c ≠ 45 := digit_not hc (by decide)
      have h43 : c ≠ 43 := digit_not hc (by decide)
      split
      · rename_i t he; exact absurd (List.cons.inj he).1 h45
      · rename_i t he; exact absurd (List.cons.inj he).1 h43
      · rfl
    simp only [hm]
    rw [if_neg (by simp), hval]
    have e : min (value (c :: s) : Int) (2 ^ 63 - 1) = (value (c :: s) : Int) := by omega
    rw [e, BitVec.toInt_ofInt]
    unfold Int.bmod
    have : ((value (c :: s) : Int)) % ((2 ^ 32 : Nat) : Int) = value (c :: s) := by omega
    rw [this]
    rw [if_pos (by omega)]

theorem split_number (s : Str) (h : ∀ c ∈ s, isDigit c = true) : split 45 s = [s] := by
  induction s with
  | nil => rfl
  | cons c s ih =>
    rw [split, if_neg (digit_not (h c (List.mem_cons_self ..)) (by decide)),
      ih fun d hd => h d (List.mem_cons_of_mem _ hd)]

theorem split_two (a b : Str) (ha : ∀ c ∈ a, isDigit c = true) (hb : ∀ c ∈ b, isDigit c = true) :
    split 45 (a ++ 45 :: b) = [a, b] := by
  induction a with
  | nil => rw [List.nil_append, split, if_pos rfl, split_number b hb]
  | cons c a ih =>
    rw [List.cons_append, split, if_neg (digit_not (ha c (List.mem_cons_self ..)) (by decide)),
      ih fun d hd => ha d (List.mem_cons_of_mem _ hd)]

/-- C94: a port range of one or two numbers is accepted exactly when the ports are valid and in order, and gives these
numbers. (Missing: other texts should be rejected, `C94_port_violated`.) -/
theorem C94_port_range_partial (a b : Str) (ha : IsNumber a) (hb : IsNumber b) (hva : value a < 2 ^ 31)
    (hvb : value b < 2 ^ 31) :
    (parseRange (a ++ 45 :: b) = if 1 ≤ value a ∧ value a ≤ value b ∧ value b ≤ 65535 then some (value a, value b) else none) ∧
    (parseRange a = if 1 ≤ value a ∧ value a ≤ 65535 then some (value a, value a) else none) := by
  constructor
  · unfold parseRange
    rw [split_two a b ha.2 hb.2]
    simp only [atoi_number a ha hva, atoi_number b hb hvb]
    by_cases h : 1 ≤ value a ∧ value a ≤ value b ∧ value b ≤ 65535
    · rw [if_neg (by omega), if_neg (by omega), if_pos h]; simp
    · rw [if_neg h]
      by_cases h1 : (value a : Int) ≤ 0 ∨ (value a : Int) > 65535
      · rw [if_pos h1]
      · rw [if_neg h1, if_pos (by omega)]
  · unfold parseRange
    rw [split_number a ha.2]
    simp only [atoi_number a ha hva]
    by_cases h : 1 ≤ value a ∧ value a ≤ 65535
    · rw [if_neg (by omega), if_pos h]; simp
    · rw [if_pos (by omega), if_neg h]

/-- "80-90" and "8080" meet the hypotheses. -/
theorem C94_port_example : parseRange [56, 48, 45, 57, 48] = some (80, 90) ∧ parseRange [56, 48, 56, 48] = some (8080, 8080) ∧
    IsNumber [56, 48] ∧ value [56, 48] = 80 := by
  refine ⟨by decide, by decide, ⟨by simp, ?_⟩, by decide⟩
  decide

/-- C94 is violated: "80abc" and "4294967376" are accepted as port 80. -/
theorem C94_port_violated : parseRange [56, 48, 97, 98, 99] = some (80, 80) ∧
    ¬ IsNumber [56, 48, 97, 98, 99] ∧
    parseRange [52, 50, 57, 52, 57, 54, 55, 51, 55, 54] = some (80, 80) ∧
    value [52, 50, 57, 52, 57, 54, 55, 51, 55, 54] = 4294967376 := by
  refine ⟨by decide, ?_, by decide, by decide⟩
  intro h
  have := h.2 97 (by simp)
  revert this; decide

/-- C94: whatever the text, a range that is accepted is a range of valid ports in order. -/
theorem C94_always_valid (text : Str) (first last : Nat) (h : parseRange text = some (first, last)) :
    1 ≤ first ∧ first ≤ last ∧ last ≤ 65535 := by
  unfold parseRange at h
  split at h
  · cases h
  · dsimp only at h
    split at h
    · cases h
    · rename_i hn
      cases h
      omega
  · dsimp only at h
    split at h
    · cases h
    · split at h
      · cases h
      · cases h
        omega
  · cases h

theorem split_length (s : Str) : (split 45 s).length = s.count 45 + 1 := by
  induction s with
  | nil => rfl
  | cons c s ih =>
    rw [split]
    split
    · rename_i hc
      subst hc
      simp [ih]
    · rename_i hc
      have hc' : ¬ (c = 45) := hc
      split
      · rename_i he
        rw [he] at ih
        simp at ih
      · rename_i x xs he
        rw [he] at ih
        simp only [List.length_cons] at ih ⊢
        rw [List.count_cons_of_ne (by simpa using hc')]
        exact ih

/-- C94: a text with more than one dash is refused. -/
theorem C94_more_dashes (text : Str) (h : 2 ≤ text.count 45) : parseRange text = none := by
  have hl := split_length text
  unfold parseRange
  split
  · rfl
  · rename_i he; rw [he] at hl; simp at hl; omega
  · rename_i he; rw [he] at hl; simp at hl; omega
  · rfl

theorem digitsVal_garbage (s g : Str) (hg : ∀ c, g.head? = some c → isDigit c = false) (acc : Nat) :
    (∀ c ∈ s, isDigit c = true) → digitsVal acc (s ++ g) = digitsVal acc s := by
  induction s generalizing acc with
  | nil =>
    intro _
    cases g with
    | nil => rfl
    | cons c g =>
      simp [digitsVal, hg c rfl]
  | cons c s ih =>
    intro h
    rw [List.cons_append, digitsVal, if_pos (h c (List.mem_cons_self ..)), digitsVal,
      if_pos (h c (List.mem_cons_self ..)), ih _ fun d hd => h d (List.mem_cons_of_mem _ hd)]

theorem atoi_garbage (s g : Str) (h : IsNumber s) (hg : ∀ c, g.head? = some c → isDigit c = false) :
    atoi (s ++ g) = atoi s := by
  obtain ⟨hne, hd⟩ := h
  cases s with
  | nil => exact absurd rfl hne
  | cons c s =>
    have hc := hd c (List.mem_cons_self ..)
    have hsp : isSpace c = false := by
      have hr := digit_range hc
      have h32 : c ≠ 32 := digit_not hc (by decide)
      have : ¬ c ≤ 13 := by
        intro hle
        have := UInt8.le_iff_toNat_le.1 hle
        simp at this; omega
      simp [isSpace, h32, this]
    have h45 : c ≠ 45 := digit_not hc (by decide)
    have h43 : c ≠ 43 := digit_not hc (by decide)
    have hm : ∀ x : Str, (match (c :: x : Str) with
        | 45 :: t => (true, t)
        | 43 :: t => (false, t)
        | _ => (false, c :: x)) = (false, c :: x) := by
      intro x
      split
      · rename_i t he; exact absurd (List.cons.inj he).1 h45
      · rename_i t he; exact absurd (List.cons.inj he).1 h43
      · rfl
    have hdw : ∀ x : Str, (c :: x).dropWhile isSpace = c :: x := fun x => by
      rw [List.dropWhile_cons, if_neg (by simp [hsp])]
    unfold atoi
    rw [List.cons_append, hdw, hdw]
    simp only [hm]
    have := digitsVal_garbage (c :: s) g hg 0 hd
    rw [List.cons_append] at this
    rw [this]

/-- C94 is violated by every number that is followed by something that is neither a digit nor has a dash: what follows is
ignored. -/
theorem C94_garbage_violated (a g : Str) (ha : IsNumber a) (hg : ∀ c, g.head? = some c → isDigit c = false)
    (hd : 45 ∉ g) : parseRange (a ++ g) = parseRange a := by
  have hsp : ∀ s : Str, 45 ∉ s → split 45 s = [s] := by
    intro s
    induction s with
    | nil => intro _; rfl
    | cons c s ih =>
      intro h
      rw [split, if_neg (fun e => h (by simp [e])), ih fun hh => h (List.mem_cons_of_mem _ hh)]
  unfold parseRange
  have hna : 45 ∉ a := fun h => digit_not (ha.2 _ h) (by decide : (45 : UInt8).toNat < 48) rfl
  rw [hsp a hna, hsp (a ++ g) (by simp [hna, hd])]
  simp only [atoi_garbage a g ha hg]

/-! ## Escape sequences: model -/

inductive St
  | text
  | dcs
  | cs
  | osc
deriving DecidableEq

def esc : UInt8 := 0x1B

/-- `RemoveEscapeSequences`, common/ansi_filter.cc:36-100. `n += 1` after ESC skips the next character. -/
def removeFrom : St → Str → Str
  | _, [] => []
  | .text, c :: s =>
    if c = esc ∧ s.head? = some 80 then removeFrom .dcs (s.drop 1)
    else if c = 0x90 then removeFrom .dcs s
    else if c = esc ∧ s.head? = some 91 then removeFrom .cs (s.drop 1)
    else if c = 0x9B then removeFrom .cs s
    else if c = esc ∧ s.head? = some 93 then removeFrom .osc (s.drop 1)
    else if c = 0x9D then removeFrom .osc s
    else c :: removeFrom .text s
  | .dcs, c :: s =>
    if c = 0x9C then removeFrom .text s
    else if c = esc ∧ s.head? = some 92 then removeFrom .text (s.drop 1)
    else removeFrom .dcs s
  | .cs, c :: s => if 0x40 ≤ c ∧ c ≤ 0x7E then removeFrom .text s else removeFrom .cs s
  | .osc, c :: s =>
    if c = 0x07 ∨ c = 0x9C then removeFrom .text s
    else if c = esc ∧ s.head? = some 92 then removeFrom .text (s.drop 1)
    else removeFrom .osc s
termination_by _ s => s.length
decreasing_by all_goals (simp_all; try omega)

def removeEscapeSequences (input : Str) : Str := removeFrom .text input

/-! ## Escape sequences: specification -/

/-- Bytes that introduce a sequence. -/
def isIntroducer (c : UInt8) : Bool := c = esc || c = 0x90 || c = 0x9B || c = 0x9D

/-- Ways to begin a device control string, a control sequence, an operating system command, and to end them. -/
inductive DcsBegin : Str → Prop
  | esc : DcsBegin [esc, 80]
  | one : DcsBegin [0x90]
inductive CsBegin : Str → Prop
  | esc : CsBegin [esc, 91]
  | one : CsBegin [0x9B]
inductive OscBegin : Str → Prop
  | esc : OscBegin [esc, 93]
  | one : OscBegin [0x9D]
inductive StEnd : Str → Prop
  | esc : StEnd [esc, 92]
  | one : StEnd [0x9C]
inductive OscEnd : Str → Prop
  | st {e : Str} : StEnd e → OscEnd e
  | bel : OscEnd [0x07]

/-- An ANSI sequence (common/ansi_filter.cc:20-25, 72-95). The parameters of a control sequence are bytes outside 0x40 to
0x7E, its last byte is inside; the body of a string has no terminator and no ESC. -/
inductive IsSequence : Str → Prop
  | cs {b p : Str} {f : UInt8} : CsBegin b → (∀ c ∈ p, ¬ (0x40 ≤ c ∧ c ≤ 0x7E)) → 0x40 ≤ f ∧ f ≤ 0x7E →
      IsSequence (b ++ p ++ [f])
  | dcs {b p e : Str} : DcsBegin b → (∀ c ∈ p, c ≠ esc ∧ c ≠ 0x9C) → StEnd e → IsSequence (b ++ p ++ e)
  | osc {b p e : Str} : OscBegin b → (∀ c ∈ p, c ≠ esc ∧ c ≠ 0x9C ∧ c ≠ 0x07) → OscEnd e → IsSequence (b ++ p ++ e)

/-- `Output input text`: `input` consists of text without introducers and of sequences, `text` is the text. -/
inductive Output : Str → Str → Prop
  | nil : Output [] []
  | text {c : UInt8} {s t : Str} : isIntroducer c = false → Output s t → Output (c :: s) (c :: t)
  | seq {q s t : Str} : IsSequence q → Output s t → Output (q ++ s) t

theorem text_step (c : UInt8) (s : Str) (h : isIntroducer c = false) : removeFrom .text (c :: s) = c :: removeFrom .text s := by
  simp only [isIntroducer, Bool.or_eq_false_iff, decide_eq_false_iff_not] at h
  rw [removeFrom.eq_def]
  simp [h.1.1.1, h.1.1.2, h.1.2, h.2]

theorem cs_body (p s : Str) (f : UInt8) (h : ∀ c ∈ p, ¬ (0x40 ≤ c ∧ c ≤ 0x7E)) (hf : 0x40 ≤ f ∧ f ≤ 0x7E) :
    removeFrom .cs (p ++ f :: s) = removeFrom .text s := by
  induction p with
  | nil => rw [List.nil_append, removeFrom.eq_def]; simp only; rw [if_pos hf]
  | cons c p ih =>
    rw [List.cons_append, removeFrom.eq_def]
    simp only
    rw [if_neg (h c (List.mem_cons_self ..)), ih fun d hd => h d (List.mem_cons_of_mem _ hd)]

theorem dcs_body (p s e : Str) (h : ∀ c ∈ p, c ≠ esc ∧ c ≠ 0x9C) (he : StEnd e) :
    removeFrom .dcs (p ++ (e ++ s)) = removeFrom .text s := by
  induction p with
  | nil =>
    cases he with
    | esc => rw [List.nil_append, removeFrom.eq_def]; simp [esc]
    | one => rw [List.nil_append, removeFrom.eq_def]; simp
  | cons c p ih =>
    have hc := h c (List.mem_cons_self ..)
    rw [List.cons_append, removeFrom.eq_def]
    simp only
    rw [if_neg hc.2, if_neg (fun hh => hc.1 hh.1), ih fun d hd => h d (List.mem_cons_of_mem _ hd)]

theorem osc_body (p s e : Str) (h : ∀ c ∈ p, c ≠ esc ∧ c ≠ 0x9C ∧ c ≠ 0x07) (he : OscEnd e) :
    removeFrom .osc (p ++ (e ++ s)) = removeFrom .text s := by
  induction p with
  | nil =>
    cases he with
    | st he =>
      cases he with
      | esc => rw [List.nil_append, removeFrom.eq_def]; simp [esc]
      | one => rw [List.nil_append, removeFrom.eq_def]; simp
    | bel => rw [List.nil_append, removeFrom.eq_def]; simp
  | cons c p ih =>
    have hc := h c (List.mem_cons_self ..)
    rw [List.cons_append, removeFrom.eq_def]
    simp only
    rw [if_neg (fun hh => hh.elim hc.2.2 hc.2.1), if_neg (fun hh => hc.1 hh.1),
      ih fun d hd => h d (List.mem_cons_of_mem _ hd)]

theorem seq_step (q s : Str) (h : IsSequence q) : removeFrom .text (q ++ s) = removeFrom .text s := by
  cases h with
  | @cs b p f hb hp hf =>
    rw [List.append_assoc, List.append_assoc]
    have : removeFrom .text (b ++ (p ++ ([f] ++ s))) = removeFrom .cs (p ++ ([f] ++ s)) := by
      cases hb with
      | esc => rw [removeFrom.eq_def]; simp [esc]
      | one => rw [removeFrom.eq_def]; simp [esc]
    rw [this]
    exact cs_body p s f hp hf
  | @dcs b p e hb hp he =>
    rw [List.append_assoc, List.append_assoc]
    have : removeFrom .text (b ++ (p ++ (e ++ s))) = removeFrom .dcs (p ++ (e ++ s)) := by
      cases hb with
      | esc => rw [removeFrom.eq_def]; simp
      | one => rw [removeFrom.eq_def]; simp [esc]
    rw [this]
    exact dcs_body p s e hp he
  | @osc b p e hb hp he =>
    rw [List.append_assoc, List.append_assoc]
    have : removeFrom .text (b ++ (p ++ (e ++ s))) = removeFrom .osc (p ++ (e ++ s)) := by
      cases hb with
      | esc => rw [removeFrom.eq_def]; simp [esc]
      | one => rw [removeFrom.eq_def]; simp [esc]
    rw [this]
    exact osc_body p s e hp he

/-- C95: for output made of text and ANSI sequences, exactly the text is kept. (Text whose UTF-8 encoding has
the bytes 0x90, 0x9B or 0x9D: `C96_utf8_violated`.) -/
theorem C95_ansi (input text : Str) (h : Output input text) : removeEscapeSequences input = text := by
  unfold removeEscapeSequences
  induction h with
  | nil => rw [removeFrom.eq_def]
  | text hc _ ih => rw [text_step _ _ hc, ih]
  | seq hq _ ih => rw [seq_step _ _ hq, ih]

/-- C95: text without introducers is unchanged. -/
theorem C95_plain_text (input : Str) (h : ∀ c ∈ input, isIntroducer c = false) : removeEscapeSequences input = input := by
  apply C95_ansi
  induction input with
  | nil => exact .nil
  | cons c s ih => exact .text (h c (List.mem_cons_self ..)) (ih fun d hd => h d (List.mem_cons_of_mem _ hd))

theorem sublist_removeFrom (st : St) (s : Str) : (removeFrom st s).Sublist s := by
  suffices ∀ (n : Nat) (st : St) (s : Str), s.length ≤ n → (removeFrom st s).Sublist s from this _ _ _ (Nat.le_refl _)
  intro n
  induction n with
  | zero =>
    intro st s hs
    have : s = [] := List.length_eq_zero_iff.1 (by omega)
    subst this
    rw [removeFrom.eq_def]
    exact List.Sublist.refl _
  | succ n ih =>
    intro st s hs
    cases s with
    | nil => rw [removeFrom.eq_def]; exact List.Sublist.refl _
    | cons c s =>
      have h1 : ∀ st, (removeFrom st s).Sublist (c :: s) := fun st =>
        (ih st s (by simp at hs; omega)).trans (List.sublist_cons_self c s)
      have h2 : ∀ st, (removeFrom st (s.drop 1)).Sublist (c :: s) := fun st =>
        ((ih st (s.drop 1) (by simp at hs ⊢; omega)).trans (List.drop_sublist 1 s)).trans (List.sublist_cons_self c s)
      have h3 : (c :: removeFrom .text s).Sublist (c :: s) := List.Sublist.cons₂ c (ih .text s (by simp at hs; omega))
      rw [removeFrom.eq_def]
      cases st <;> simp only <;> repeat' split
      all_goals first | exact h1 _ | exact h2 _ | exact h3

/-- C95: nothing is added or reordered, for every input. -/
theorem C95_sublist (input : Str) : (removeEscapeSequences input).Sublist input := sublist_removeFrom _ _

/-- Not vacuous: "a", bold on, "b". -/
theorem C95_ansi_example : Output [97, 0x1B, 91, 49, 109, 98] [97, 98] := by
  refine .text (by decide) (.seq (q := [0x1B, 91, 49, 109]) (.cs (b := [0x1B, 91]) (p := [49]) (f := 109) .esc ?_ ?_)
    (.text (by decide) .nil))
  · intro c hc
    simp only [List.mem_singleton] at hc
    subst hc; decide
  · decide

/-- C96, exactly: a text is left unchanged if and only if it has none of the bytes 0x90, 0x9B and 0x9D, and no ESC before P, [ or ]. The three bytes occur in UTF-8 text, as the
second or a later byte of a character. So every text with such a character loses something. -/
theorem C96_exactly (input : Str) : removeEscapeSequences input = input ↔
    (∀ c ∈ input, c ≠ 0x90 ∧ c ≠ 0x9B ∧ c ≠ 0x9D) ∧ ∀ x ∈ ([80, 91, 93] : Str), ¬ [0x1B, x] <:+: input := by
  unfold removeEscapeSequences
  induction input with
  | nil =>
    rw [removeFrom.eq_def]
    simp
  | cons a s ih =>
    have hhead : ∀ x : UInt8, s.head? = some x ↔ [x] <+: s := by
      intro x
      cases s with
      | nil => simp
      | cons y t => simp [eq_comm]
    have key : removeFrom .text (a :: s) = a :: s ↔ ((a ≠ 0x90 ∧ a ≠ 0x9B ∧ a ≠ 0x9D) ∧ ∀ x ∈ ([80, 91, 93] : Str), ¬ (a = 0x1B ∧ s.head? = some x)) ∧
        removeFrom .text s = s := by
      constructor
      · intro h
        have hlt : ∀ t : Str, t.length < (a :: s).length → t ≠ a :: s := fun t ht e => by rw [e] at ht; exact absurd ht (Nat.lt_irrefl _)
        have h1 : ∀ st, removeFrom st s ≠ a :: s := fun st => hlt _ (Nat.lt_succ_of_le (sublist_removeFrom st s).length_le)
        have h2 : ∀ st, removeFrom st (s.drop 1) ≠ a :: s := fun st =>
          hlt _ (Nat.lt_succ_of_le (Nat.le_trans (sublist_removeFrom st _).length_le (by simp)))
        rw [removeFrom.eq_def] at h
        simp only at h
        repeat' split at h
        all_goals first | exact absurd h (h1 _) | exact absurd h (h2 _) | skip
        rename_i n1 n2 n3 n4 n5 n6
        refine ⟨⟨⟨n2, n4, n6⟩, ?_⟩, (List.cons.inj h).2⟩
        intro x hx
        simp only [List.mem_cons, List.not_mem_nil, or_false] at hx
        rcases hx with rfl | rfl | rfl
        · exact n1
        · exact n3
        · exact n5
      · rintro ⟨⟨⟨n2, n4, n6⟩, hx⟩, h⟩
        change ∀ x ∈ _, ¬ (a = esc ∧ _) at hx
        rw [removeFrom.eq_def]
        simp only
        rw [if_neg (hx 80 (by simp)), if_neg n2, if_neg (hx 91 (by simp)), if_neg n4, if_neg (hx 93 (by simp)), if_neg n6, h]
    rw [key, ih]
    have hinf : ∀ x : UInt8, [0x1B, x] <:+: a :: s ↔ (a = 0x1B ∧ s.head? = some x) ∨ [0x1B, x] <:+: s := by
      intro x
      rw [List.infix_cons_iff, List.cons_prefix_cons, hhead, eq_comm]
    simp only [hinf, not_or]
    constructor
    · rintro ⟨⟨h1, h2⟩, h3, h4⟩
      exact ⟨List.forall_mem_cons.2 ⟨h1, h3⟩, fun x hx => ⟨h2 x hx, h4 x hx⟩⟩
    · rintro ⟨h0, h⟩
      obtain ⟨h1, h3⟩ := List.forall_mem_cons.1 h0
      exact ⟨⟨h1, fun x hx => (h x hx).1⟩, h3, fun x hx => (h x hx).2⟩

/-- C96 is violated for text in UTF-8: "ě1 x" (bytes C4 9B 31 20 78) has no ANSI sequence, but loses "1 x" and half of a
character. -/
theorem C96_utf8_violated : removeEscapeSequences [0xC4, 0x9B, 0x31, 0x20, 0x78] = [0xC4] := by
  with_unfolding_all rfl

end Verif.Text.Flags
