import Verif.Text.Path
import Verif.Store.Model
/-! # C52: the cache directory of a source directory
(cdc_stream/multi_session.cc: `GetCacheDir`, `GetCachePath`; common/util.cc: `Utf8CodePointLen`) -/
namespace Verif.Text.CachePath

open Verif.Text.Path (join ensureEndsWithSep toUnix isSep)

abbrev Str := List UInt8

/-! ## Model -/

/-- `(ustr[index] & 0xC0) == 0x80`, common/util.cc:194. -/
def is10 (c : UInt8) : Bool := c &&& 0xC0 == 0x80

/-- `Utf8CodePointLen`, common/util.cc:187-204. The bytes behind the end are the terminating zero; no byte behind that one
is looked at, because a byte is read only if all bytes before it are not zero. -/
def codePointLen (s : Str) : Nat :=
  let b := fun i => s.getD i 0
  if b 0 = 0 then 0
  else if b 0 &&& 0x80 = 0 then 1
  else if b 0 &&& 0xE0 = 0xC0 then (if is10 (b 1) then 2 else 0)
  else if b 0 &&& 0xF0 = 0xE0 then (if is10 (b 1) && is10 (b 2) then 3 else 0)
  else if b 0 &&& 0xF8 = 0xF0 then (if is10 (b 1) && is10 (b 2) && is10 (b 3) then 4 else 0)
  else 0

/-- `kDirHashLen`, cdc_stream/multi_session.h:149. -/
def hashLen : Nat := 8

/-- `invalid_chars` and the terminating zero `strchr` also finds, cdc_stream/multi_session.cc:594-597. -/
def sanitize (c : UInt8) : UInt8 :=
  if c ∈ [60, 62, 58, 34, 47, 92, 124, 63, 42, 0] then 95 else c

/-- The string that is hashed, cdc_stream/multi_session.cc:582-590, from the full path of the directory (`GetFullPath` is
not modelled; on Windows the full path is also converted to lower case). -/
def normalize (windows : Bool) (fullPath : Str) : Str := toUnix (ensureEndsWithSep windows fullPath)

/-- `ContentId::ToHexString` (modelled in Verif.Store.Model) as bytes. -/
def hexBytes (id : Str) : Str := (Store.toHex id).map fun c => UInt8.ofNat c.toNat

/-- `GetCacheDir`, cdc_stream/multi_session.cc:581-600; `hash` is `ContentId::FromDataString`. -/
def cacheDir (hash : Str → Str) (windows : Bool) (fullPath : Str) : Str :=
  let dir := normalize windows fullPath
  dir.map sanitize ++ (hexBytes (hash dir)).take hashLen

/-- The loop at cdc_stream/multi_session.cc:631-635. -/
def skip (s : Str) (toRemove start : Nat) : Nat :=
  if start < toRemove then skip s toRemove (start + max (codePointLen (s.drop start)) 1) else start
termination_by toRemove - start

/-- `GetCachePath`, cdc_stream/multi_session.cc:615-639, for the base directory `base`. -/
def cachePath (windows : Bool) (base dir : Str) (maxLen : Nat) : Str :=
  let total := base.length + 1 + dir.length
  if total ≤ maxLen then join windows base dir
  else
    let toRemove := min (total - maxLen) (dir.length - hashLen)
    join windows base (dir.drop (skip dir toRemove 0))

/-! ## Specification -/

/-- The UTF-8 encodings of characters. -/
inductive Utf8Char : Str → Prop
  | one {a : UInt8} : a ≠ 0 → a &&& 0x80 = 0 → Utf8Char [a]
  | two {a b : UInt8} : a &&& 0xE0 = 0xC0 → is10 b = true → Utf8Char [a, b]
  | three {a b c : UInt8} : a &&& 0xF0 = 0xE0 → is10 b = true → is10 c = true → Utf8Char [a, b, c]
  | four {a b c d : UInt8} : a &&& 0xF8 = 0xF0 → is10 b = true → is10 c = true → is10 d = true → Utf8Char [a, b, c, d]

/-- The first hash characters of a directory. -/
def hashSuffix (hash : Str → Str) (windows : Bool) (fullPath : Str) : Str :=
  (hexBytes (hash (normalize windows fullPath))).take hashLen

/-! ## Proof -/

theorem codePointLen_le (s : Str) : codePointLen s ≤ 4 := by
  unfold codePointLen
  simp only
  repeat' split
  all_goals omega

/-- All bytes of a code point after the first one are continuation bytes. -/
theorem codePointLen_cont (s : Str) (i : Nat) (h1 : 1 ≤ i) (h2 : i < codePointLen s) : is10 (s.getD i 0) = true := by
  unfold codePointLen at h2
  simp only at h2
  split at h2
  · omega
  split at h2
  · omega
  split at h2
  · split at h2
    · rename_i h; have : i = 1 := by omega
      subst this; exact h
    · omega
  split at h2
  · split at h2
    · rename_i h
      simp only [Bool.and_eq_true] at h
      have : i = 1 ∨ i = 2 := by omega
      rcases this with rfl | rfl
      · exact h.1
      · exact h.2
    · omega
  split at h2
  · split at h2
    · rename_i h
      simp only [Bool.and_eq_true] at h
      have : i = 1 ∨ i = 2 ∨ i = 3 := by omega
      rcases this with rfl | rfl | rfl
      · exact h.1.1
      · exact h.1.2
      · exact h.2
    · omega
  · omega

theorem ascii_not_cont (c : UInt8) (h : c < 128) : is10 c = false := by
  have hn := UInt8.lt_iff_toNat_lt.1 h
  have : c.toNat < 128 := by simpa using hn
  unfold is10
  rw [beq_eq_false_iff_ne]
  intro hc
  have h2 := congrArg UInt8.toNat hc
  rw [UInt8.toNat_and] at h2
  have h3 : ∀ n < 128, n &&& (0xC0 : UInt8).toNat ≠ (0x80 : UInt8).toNat := by decide
  exact h3 _ this h2

/-- The loop stops within the part in front of an ASCII suffix. -/
theorem skip_le (p h : Str) (hh : ∀ c ∈ h, c < 128) (toRemove start : Nat) (ht : toRemove ≤ p.length)
    (hs : start ≤ p.length) : skip (p ++ h) toRemove start ≤ p.length := by
  fun_induction skip (p ++ h) toRemove start with
  | case1 start hlt ih =>
    apply ih
    have hcp : start + codePointLen ((p ++ h).drop start) ≤ p.length := by
      apply Nat.le_of_not_lt
      intro hgt
      have hcont := codePointLen_cont ((p ++ h).drop start) (p.length - start) (by omega) (by omega)
      have : is10 (((p ++ h).drop start).getD (p.length - start) 0) = false := by
        rw [List.getD_eq_getElem?_getD, List.getElem?_drop, show start + (p.length - start) = p.length by omega,
          List.getElem?_append_right (Nat.le_refl _), Nat.sub_self]
        cases h with
        | nil => rfl
        | cons c h => exact ascii_not_cont c (hh c (List.mem_cons_self ..))
      rw [this] at hcont
      cases hcont
    omega
  | case2 start hlt => exact hs

theorem skip_ge (s : Str) (toRemove start : Nat) : toRemove ≤ skip s toRemove start := by
  fun_induction skip s toRemove start with
  | case1 start hlt ih => exact ih
  | case2 start hlt => omega

/-- The cut is at most three bytes later than needed. -/
theorem skip_tight (s : Str) (toRemove start : Nat) (h : start ≤ toRemove + 3) (hl : toRemove ≤ s.length) :
    skip s toRemove start ≤ toRemove + 3 := by
  fun_induction skip s toRemove start with
  | case1 start hlt ih =>
    apply ih
    have := codePointLen_le (s.drop start)
    omega
  | case2 start hlt => exact h

theorem codePointLen_char (ch rest : Str) (h : Utf8Char ch) : codePointLen (ch ++ rest) = ch.length := by
  -- the leading byte determines the case
  have key : ∀ n < 256,
      ((UInt8.ofNat n &&& 0xE0 = 0xC0) → (UInt8.ofNat n ≠ 0 ∧ UInt8.ofNat n &&& 0x80 ≠ 0)) ∧
      ((UInt8.ofNat n &&& 0xF0 = 0xE0) → (UInt8.ofNat n ≠ 0 ∧ UInt8.ofNat n &&& 0x80 ≠ 0 ∧ UInt8.ofNat n &&& 0xE0 ≠ 0xC0)) ∧
      ((UInt8.ofNat n &&& 0xF8 = 0xF0) → (UInt8.ofNat n ≠ 0 ∧ UInt8.ofNat n &&& 0x80 ≠ 0 ∧ UInt8.ofNat n &&& 0xE0 ≠ 0xC0 ∧
        UInt8.ofNat n &&& 0xF0 ≠ 0xE0)) := by
    decide +kernel
  have key' : ∀ a : UInt8,
      ((a &&& 0xE0 = 0xC0) → (a ≠ 0 ∧ a &&& 0x80 ≠ 0)) ∧
      ((a &&& 0xF0 = 0xE0) → (a ≠ 0 ∧ a &&& 0x80 ≠ 0 ∧ a &&& 0xE0 ≠ 0xC0)) ∧
      ((a &&& 0xF8 = 0xF0) → (a ≠ 0 ∧ a &&& 0x80 ≠ 0 ∧ a &&& 0xE0 ≠ 0xC0 ∧ a &&& 0xF0 ≠ 0xE0)) := by
    intro a
    have := key a.toNat a.toNat_lt
    rwa [UInt8.ofNat_toNat] at this
  cases h with
  | @one a h0 h1 => simp [codePointLen, h0, h1]
  | @two a b h1 h2 =>
    obtain ⟨k0, k1⟩ := (key' a).1 h1
    simp [codePointLen, k0, k1, h1, h2]
  | @three a b c h1 h2 h3 =>
    obtain ⟨k0, k1, k2⟩ := (key' a).2.1 h1
    simp [codePointLen, k0, k1, k2, h1, h2, h3]
  | @four a b c d h1 h2 h3 h4 =>
    obtain ⟨k0, k1, k2, k3⟩ := (key' a).2.2 h1
    simp [codePointLen, k0, k1, k2, k3, h1, h2, h3, h4]

theorem utf8Char_ne (ch : Str) (h : Utf8Char ch) : 1 ≤ ch.length := by
  cases h <;> simp

/-- On valid UTF-8 the cut is between two characters. -/
theorem skip_boundary (chars : List Str) (hc : ∀ ch ∈ chars, Utf8Char ch) (toRemove : Nat)
    (ht : toRemove ≤ chars.flatten.length) : ∀ (k : Nat), k ≤ chars.length →
    ∃ j, k ≤ j ∧ j ≤ chars.length ∧ skip chars.flatten toRemove ((chars.take k).flatten.length) =
      (chars.take j).flatten.length := by
  intro k hk
  generalize hd : chars.length - k = d
  induction d using Nat.strongRecOn generalizing k with
  | _ d ih =>
    rw [skip]
    split
    · rename_i hlt
      have hkl : k < chars.length := by
        apply Nat.lt_of_not_le
        intro hle
        rw [List.take_of_length_le hle] at hlt
        omega
      have hdrop : chars.flatten.drop (chars.take k).flatten.length = chars[k] ++ (chars.drop (k + 1)).flatten := by
        have e : chars.flatten = (chars.take k).flatten ++ (chars[k] ++ (chars.drop (k + 1)).flatten) := by
          rw [← List.flatten_cons, ← List.drop_eq_getElem_cons hkl, ← List.flatten_append, List.take_append_drop]
        rw [e, List.drop_left]
      have hch := hc chars[k] (List.getElem_mem hkl)
      rw [hdrop, codePointLen_char _ _ hch, Nat.max_eq_left (utf8Char_ne _ hch)]
      have e2 : (chars.take k).flatten.length + chars[k].length = (chars.take (k + 1)).flatten.length := by
        rw [List.take_succ_eq_append_getElem hkl, List.flatten_append]
        simp
      rw [e2]
      obtain ⟨j, h1, h2, h3⟩ := ih (chars.length - (k + 1)) (by omega) (k + 1) (by omega) rfl
      exact ⟨j, by omega, h2, h3⟩
    · exact ⟨k, Nat.le_refl _, hk, rfl⟩

/-! ## Theorems -/

theorem hex_ascii (id : Str) : ∀ c ∈ hexBytes id, c < 128 := by
  have key : ∀ n < 16, UInt8.ofNat (Store.intToHex n).toNat < 128 := by decide
  unfold hexBytes
  induction id with
  | nil => intro c hc; cases hc
  | cons b bs ih =>
    intro c hc
    rw [Store.toHex, List.map_cons, List.map_cons] at hc
    rcases List.mem_cons.1 hc with rfl | hc
    · apply key
      rw [Nat.shiftRight_eq_div_pow]
      have := b.toNat_lt
      omega
    · rcases List.mem_cons.1 hc with rfl | hc
      · apply key
        have : b.toNat &&& 15 ≤ 15 := Nat.and_le_right
        omega
      · exact ih c hc

theorem toHex_length (id : Str) : (hexBytes id).length = 2 * id.length := by
  unfold hexBytes
  rw [List.length_map]
  induction id with
  | nil => rfl
  | cons b bs ih => rw [Store.toHex]; simp only [List.length_cons, ih]; omega

theorem join_eq (windows : Bool) (base name : Str) (hb : base.getLast?.map isSep = some false) (hn : name ≠ []) :
    join windows base name = base ++ [Path.native windows] ++ name := by
  unfold join Path.joinWith Path.needsSep
  rw [if_neg hn]
  cases hl : base.getLast? with
  | none => rw [hl] at hb; cases hb
  | some c =>
    rw [hl] at hb
    have : isSep c = false := by simpa using hb
    simp [this]

/-- C52: for every source directory and every length limit, the cache path is the base directory, a separator and a name
that ends with the whole hash of the directory; the path is the unshortened one if that fits, otherwise it keeps within
the limit unless not even the hash fits, in which case the name is only the hash. -/
theorem C52_cache_path (hash : Str → Str) (hlen : ∀ s, 4 ≤ (hash s).length) (windows : Bool) (base fullPath : Str)
    (hb : base.getLast?.map isSep = some false) (maxLen : Nat) :
    ∃ keep, cachePath windows base (cacheDir hash windows fullPath) maxLen =
        base ++ [Path.native windows] ++ keep ++ hashSuffix hash windows fullPath ∧
      (hashSuffix hash windows fullPath).length = 8 ∧
      -- what is kept is the end of the sanitized directory
      (∃ cut, (normalize windows fullPath).map sanitize = cut ++ keep ∧
        (base.length + 1 + (cacheDir hash windows fullPath).length ≤ maxLen → cut = [])) ∧
      -- the limit
      ((base ++ [Path.native windows] ++ keep ++ hashSuffix hash windows fullPath).length ≤ maxLen ∨
        (keep = [] ∧ maxLen < base.length + 1 + 8)) ∧
      -- no more is cut than necessary
      ((base ++ [Path.native windows] ++ keep ++ hashSuffix hash windows fullPath).length + 3 ≥
        min maxLen (base.length + 1 + (cacheDir hash windows fullPath).length)) := by
  have hsl : (hashSuffix hash windows fullPath).length = 8 := by
    unfold hashSuffix hashLen
    rw [List.length_take, toHex_length]
    have := hlen (normalize windows fullPath)
    omega
  have hascii : ∀ c ∈ hashSuffix hash windows fullPath, c < 128 := fun c hc => hex_ascii _ c (List.mem_of_mem_take hc)
  have hdir : cacheDir hash windows fullPath = (normalize windows fullPath).map sanitize ++ hashSuffix hash windows fullPath := rfl
  generalize hashSuffix hash windows fullPath = h at *
  generalize cacheDir hash windows fullPath = dir at *
  generalize (normalize windows fullPath).map sanitize = p at *
  subst hdir
  have hne : ∀ (k : Str), k ++ h ≠ [] := by
    intro k he
    have := congrArg List.length he
    rw [List.length_append, List.length_nil] at this
    omega
  by_cases hfit : base.length + 1 + (p ++ h).length ≤ maxLen
  · refine ⟨p, ?_, hsl, ⟨[], rfl, fun _ => rfl⟩, .inl ?_, ?_⟩
    · unfold cachePath
      simp only
      rw [if_pos hfit, join_eq _ _ _ hb (hne p)]
      simp
    · simp only [List.length_append, List.length_singleton] at hfit ⊢; omega
    · simp only [List.length_append, List.length_singleton] at hfit ⊢; omega
  · have hpl : (p ++ h).length - hashLen = p.length := by simp [hsl, hashLen]
    generalize hT : min (base.length + 1 + (p ++ h).length - maxLen) p.length = T
    have hT2 : T ≤ p.length := by omega
    have hle := skip_le p h hascii T 0 hT2 (by omega)
    have hge := skip_ge (p ++ h) T 0
    have htight := skip_tight (p ++ h) T 0 (by omega) (by simp; omega)
    have hcp : cachePath windows base (p ++ h) maxLen = join windows base ((p ++ h).drop (skip (p ++ h) T 0)) := by
      unfold cachePath
      simp only
      rw [if_neg hfit, hpl, hT]
    generalize skip (p ++ h) T 0 = k at *
    have hdk : (p ++ h).drop k = p.drop k ++ h := List.drop_append_of_le_length hle
    refine ⟨p.drop k, ?_, hsl, ⟨p.take k, (List.take_append_drop ..).symm, fun hf => absurd hf hfit⟩, ?_, ?_⟩
    · rw [hcp, hdk, join_eq _ _ _ hb (hne _)]
      simp
    · simp only [List.length_append, List.length_singleton, List.length_drop, hsl] at hfit hT ⊢
      by_cases hlim : maxLen < base.length + 1 + 8
      · right
        refine ⟨?_, hlim⟩
        rw [List.drop_eq_nil_iff]
        omega
      · left; omega
    · simp only [List.length_append, List.length_singleton, List.length_drop, hsl] at hfit hT ⊢
      omega

/-- C52: if the directory is valid UTF-8, the path is not cut inside a character. -/
theorem C52_no_split_characters (windows : Bool) (base h : Str) (hb : base.getLast?.map isSep = some false)
    (chars : List Str) (hc : ∀ ch ∈ chars, Utf8Char ch) (hh : ∀ c ∈ h, c < 128) (hl : h.length = 8) (maxLen : Nat) :
    ∃ j, cachePath windows base (chars.flatten ++ h) maxLen =
      base ++ [Path.native windows] ++ (chars.drop j).flatten ++ h := by
  have hne : ∀ (k : Str), k ++ h ≠ [] := by
    intro k he
    have := congrArg List.length he
    rw [List.length_append, List.length_nil] at this
    omega
  unfold cachePath
  simp only
  split
  · exact ⟨0, by rw [join_eq _ _ _ hb (hne _)]; simp⟩
  · have hpl : (chars.flatten ++ h).length - hashLen = chars.flatten.length := by simp [hl, hashLen]
    rw [hpl]
    generalize hT : min (base.length + 1 + (chars.flatten ++ h).length - maxLen) chars.flatten.length = T
    have hTl : T ≤ chars.flatten.length := by omega
    -- the bytes of the hash are looked at by no step
    have hsame : ∀ (start : Nat), (∃ k, k ≤ chars.length ∧ start = (chars.take k).flatten.length) →
        skip (chars.flatten ++ h) T start = skip chars.flatten T start := by
      intro start hk
      generalize hd : T - start = d
      induction d using Nat.strongRecOn generalizing start with
      | _ d ih =>
        obtain ⟨k, hkl, rfl⟩ := hk
        rw [skip, skip.eq_def chars.flatten]
        split
        · rename_i hlt
          have hkl2 : k < chars.length := by
            apply Nat.lt_of_not_le
            intro hle
            rw [List.take_of_length_le hle] at hlt
            omega
          have e : chars.flatten = (chars.take k).flatten ++ (chars[k] ++ (chars.drop (k + 1)).flatten) := by
            rw [← List.flatten_cons, ← List.drop_eq_getElem_cons hkl2, ← List.flatten_append, List.take_append_drop]
          have hdrop : chars.flatten.drop (chars.take k).flatten.length = chars[k] ++ (chars.drop (k + 1)).flatten := by
            rw [e, List.drop_left]
          have hdrop2 : (chars.flatten ++ h).drop (chars.take k).flatten.length =
              chars[k] ++ ((chars.drop (k + 1)).flatten ++ h) := by
            rw [e, List.append_assoc, List.drop_left, List.append_assoc]
          have hch := hc chars[k] (List.getElem_mem hkl2)
          rw [hdrop, hdrop2, codePointLen_char _ _ hch, codePointLen_char _ _ hch, Nat.max_eq_left (utf8Char_ne _ hch)]
          have e2 : (chars.take k).flatten.length + chars[k].length = (chars.take (k + 1)).flatten.length := by
            rw [List.take_succ_eq_append_getElem hkl2, List.flatten_append]
            simp
          have hpos := utf8Char_ne _ hch
          rw [e2]
          exact ih _ (by omega) _ ⟨k + 1, by omega, rfl⟩ rfl
        · rfl
    obtain ⟨j, _, hj, hs⟩ := skip_boundary chars hc T hTl 0 (by omega)
    simp only [List.take_zero, List.flatten_nil, List.length_nil] at hs
    refine ⟨j, ?_⟩
    rw [hsame 0 ⟨0, by omega, by simp⟩, hs]
    have : (chars.flatten ++ h).drop (chars.take j).flatten.length = (chars.drop j).flatten ++ h := by
      have e : chars.flatten = (chars.take j).flatten ++ (chars.drop j).flatten := by
        rw [← List.flatten_append, List.take_append_drop]
      rw [e, List.append_assoc, List.drop_left]
    rw [this, join_eq _ _ _ hb (hne _)]
    simp

/-- Not vacuous: the directory "/ab/é" (é is C3 A9), base "/c", limit 13: the name is cut to "_" and the hash, since cutting
in the middle of é is not allowed. -/
theorem C52_example :
    cachePath false [47, 99] (cacheDir (fun _ => [1, 2, 3, 4]) false [47, 97, 98, 47, 0xC3, 0xA9]) 13 =
      [47, 99, 47, 95, 48, 49, 48, 50, 48, 51, 48, 52] ∧
    Utf8Char [0xC3, 0xA9] ∧ ([47, 99] : Str).getLast?.map isSep = some false := by
  refine ⟨by decide +kernel, .two (by decide) (by decide), by decide⟩

/-! ## C207: the name of the cache directory -/

/-- What no name of a file may have on Windows: `<`, `>`, `:`, `"`, `/`, `\`, `|`, `?`, `*` and the terminating zero. -/
def Forbidden (c : UInt8) : Prop :=
  c = 60 ∨ c = 62 ∨ c = 58 ∨ c = 34 ∨ c = 47 ∨ c = 92 ∨ c = 124 ∨ c = 63 ∨ c = 42 ∨ c = 0

instance (c : UInt8) : Decidable (Forbidden c) := by unfold Forbidden; infer_instance

theorem sanitize_spec (c : UInt8) : ¬ Forbidden (sanitize c) ∧ (Forbidden c → sanitize c = 95) ∧ (¬ Forbidden c → sanitize c = c) := by
  have h : ∀ n : Fin 256, ¬ Forbidden (sanitize (UInt8.ofNat n)) ∧ (Forbidden (UInt8.ofNat n) → sanitize (UInt8.ofNat n) = 95) ∧
      (¬ Forbidden (UInt8.ofNat n) → sanitize (UInt8.ofNat n) = UInt8.ofNat n) := by decide +kernel
  have := h ⟨c.toNat, c.toNat_lt⟩
  simpa using this

theorem hex_allowed (id : Str) : ∀ c ∈ hexBytes id, ¬ Forbidden c := by
  have h16 : ∀ a < 16, ¬ Forbidden (UInt8.ofNat (Store.intToHex a).toNat) := by decide +kernel
  unfold hexBytes
  induction id with
  | nil => intro c hc; cases hc
  | cons b bs ih =>
    intro c hc
    have hb := b.toNat_lt
    rw [Store.toHex, List.map_cons, List.map_cons] at hc
    rcases List.mem_cons.1 hc with rfl | hc
    · exact h16 _ (by rw [Nat.shiftRight_eq_div_pow]; omega)
    · rcases List.mem_cons.1 hc with rfl | hc
      · exact h16 _ (by have : b.toNat &&& 15 ≤ 15 := Nat.and_le_right
                        omega)
      · exact ih c hc

/-- **C207** For every directory and every limit the cache is one directory directly below the base directory: its name is not empty, has no separator and no
other character that is not allowed, and it is the directory's path (as far as it fits, from the end) in which exactly the forbidden characters are `_`, and
the hash. -/
theorem C207_valid_name (hash : Str → Str) (hlen : ∀ s, 4 ≤ (hash s).length) (windows : Bool) (base fullPath : Str)
    (hb : base.getLast?.map isSep = some false) (maxLen : Nat) :
    ∃ name, cachePath windows base (cacheDir hash windows fullPath) maxLen = base ++ [Path.native windows] ++ name ∧ name ≠ [] ∧
      (∀ c ∈ name, ¬ Forbidden c) ∧
      ∃ cut keep, normalize windows fullPath = cut ++ keep ∧
        name = keep.map (fun c => if Forbidden c then 95 else c) ++ (hexBytes (hash (normalize windows fullPath))).take 8 := by
  obtain ⟨keep, h1, h2, ⟨cut, h3, _⟩, _⟩ := C52_cache_path hash hlen windows base fullPath hb maxLen
  refine ⟨keep ++ hashSuffix hash windows fullPath, ?_, ?_, ?_, (normalize windows fullPath).take cut.length, (normalize windows fullPath).drop cut.length, ?_, ?_⟩
  · rw [h1, List.append_assoc]
  · intro he
    have := congrArg List.length he
    rw [List.length_append, List.length_nil] at this
    omega
  · intro c hc
    rcases List.mem_append.1 hc with hc | hc
    · have : c ∈ (normalize windows fullPath).map sanitize := by rw [h3]; exact List.mem_append_right _ hc
      obtain ⟨d, _, rfl⟩ := List.mem_map.1 this
      exact (sanitize_spec d).1
    · exact hex_allowed _ c (List.mem_of_mem_take hc)
  · exact (List.take_append_drop _ _).symm
  · have hk : keep = ((normalize windows fullPath).drop cut.length).map sanitize := by rw [List.map_drop, h3, List.drop_left]
    rw [hk]
    have : (fun c => if Forbidden c then (95 : UInt8) else c) = sanitize := by
      funext c
      by_cases hf : Forbidden c
      · rw [if_pos hf, (sanitize_spec c).2.1 hf]
      · rw [if_neg hf, (sanitize_spec c).2.2 hf]
    rw [this]
    rfl

/-- Not vacuous: the name for `C:\a?` is `C__a__` and the hash. -/
example : cachePath true [67, 58, 92, 99] (cacheDir (fun _ => [1, 2, 3, 4]) true [67, 58, 92, 97, 63]) 100 =
    [67, 58, 92, 99, 92] ++ [67, 95, 95, 97, 95, 95] ++ [48, 49, 48, 50, 48, 51, 48, 52] ∧ ([67, 58, 92, 99] : Str).getLast?.map isSep = some false := by
  decide +kernel

/-! ## C60: different directories have different cache paths -/

theorem hexDigit_inj : ∀ a < 16, ∀ b < 16, UInt8.ofNat (Store.intToHex a).toNat = UInt8.ofNat (Store.intToHex b).toNat → a = b := by
  decide

theorem hexBytes_take (id : Str) (n : Nat) : (hexBytes id).take (2 * n) = hexBytes (id.take n) := by
  unfold hexBytes
  induction id generalizing n with
  | nil => simp [Store.toHex]
  | cons b bs ih =>
    cases n with
    | zero => simp [Store.toHex]
    | succ n =>
      rw [show 2 * (n + 1) = 2 * n + 1 + 1 by omega, Store.toHex, List.map_cons, List.map_cons, List.take_succ_cons,
        List.take_succ_cons, ih, List.take_succ_cons, Store.toHex, List.map_cons, List.map_cons]

theorem hexBytes_inj (a b : Str) (h : hexBytes a = hexBytes b) : a = b := by
  induction a generalizing b with
  | nil =>
    cases b with
    | nil => rfl
    | cons y ys => simp [hexBytes, Store.toHex] at h
  | cons x xs ih =>
    cases b with
    | nil => simp [hexBytes, Store.toHex] at h
    | cons y ys =>
      simp only [hexBytes, Store.toHex, List.map_cons, List.cons.injEq] at h
      have hx := x.toNat_lt
      have hy := y.toNat_lt
      have k1 := hexDigit_inj _ (by rw [Nat.shiftRight_eq_div_pow]; omega) _ (by rw [Nat.shiftRight_eq_div_pow]; omega) h.1
      have k2 := hexDigit_inj _ (by have : x.toNat &&& 15 ≤ 15 := Nat.and_le_right
                                    omega) _ (by have : y.toNat &&& 15 ≤ 15 := Nat.and_le_right
                                                 omega) h.2.1
      have e1 : x.toNat = x.toNat >>> 4 * 16 + (x.toNat &&& 15) := by
        rw [Nat.shiftRight_eq_div_pow, show (15 : Nat) = 2 ^ 4 - 1 from rfl, Nat.and_two_pow_sub_one_eq_mod]; omega
      have e2 : y.toNat = y.toNat >>> 4 * 16 + (y.toNat &&& 15) := by
        rw [Nat.shiftRight_eq_div_pow, show (15 : Nat) = 2 ^ 4 - 1 from rfl, Nat.and_two_pow_sub_one_eq_mod]; omega
      have : x = y := by
        apply UInt8.toNat_inj.1
        rw [e1, e2, k1, k2]
      rw [this, ih ys h.2.2]

/-- C60: if two full paths without backslashes and without a slash at the end get the same cache path on Linux, for any
length limit, they are equal or the first four bytes of their hashes are. (Missing: paths with backslashes,
`C60_backslash_violated`.) -/
theorem C60_distinct_partial (hash : Str → Str) (hlen : ∀ s, 4 ≤ (hash s).length) (base a b : Str)
    (hb : base.getLast?.map isSep = some false) (maxLen : Nat) (ha : (92 : UInt8) ∉ a) (hbb : (92 : UInt8) ∉ b)
    (ha2 : a.getLast? ≠ some 47) (hb2 : b.getLast? ≠ some 47)
    (h : cachePath false base (cacheDir hash false a) maxLen = cachePath false base (cacheDir hash false b) maxLen) :
    a = b ∨ (a ++ [47] ≠ b ++ [47] ∧ (hash (a ++ [47])).take 4 = (hash (b ++ [47])).take 4) := by
  have norm : ∀ p : Str, (92 : UInt8) ∉ p → p.getLast? ≠ some 47 → normalize false p = p ++ [47] := by
    intro p hp hp2
    have hend : Path.endsWithSep p = false := by
      unfold Path.endsWithSep
      cases hl : p.getLast? with
      | none => rfl
      | some c =>
        have h1 : c ≠ 47 := by rintro rfl; exact hp2 hl
        have h2 : c ≠ 92 := by rintro rfl; exact hp (List.mem_of_getLast? hl)
        simp [isSep, h1, h2]
    unfold normalize Path.ensureEndsWithSep
    rw [hend]
    simp only [Bool.false_eq_true, if_false]
    unfold toUnix
    rw [List.map_append]
    congr 1
    rw [List.map_congr_left (g := id)]
    · simp
    · intro c hc
      have : c ≠ 92 := by rintro rfl; exact hp hc
      simp [this]
  obtain ⟨ka, e1, l1, _⟩ := C52_cache_path hash hlen false base a hb maxLen
  obtain ⟨kb, e2, l2, _⟩ := C52_cache_path hash hlen false base b hb maxLen
  rw [e1, e2] at h
  have hs := List.append_inj_right' h (by rw [l1, l2])
  unfold hashSuffix at hs
  rw [show hashLen = 2 * 4 from rfl, hexBytes_take, hexBytes_take, norm a ha ha2, norm b hbb hb2] at hs
  by_cases hab : a = b
  · exact .inl hab
  · exact .inr ⟨fun he => hab (List.append_cancel_right he), hexBytes_inj _ _ hs⟩

/-- Not vacuous: with a hash that tells "/a" from "/b" the paths differ. -/
theorem C60_example : cachePath false [47, 99] (cacheDir (fun s => s ++ [0, 0, 0, 0]) false [47, 97]) 100 ≠
    cachePath false [47, 99] (cacheDir (fun s => s ++ [0, 0, 0, 0]) false [47, 98]) 100 := by
  decide +kernel

/-- C60 is violated: on Linux a backslash is an ordinary character of a file name, but it is converted to a slash before
hashing. The directories `/a\b` and `/a/b` share the cache path whatever the hash. -/
theorem C60_backslash_violated (hash : Str → Str) (base : Str) (maxLen : Nat) :
    cachePath false base (cacheDir hash false [47, 97, 92, 98]) maxLen =
      cachePath false base (cacheDir hash false [47, 97, 47, 98]) maxLen := rfl

/-- C60 is violated by every path with a backslash on Linux: it shares the cache path with the path that has slashes in the
places of the backslashes, whatever the hash. -/
theorem C60_backslashes_violated (hash : Str → Str) (base a : Str) (maxLen : Nat) :
    cachePath false base (cacheDir hash false a) maxLen =
      cachePath false base (cacheDir hash false (a.map fun c => if c = 92 then 47 else c)) maxLen := by
  have hn : normalize false a = normalize false (a.map fun c => if c = 92 then 47 else c) := by
    have hs : Path.endsWithSep (a.map fun c => if c = 92 then 47 else c) = Path.endsWithSep a := by
      unfold Path.endsWithSep
      rw [List.getLast?_map]
      cases a.getLast? with
      | none => rfl
      | some c =>
        simp only [Option.map_some]
        by_cases h : c = 92
        · subst h; rfl
        · simp [h]
    have hu : toUnix (a.map fun c => if c = 92 then 47 else c) = toUnix a := by
      unfold toUnix
      rw [List.map_map]
      apply List.map_congr_left
      intro c _
      by_cases h : c = 92
      · subst h; rfl
      · simp [h]
    have ha : ∀ x y : Str, toUnix (x ++ y) = toUnix x ++ toUnix y := fun x y => List.map_append ..
    unfold normalize Path.ensureEndsWithSep
    rw [hs]
    split
    · exact hu.symm
    · rw [ha, ha, hu]
  unfold cacheDir
  rw [hn]

end Verif.Text.CachePath
