import Verif.FastCdc.Spec

namespace Verif.FastCdc
variable {w : Nat}

/-- Number of bits needed to write `h`; `w - bitLen h` is its number of leading zero bits. -/
def bitLen (h : BitVec w) : Nat := if h.toNat = 0 then 0 else h.toNat.log2 + 1

theorem bitLen_le_iff (h : BitVec w) (k : Nat) : bitLen h ≤ k ↔ h.toNat < 2 ^ k := by
  unfold bitLen
  split
  · rename_i h0; simp [h0]; exact Nat.two_pow_pos k
  · rename_i h0
    rw [Nat.add_one_le_iff, Nat.log2_lt h0]

theorem bitLen_le_width (h : BitVec w) : bitLen h ≤ w := by
  rw [bitLen_le_iff]; exact h.isLt

theorem bitLen_mono {a b : BitVec w} (h : a ≤ b) : bitLen a ≤ bitLen b := by
  rw [bitLen_le_iff]
  exact Nat.lt_of_le_of_lt (BitVec.le_def.mp h) ((bitLen_le_iff b _).mp (Nat.le_refl _))

theorem and_shift_eq_zero_iff (h : BitVec w) (k : Nat) :
    h &&& (BitVec.allOnes w <<< k) = 0 ↔ h.toNat < 2 ^ k := by
  constructor
  · intro e
    apply Nat.lt_of_not_le
    intro hle
    obtain ⟨i, hi, ht⟩ := Nat.exists_ge_and_testBit_of_ge_two_pow hle
    have hw : i < w := by
      apply Nat.lt_of_not_le; intro hwi
      have : h.toNat.testBit i = false :=
        Nat.testBit_lt_two_pow (Nat.lt_of_lt_of_le h.isLt (Nat.pow_le_pow_right (by omega) hwi))
      simp [this] at ht
    have hb : (h &&& (BitVec.allOnes w <<< k)).getLsbD i = true := by
      have hh : h.getLsbD i = true := ht
      simp [hh, hw]; omega
    rw [e] at hb; simp at hb
  · intro hlt
    apply BitVec.eq_of_getLsbD_eq
    intro i hi
    simp only [BitVec.getLsbD_and, BitVec.getLsbD_shiftLeft, BitVec.getLsbD_allOnes]
    by_cases hk : i < k
    · simp [hk]
    · have : h.getLsbD i = false := by
        apply Nat.testBit_lt_two_pow
        exact Nat.lt_of_lt_of_le hlt (Nat.pow_le_pow_right (by omega) (by omega))
      simp [this]

theorem maskLoop_eq (h : BitVec w) : ∀ (f k : Nat), k ≤ bitLen h → bitLen h ≤ k + f →
    maskLoop h f (BitVec.allOnes w <<< k) = BitVec.allOnes w <<< (bitLen h) := by
  intro f
  induction f with
  | zero => intro k h1 h2; simp [maskLoop]; congr 1; omega
  | succ f ih =>
    intro k h1 h2
    unfold maskLoop
    by_cases hk : k = bitLen h
    · have : h &&& (BitVec.allOnes w <<< k) = 0 := by
        rw [and_shift_eq_zero_iff, ← bitLen_le_iff]; omega
      simp only [this]; simp [hk]
    · have hne : h &&& (BitVec.allOnes w <<< k) ≠ 0 := by
        rw [Ne, and_shift_eq_zero_iff, ← bitLen_le_iff]; omega
      rw [if_pos hne]
      rw [← BitVec.shiftLeft_add]
      exact ih (k + 1) (by omega) (by omega)

/-- The mask loop of the C++ code stops (with at most `w` iterations) at the mask that tests
exactly the leading zero bits of the hash. -/
theorem regressionMask_eq (h : BitVec w) :
    regressionMask h = BitVec.allOnes w <<< (bitLen h) := by
  have := maskLoop_eq h w 0 (Nat.zero_le _) (by have := bitLen_le_width h; omega)
  simpa [regressionMask] using this

theorem and_regressionMask_eq_zero_iff (h g : BitVec w) :
    g &&& regressionMask h = 0 ↔ bitLen g ≤ bitLen h := by
  rw [regressionMask_eq, and_shift_eq_zero_iff, bitLen_le_iff]

/-! ### The scan loop -/

/-- The hash after rolling over the first `k` bytes of `bs`. -/
def rollN (gear : UInt8 → BitVec w) (h : BitVec w) (bs : List UInt8) (k : Nat) : BitVec w :=
  (bs.take k).foldl (roll gear) h

@[simp] theorem rollN_zero (gear : UInt8 → BitVec w) (h : BitVec w) (bs : List UInt8) :
    rollN gear h bs 0 = h := by simp [rollN]

theorem rollN_cons (gear : UInt8 → BitVec w) (h : BitVec w) (b : UInt8) (bs : List UInt8)
    (k : Nat) : rollN gear h (b :: bs) (k + 1) = rollN gear (roll gear h b) bs k := by
  simp [rollN]

/-- Specification of the scan, given the best regression point so far (`rcBits` = number of
significant bits of its hash; `none` if there is none yet). -/
theorem scan_spec (gear : UInt8 → BitVec w) (thr : BitVec w) :
    ∀ (bs : List UInt8) (i rcLen : Nat) (best : BitVec w) (hash : BitVec w),
      ¬ best ≤ thr →
      let r := scan gear thr i rcLen (regressionMask best) hash bs
      (∃ k, k < bs.length ∧ r = i + k ∧ rollN gear hash bs k ≤ thr ∧
          ∀ j, j < k → ¬ rollN gear hash bs j ≤ thr) ∨
      ((∀ j, j < bs.length → ¬ rollN gear hash bs j ≤ thr) ∧
        ((r = rcLen ∧ ∀ j, j ≤ bs.length → bitLen best < bitLen (rollN gear hash bs j)) ∨
         (∃ k, k ≤ bs.length ∧ r = i + k ∧ bitLen (rollN gear hash bs k) ≤ bitLen best ∧
            (∀ j, j ≤ bs.length → bitLen (rollN gear hash bs k) ≤ bitLen (rollN gear hash bs j)) ∧
            (∀ j, k < j → j ≤ bs.length →
              bitLen (rollN gear hash bs k) < bitLen (rollN gear hash bs j))))) := by
  intro bs
  induction bs with
  | nil =>
    intro i rcLen best hash hb
    right
    refine ⟨by simp, ?_⟩
    unfold scan
    by_cases h : hash &&& regressionMask best = 0
    · right
      refine ⟨0, by simp, by simp [h], ?_, ?_, ?_⟩
      · simpa using (and_regressionMask_eq_zero_iff best hash).mp h
      · intro j hj; simp at hj; simp [hj]
      · intro j hj hj'; simp at hj'; omega
    · left
      refine ⟨if_pos h, ?_⟩
      intro j hj; simp at hj; subst hj
      rw [and_regressionMask_eq_zero_iff] at h
      simpa using h
  | cons b bs ih =>
    intro i rcLen best hash hb
    unfold scan
    by_cases h : hash &&& regressionMask best = 0
    · rw [if_pos h]
      by_cases ht : hash ≤ thr
      · left
        refine ⟨0, by simp, by simp [ht], by simpa using ht, by simp⟩
      · rw [if_neg ht]
        have hle := (and_regressionMask_eq_zero_iff best hash).mp h
        rcases ih (i + 1) i hash (roll gear hash b) ht with ⟨k, hk, hr, hthr, hj⟩ | ⟨hno, hrest⟩
        · left
          refine ⟨k + 1, by simp; omega, by rw [hr]; omega, by rw [rollN_cons]; exact hthr, ?_⟩
          intro j hjk
          cases j with
          | zero => simpa using ht
          | succ j => rw [rollN_cons]; exact hj j (by omega)
        · right
          refine ⟨?_, ?_⟩
          · intro j hjl
            cases j with
            | zero => simpa using ht
            | succ j => rw [rollN_cons]; exact hno j (by simp at hjl; omega)
          · right
            rcases hrest with ⟨hr, hall⟩ | ⟨k, hk, hr, h1, h2, h3⟩
            · refine ⟨0, by simp, by rw [hr]; simp, by simpa using hle, ?_, ?_⟩
              · intro j hj
                cases j with
                | zero => simp
                | succ j =>
                  rw [rollN_cons]
                  have := hall j (by simp at hj; omega)
                  simp; omega
              · intro j hj hjl
                cases j with
                | zero => omega
                | succ j =>
                  rw [rollN_cons]
                  have := hall j (by simp at hjl; omega)
                  simpa using this
            · refine ⟨k + 1, by simp; omega, by rw [hr]; omega, ?_, ?_, ?_⟩
              · rw [rollN_cons]; omega
              · intro j hj
                cases j with
                | zero => rw [rollN_cons]; simpa using h1
                | succ j => rw [rollN_cons, rollN_cons]; exact h2 j (by simp at hj; omega)
              · intro j hj hjl
                cases j with
                | zero => omega
                | succ j =>
                  rw [rollN_cons, rollN_cons]
                  exact h3 j (by omega) (by simp at hjl; omega)
    · rw [if_neg h]
      have hgt : bitLen best < bitLen hash := by
        rw [and_regressionMask_eq_zero_iff] at h; omega
      have ht : ¬ hash ≤ thr := by
        intro ht
        have hbt : thr ≤ best := by
          rw [BitVec.le_def] at hb ⊢; omega
        have : bitLen hash ≤ bitLen best := bitLen_mono (by
          rw [BitVec.le_def] at ht hbt ⊢; omega)
        omega
      rcases ih (i + 1) rcLen best (roll gear hash b) hb with ⟨k, hk, hr, hthr, hj⟩ | ⟨hno, hrest⟩
      · left
        refine ⟨k + 1, by simp; omega, by rw [hr]; omega, by rw [rollN_cons]; exact hthr, ?_⟩
        intro j hjk
        cases j with
        | zero => simpa using ht
        | succ j => rw [rollN_cons]; exact hj j (by omega)
      · right
        refine ⟨?_, ?_⟩
        · intro j hjl
          cases j with
          | zero => simpa using ht
          | succ j => rw [rollN_cons]; exact hno j (by simp at hjl; omega)
        · rcases hrest with ⟨hr, hall⟩ | ⟨k, hk, hr, h1, h2, h3⟩
          · left
            refine ⟨hr, ?_⟩
            intro j hj
            cases j with
            | zero => simpa using hgt
            | succ j => rw [rollN_cons]; exact hall j (by simp at hj; omega)
          · right
            refine ⟨k + 1, by simp; omega, by rw [hr]; omega, ?_, ?_, ?_⟩
            · rw [rollN_cons]; exact h1
            · intro j hj
              cases j with
              | zero => rw [rollN_cons]; simp; omega
              | succ j => rw [rollN_cons, rollN_cons]; exact h2 j (by simp at hj; omega)
            · intro j hj hjl
              cases j with
              | zero => omega
              | succ j =>
                rw [rollN_cons, rollN_cons]
                exact h3 j (by omega) (by simp at hjl; omega)

/-- Specification of the scan from its start (`rc_mask = 0`). -/
theorem scan_spec0 (gear : UInt8 → BitVec w) (thr : BitVec w)
    (bs : List UInt8) (i rcLen : Nat) (hash : BitVec w) :
    let r := scan gear thr i rcLen 0 hash bs
    (∃ k, k < bs.length ∧ r = i + k ∧ rollN gear hash bs k ≤ thr ∧
        ∀ j, j < k → ¬ rollN gear hash bs j ≤ thr) ∨
    ((∀ j, j < bs.length → ¬ rollN gear hash bs j ≤ thr) ∧
      (∃ k, k ≤ bs.length ∧ r = i + k ∧
          (∀ j, j ≤ bs.length → bitLen (rollN gear hash bs k) ≤ bitLen (rollN gear hash bs j)) ∧
          (∀ j, k < j → j ≤ bs.length →
            bitLen (rollN gear hash bs k) < bitLen (rollN gear hash bs j)))) := by
  cases bs with
  | nil =>
    right
    refine ⟨by simp, 0, by simp, by simp [scan], ?_, ?_⟩
    · intro j hj; simp at hj; simp [hj]
    · intro j hj hj'; simp at hj'; omega
  | cons b bs =>
    unfold scan
    have h0 : hash &&& (0 : BitVec w) = 0 := by simp
    rw [if_pos h0]
    by_cases ht : hash ≤ thr
    · left; exact ⟨0, by simp, by simp [ht], by simpa using ht, by simp⟩
    · rw [if_neg ht]
      rcases scan_spec gear thr bs (i + 1) i hash (roll gear hash b) ht with
        ⟨k, hk, hr, hthr, hj⟩ | ⟨hno, hrest⟩
      · left
        refine ⟨k + 1, by simp; omega, by rw [hr]; omega, by rw [rollN_cons]; exact hthr, ?_⟩
        intro j hjk
        cases j with
        | zero => simpa using ht
        | succ j => rw [rollN_cons]; exact hj j (by omega)
      · right
        refine ⟨?_, ?_⟩
        · intro j hjl
          cases j with
          | zero => simpa using ht
          | succ j => rw [rollN_cons]; exact hno j (by simp at hjl; omega)
        · rcases hrest with ⟨hr, hall⟩ | ⟨k, hk, hr, h1, h2, h3⟩
          · refine ⟨0, by simp, by rw [hr]; simp, ?_, ?_⟩
            · intro j hj
              cases j with
              | zero => simp
              | succ j =>
                rw [rollN_cons]
                have := hall j (by simp at hj; omega)
                simp; omega
            · intro j hj hjl
              cases j with
              | zero => omega
              | succ j =>
                rw [rollN_cons]
                have := hall j (by simp at hjl; omega)
                simpa using this
          · refine ⟨k + 1, by simp; omega, by rw [hr]; omega, ?_, ?_⟩
            · intro j hj
              cases j with
              | zero => rw [rollN_cons]; simpa using h1
              | succ j => rw [rollN_cons, rollN_cons]; exact h2 j (by simp at hj; omega)
            · intro j hj hjl
              cases j with
              | zero => omega
              | succ j =>
                rw [rollN_cons, rollN_cons]
                exact h3 j (by omega) (by simp at hjl; omega)

theorem clz_toNat (hw : 0 < w) (h : BitVec w) : h.clz.toNat = w - bitLen h := by
  by_cases h0 : h = 0#w
  · subst h0
    have : (0#w).clz = (w : BitVec w) := BitVec.clz_eq_iff_eq_zero.mpr rfl
    rw [this]
    simp [bitLen]
  · have h1 := BitVec.toNat_lt_two_pow_sub_clz (x := h)
    have h2 := BitVec.two_pow_sub_clz_le_toNat_of_ne_zero hw h0
    rw [← bitLen_le_iff] at h1
    have h3 : ¬ h.toNat < 2 ^ (w - 1 - h.clz.toNat) := by omega
    rw [← bitLen_le_iff] at h3
    have h4 : h.clz.toNat < w := by
      have h5 := BitVec.clz_lt_iff_ne_zero.mpr h0
      rw [BitVec.lt_def] at h5
      refine Nat.lt_of_lt_of_le h5 ?_
      simp
    omega

/-! ### Hash window -/

theorem foldl_roll_add (gear : UInt8 → BitVec w) (l : List UInt8) :
    ∀ h : BitVec w, l.foldl (roll gear) h = (h <<< l.length) + l.foldl (roll gear) 0 := by
  induction l with
  | nil => intro h; simp
  | cons b l ih =>
    intro h
    simp only [List.foldl_cons, List.length_cons]
    rw [ih (roll gear h b), ih (roll gear 0 b)]
    simp only [roll]
    have : (h <<< 1 + gear b) <<< l.length = h <<< (l.length + 1) + gear b <<< l.length := by
      apply BitVec.eq_of_toNat_eq
      simp only [BitVec.toNat_shiftLeft, BitVec.toNat_add, Nat.shiftLeft_eq, Nat.mod_mul_mod, Nat.mod_add_mod, Nat.add_mod_mod]
      congr 1
      rw [Nat.add_mul]
      congr 1
      rw [Nat.pow_one, Nat.mul_assoc, Nat.pow_succ, Nat.mul_comm 2]
    rw [this]
    simp [BitVec.add_assoc]

/-- After at least `w` bytes the hash no longer depends on what came before. -/
theorem foldl_roll_window (gear : UInt8 → BitVec w) (pre l : List UInt8) (h : BitVec w)
    (hl : w ≤ l.length) : (pre ++ l).foldl (roll gear) h = l.foldl (roll gear) 0 := by
  rw [List.foldl_append, foldl_roll_add gear l]
  have : ∀ x : BitVec w, x <<< l.length = 0 := by
    intro x
    apply BitVec.eq_of_getLsbD_eq
    intro i hi
    simp; omega
  rw [this]; simp

/-! ### Chunk boundary -/

theorem rollN_eq_hashAt (gear : UInt8 → BitVec w) (c : Config) (data : List UInt8) (len k : Nat)
    (hlen : len ≤ data.length) (hk : c.minSize + k ≤ len) :
    rollN gear (((data.take c.minSize).drop (c.minSize - w)).foldl (roll gear) (BitVec.allOnes w))
      ((data.take len).drop c.minSize) k = hashAt gear c data (c.minSize + k) := by
  unfold rollN hashAt
  rw [← List.foldl_append]
  congr 1
  have e1 : data.take (c.minSize + k) = data.take c.minSize ++ (data.drop c.minSize).take k := by
    rw [List.take_add]
  have e2 : ((data.take len).drop c.minSize).take k = (data.drop c.minSize).take k := by
    rw [List.drop_take, List.take_take]
    congr 1; omega
  rw [e1, e2, List.drop_append_of_le_length]
  rw [List.length_take]; omega

theorem findBoundary_spec (gear : UInt8 → BitVec w) (c : Config) (data : List UInt8)
    (hd : c.minSize < data.length) (hm : c.minSize ≤ c.maxSize) :
    let len := min data.length c.maxSize
    let H := hashAt gear c data
    let r := findBoundary gear c data
    (c.minSize ≤ r ∧ r < len ∧ H r ≤ threshold w c ∧
        ∀ j, c.minSize ≤ j → j < r → ¬ H j ≤ threshold w c) ∨
    ((∀ j, c.minSize ≤ j → j < len → ¬ H j ≤ threshold w c) ∧ c.minSize ≤ r ∧ r ≤ len ∧
      (∀ j, c.minSize ≤ j → j ≤ len → bitLen (H r) ≤ bitLen (H j)) ∧
      (∀ j, r < j → j ≤ len → bitLen (H r) < bitLen (H j))) := by
  intro len H r
  have hlen : len ≤ data.length := Nat.min_le_left _ _
  have hml : c.minSize ≤ len := by simp only [len]; omega
  have hr : r = scan gear (threshold w c) c.minSize len 0
      (((data.take c.minSize).drop (c.minSize - w)).foldl (roll gear) (BitVec.allOnes w))
      ((data.take len).drop c.minSize) := by
    simp only [r, findBoundary]
    rw [if_neg (by omega)]
  have hl : ((data.take len).drop c.minSize).length = len - c.minSize := by
    simp [List.length_take, List.length_drop]; omega
  have hH : ∀ k, k ≤ len - c.minSize → rollN gear
      (((data.take c.minSize).drop (c.minSize - w)).foldl (roll gear) (BitVec.allOnes w))
      ((data.take len).drop c.minSize) k = H (c.minSize + k) := by
    intro k hk
    exact rollN_eq_hashAt gear c data len k hlen (by omega)
  have hH' : ∀ j, c.minSize ≤ j → j ≤ len → rollN gear
      (((data.take c.minSize).drop (c.minSize - w)).foldl (roll gear) (BitVec.allOnes w))
      ((data.take len).drop c.minSize) (j - c.minSize) = H j := by
    intro j h1 h2
    rw [hH (j - c.minSize) (by omega)]
    congr 1; omega
  rcases scan_spec0 gear (threshold w c) ((data.take len).drop c.minSize) c.minSize len
      (((data.take c.minSize).drop (c.minSize - w)).foldl (roll gear) (BitVec.allOnes w)) with
    ⟨k, hk, hrk, hthr, hj⟩ | ⟨hno, k, hk, hrk, h2, h3⟩
  · left
    rw [← hr] at hrk
    rw [hl] at hk
    rw [hH k (by omega), ← hrk] at hthr
    refine ⟨by omega, by omega, hthr, ?_⟩
    intro j h1 h2
    rw [← hH' j h1 (by omega)]
    exact hj _ (by omega)
  · right
    rw [← hr] at hrk
    rw [hl] at hk
    refine ⟨?_, by omega, by omega, ?_, ?_⟩
    · intro j h1 h2
      rw [← hH' j h1 (by omega)]
      exact hno _ (by omega)
    · intro j h1 hj
      have := h2 (j - c.minSize) (by omega)
      rw [hH k hk, ← hrk, hH' j h1 hj] at this
      exact this
    · intro j h1 hj
      have := h3 (j - c.minSize) (by omega) (by omega)
      rw [hH k hk, ← hrk, hH' j (by omega) hj] at this
      exact this

theorem findBoundary_le (gear : UInt8 → BitVec w) (c : Config) (hv : c.Valid) (data : List UInt8) :
    findBoundary gear c data ≤ data.length ∧ findBoundary gear c data ≤ c.maxSize ∧
    (c.minSize ≤ data.length → c.minSize ≤ findBoundary gear c data) := by
  obtain ⟨h1, h2, h3⟩ := hv
  by_cases hd : c.minSize < data.length
  · have := findBoundary_spec gear c data hd (by omega)
    simp only at this
    omega
  · have : findBoundary gear c data = data.length := by
      unfold findBoundary; rw [if_pos (by omega)]
    omega

theorem bitLen_allOnes : bitLen (BitVec.allOnes w) = w := by
  have h1 := bitLen_le_width (BitVec.allOnes w)
  by_cases hw : w = 0
  · omega
  · have h2 : ¬ bitLen (BitVec.allOnes w) ≤ w - 1 := by
      rw [bitLen_le_iff]
      simp
      have : 2 ^ w = 2 * 2 ^ (w - 1) := by
        rw [← Nat.pow_succ']; congr 1; omega
      have h3 := Nat.two_pow_pos (w - 1)
      omega
    omega

theorem findBoundary_pos (gear : UInt8 → BitVec w) (hw : 0 < w) (c : Config) (hv : c.Valid)
    (data : List UInt8) (hd : 0 < data.length) : 0 < findBoundary gear c data := by
  have hb := findBoundary_le gear c hv data
  obtain ⟨h1, h2, h3⟩ := hv
  by_cases hm : c.minSize = 0
  · have hH0 : hashAt gear c data 0 = BitVec.allOnes w := by simp [hashAt]
    rcases findBoundary_spec gear c data (by omega) (by omega) with ⟨_, _, ht, _⟩ | ⟨_, _, _, _, h5⟩
    · apply Nat.pos_of_ne_zero
      intro h0
      rw [h0, hH0, BitVec.le_def] at ht
      simp [threshold, hm] at ht
      have h6 : (2 ^ w - 1) / (c.avgSize + 1) ≤ (2 ^ w - 1) / 2 :=
        Nat.div_le_div_left (by omega) (by omega)
      have h7 : 2 ≤ 2 ^ w := by
        calc 2 = 2 ^ 1 := rfl
          _ ≤ 2 ^ w := Nat.pow_le_pow_right (by omega) hw
      have h8 : (2 ^ w - 1) / (c.avgSize + 1) % 2 ^ w ≤ (2 ^ w - 1) / (c.avgSize + 1) :=
        Nat.mod_le _ _
      omega
    · apply Nat.pos_of_ne_zero
      intro h0
      have := h5 1 (by omega) (by omega)
      rw [h0, hH0, bitLen_allOnes] at this
      have := bitLen_le_width (hashAt gear c data 1)
      omega
  · by_cases hd' : c.minSize ≤ data.length
    · have := hb.2.2 hd'; omega
    · unfold findBoundary; rw [if_pos (by omega)]; exact hd

/-- The boundary only depends on the first `max_size` bytes once there are that many. -/
theorem findBoundary_append (gear : UInt8 → BitVec w) (c : Config) (hv : c.Valid)
    (a b : List UInt8) (ha : c.maxSize ≤ a.length) :
    findBoundary gear c (a ++ b) = findBoundary gear c a := by
  obtain ⟨h1, h2, h3⟩ := hv
  unfold findBoundary
  by_cases hm : (a ++ b).length ≤ c.minSize
  · have : b = [] := by
      apply List.eq_nil_of_length_eq_zero
      simp at hm; omega
    subst this; simp
  · rw [if_neg hm]
    by_cases hm2 : a.length ≤ c.minSize
    · rw [if_pos hm2]
      have e1 : c.maxSize = c.minSize := by omega
      have e2 : a.length = c.minSize := by omega
      simp only [e1]
      have e3 : min (a ++ b).length c.minSize = c.minSize := by omega
      rw [e3, e2]
      have : ((a ++ b).take c.minSize).drop c.minSize = [] := by
        apply List.drop_eq_nil_of_le; simp; omega
      rw [this]
      simp [scan]
    · rw [if_neg hm2]
      have e1 : min (a ++ b).length c.maxSize = c.maxSize := by simp; omega
      have e2 : min a.length c.maxSize = c.maxSize := by omega
      simp only [e1, e2]
      rw [List.take_append_of_le_length (by omega), List.take_append_of_le_length (by omega)]

/-! ### The processing loop -/

/-- The loop condition of `Process`. -/
def Go (c : Config) (eof : Bool) (buf : List UInt8) : Prop :=
  buf.length ≥ c.maxSize ∨ (buf.length > 0 ∧ eof = true)

theorem Go.nonempty {c : Config} (hv : c.Valid) {eof : Bool} {buf : List UInt8}
    (h : Go c eof buf) : 0 < buf.length := by
  obtain ⟨h1, h2, h3⟩ := hv
  rcases h with h | h <;> omega

theorem drain_total (gear : UInt8 → BitVec w) (hw : 0 < w) (c : Config) (hv : c.Valid)
    (eof : Bool) : ∀ (n : Nat) (buf : List UInt8), buf.length ≤ n →
    ∃ out, ∀ f, buf.length < f → drain gear c eof f buf = some out := by
  intro n
  induction n with
  | zero =>
    intro buf hn
    have hgo : ¬ (buf.length ≥ c.maxSize ∨ (buf.length > 0 ∧ eof = true)) := fun h => by
      have := Go.nonempty hv (eof := eof) h; omega
    refine ⟨([], buf), ?_⟩
    intro f hf
    obtain ⟨f, rfl⟩ : ∃ g, f = g + 1 := ⟨f - 1, by omega⟩
    unfold drain; rw [if_neg hgo]
  | succ n ih =>
    intro buf hn
    by_cases hgo : buf.length ≥ c.maxSize ∨ (buf.length > 0 ∧ eof = true)
    · have hpos := findBoundary_pos gear hw c hv buf (Go.nonempty hv hgo)
      have hle := (findBoundary_le gear c hv buf).1
      have hdl : (buf.drop (findBoundary gear c buf)).length < buf.length := by
        simp; omega
      obtain ⟨out, hout⟩ := ih (buf.drop (findBoundary gear c buf)) (by omega)
      refine ⟨(buf.take (findBoundary gear c buf) :: out.1, out.2), ?_⟩
      intro f hf
      obtain ⟨f, rfl⟩ : ∃ g, f = g + 1 := ⟨f - 1, by omega⟩
      unfold drain
      rw [if_pos hgo]
      simp only
      rw [hout f (by omega)]
      simp
    · refine ⟨([], buf), ?_⟩
      intro f hf
      obtain ⟨f, rfl⟩ : ∃ g, f = g + 1 := ⟨f - 1, by omega⟩
      unfold drain; rw [if_neg hgo]

/-- The outcome of the loop, with enough fuel. -/
def run (gear : UInt8 → BitVec w) (c : Config) (eof : Bool) (buf : List UInt8) :
    Option (List (List UInt8) × List UInt8) :=
  drain gear c eof (buf.length + 1) buf

theorem run_some (gear : UInt8 → BitVec w) (hw : 0 < w) (c : Config) (hv : c.Valid)
    (eof : Bool) (buf : List UInt8) : ∃ out, run gear c eof buf = some out := by
  obtain ⟨out, h⟩ := drain_total gear hw c hv eof buf.length buf (Nat.le_refl _)
  exact ⟨out, h _ (by omega)⟩

theorem run_stop (gear : UInt8 → BitVec w) (c : Config) (eof : Bool) (buf : List UInt8)
    (h : ¬ Go c eof buf) : run gear c eof buf = some ([], buf) := by
  unfold run drain; exact if_neg h

theorem run_go (gear : UInt8 → BitVec w) (hw : 0 < w) (c : Config) (hv : c.Valid)
    (eof : Bool) (buf : List UInt8) (h : Go c eof buf) :
    run gear c eof buf = (run gear c eof (buf.drop (findBoundary gear c buf))).map
      fun (cs, rest) => (buf.take (findBoundary gear c buf) :: cs, rest) := by
  have hpos := findBoundary_pos gear hw c hv buf (Go.nonempty hv h)
  have hle := (findBoundary_le gear c hv buf).1
  obtain ⟨out, hout⟩ := drain_total gear hw c hv eof _ (buf.drop (findBoundary gear c buf))
    (Nat.le_refl _)
  have e1 : run gear c eof (buf.drop (findBoundary gear c buf)) = some out :=
    hout _ (by omega)
  have e2 : drain gear c eof buf.length (buf.drop (findBoundary gear c buf)) = some out :=
    hout _ (by simp; omega)
  rw [e1]
  unfold run drain
  rw [if_pos (show buf.length ≥ c.maxSize ∨ (buf.length > 0 ∧ eof = true) from h)]
  simp only
  rw [e2]

/-- Induction principle following the loop. -/
theorem run_induct (gear : UInt8 → BitVec w) (hw : 0 < w) (c : Config) (hv : c.Valid)
    (eof : Bool) (P : List UInt8 → Prop)
    (hstop : ∀ buf, ¬ Go c eof buf → P buf)
    (hgo : ∀ buf, Go c eof buf → P (buf.drop (findBoundary gear c buf)) → P buf) :
    ∀ buf, P buf := by
  have : ∀ n buf, buf.length ≤ n → P buf := by
    intro n
    induction n with
    | zero =>
      intro buf hn
      exact hstop buf fun h => by have := Go.nonempty hv h; omega
    | succ n ih =>
      intro buf hn
      by_cases h : Go c eof buf
      · apply hgo buf h
        apply ih
        have := findBoundary_pos gear hw c hv buf (Go.nonempty hv h)
        simp; omega
      · exact hstop buf h
  exact fun buf => this buf.length buf (Nat.le_refl _)

theorem run_lossless (gear : UInt8 → BitVec w) (hw : 0 < w) (c : Config) (hv : c.Valid)
    (eof : Bool) (buf : List UInt8) : ∀ cs rest, run gear c eof buf = some (cs, rest) →
    cs.flatten ++ rest = buf := by
  refine run_induct gear hw c hv eof
    (fun buf => ∀ cs rest, run gear c eof buf = some (cs, rest) → cs.flatten ++ rest = buf)
    ?_ ?_ buf
  · intro buf h cs rest e
    rw [run_stop gear c eof buf h] at e
    cases e; simp
  · intro buf h ih cs rest e
    rw [run_go gear hw c hv eof buf h] at e
    obtain ⟨⟨cs', rest'⟩, e1, e2⟩ := Option.map_eq_some_iff.mp e
    cases e2
    have := ih _ _ e1
    rw [List.flatten_cons, List.append_assoc, this]
    exact List.take_append_drop _ _

theorem run_eof_rest (gear : UInt8 → BitVec w) (hw : 0 < w) (c : Config) (hv : c.Valid)
    (buf : List UInt8) : ∀ cs rest, run gear c true buf = some (cs, rest) → rest = [] := by
  refine run_induct gear hw c hv true
    (fun buf => ∀ cs rest, run gear c true buf = some (cs, rest) → rest = []) ?_ ?_ buf
  · intro buf h cs rest e
    rw [run_stop gear c true buf h] at e
    cases e
    cases buf with
    | nil => rfl
    | cons b bs => exact absurd (Or.inr (by simp)) h
  · intro buf h ih cs rest e
    rw [run_go gear hw c hv true buf h] at e
    obtain ⟨⟨cs', rest'⟩, e1, e2⟩ := Option.map_eq_some_iff.mp e
    cases e2
    exact ih _ _ e1

theorem run_sizes (gear : UInt8 → BitVec w) (hw : 0 < w) (c : Config) (hv : c.Valid)
    (eof : Bool) (buf : List UInt8) : ∀ cs rest, run gear c eof buf = some (cs, rest) →
    (∀ x ∈ cs, x ≠ [] ∧ x.length ≤ c.maxSize) ∧
    (∀ x ∈ cs.dropLast, c.minSize ≤ x.length) := by
  refine run_induct gear hw c hv eof
    (fun buf => ∀ cs rest, run gear c eof buf = some (cs, rest) →
      (∀ x ∈ cs, x ≠ [] ∧ x.length ≤ c.maxSize) ∧
      (∀ x ∈ cs.dropLast, c.minSize ≤ x.length)) ?_ ?_ buf
  · intro buf h cs rest e
    rw [run_stop gear c eof buf h] at e
    cases e; simp
  · intro buf h ih cs rest e
    have hne := Go.nonempty hv h
    rw [run_go gear hw c hv eof buf h] at e
    obtain ⟨⟨cs', rest'⟩, e1, e2⟩ := Option.map_eq_some_iff.mp e
    cases e2
    have hpos := findBoundary_pos gear hw c hv buf hne
    obtain ⟨hl1, hl2, hl3⟩ := findBoundary_le gear c hv buf
    obtain ⟨i1, i2⟩ := ih _ _ e1
    have hlen : (buf.take (findBoundary gear c buf)).length = findBoundary gear c buf := by
      simp; omega
    constructor
    · intro x hx
      rcases List.mem_cons.mp hx with rfl | hx
      · constructor
        · intro h0; rw [h0] at hlen; simp at hlen; omega
        · omega
      · exact i1 x hx
    · intro x hx
      cases cs' with
      | nil => simp at hx
      | cons y ys =>
        rw [List.dropLast_cons_of_ne_nil (by simp)] at hx
        rcases List.mem_cons.mp hx with rfl | hx
        · rw [hlen]
          apply Nat.le_of_not_lt
          intro hlt
          have hbuf : buf.length < c.minSize := by
            apply Nat.lt_of_not_le; intro h2; have := hl3 h2; omega
          have hfull : findBoundary gear c buf = buf.length := by
            unfold findBoundary; rw [if_pos (by omega)]
          have hnil : buf.drop (findBoundary gear c buf) = [] :=
            List.drop_eq_nil_of_le (by omega)
          rw [hnil] at e1
          have hng : ¬ Go c eof [] := fun h => by have := Go.nonempty hv h; simp at this
          rw [run_stop gear c eof [] hng] at e1
          cases e1
        · exact i2 x hx

/-- Chunks emitted before the end of the input are those of the whole input. -/
theorem run_append (gear : UInt8 → BitVec w) (hw : 0 < w) (c : Config) (hv : c.Valid)
    (more : List UInt8) (buf : List UInt8) : ∀ cs rest, run gear c false buf = some (cs, rest) →
    run gear c true (buf ++ more) = (run gear c true (rest ++ more)).map
      fun (cs', r) => (cs ++ cs', r) := by
  refine run_induct gear hw c hv false
    (fun buf => ∀ cs rest, run gear c false buf = some (cs, rest) →
      run gear c true (buf ++ more) = (run gear c true (rest ++ more)).map
        fun (cs', r) => (cs ++ cs', r)) ?_ ?_ buf
  · intro buf h cs rest e
    rw [run_stop gear c false buf h] at e
    cases e
    simp
  · intro buf h ih cs rest e
    have hmax : c.maxSize ≤ buf.length := by
      rcases h with h | h
      · exact h
      · simp at h
    rw [run_go gear hw c hv false buf h] at e
    obtain ⟨⟨cs', rest'⟩, e1, e2⟩ := Option.map_eq_some_iff.mp e
    cases e2
    have hle := (findBoundary_le gear c hv buf).1
    have hgo : Go c true (buf ++ more) := by left; simp; omega
    rw [run_go gear hw c hv true _ hgo, findBoundary_append gear c hv buf more hmax]
    rw [List.drop_append_of_le_length hle, List.take_append_of_le_length hle]
    rw [ih cs' rest e1]
    simp [Option.map_map, Function.comp_def]

theorem process_eq (gear : UInt8 → BitVec w) (c : Config) (hv : c.Valid) (buf data : List UInt8) :
    process gear c buf data = run gear c data.isEmpty (buf ++ data) := by
  unfold process
  by_cases h : buf ++ data = []
  · simp only [h, if_true]
    rw [run_stop]
    intro hg
    have := Go.nonempty hv hg; simp at this
  · simp only [h, if_false]; rfl

theorem feed_nonempty (gear : UInt8 → BitVec w) (hw : 0 < w) (c : Config) (hv : c.Valid)
    (blocks : List (List UInt8)) : ∀ (buf : List UInt8), (∀ b ∈ blocks, b ≠ []) →
    feed gear c buf blocks = (run gear c true (buf ++ blocks.flatten)).map Prod.fst := by
  induction blocks with
  | nil => intro buf _; simp [feed, process_eq gear c hv]
  | cons d ds ih =>
    intro buf hne
    have hd : d ≠ [] := hne d (by simp)
    have hemp : d.isEmpty = false := by cases d <;> simp_all
    unfold feed
    rw [process_eq gear c hv, hemp]
    obtain ⟨⟨cs, rest⟩, e⟩ := run_some gear hw c hv false (buf ++ d)
    rw [e]
    simp only
    rw [ih rest (fun b hb => hne b (by simp [hb]))]
    have := run_append gear hw c hv ds.flatten (buf ++ d) cs rest e
    rw [List.flatten_cons, ← List.append_assoc, this]
    simp [Option.map_map, Function.comp_def]

theorem feed_lossless (gear : UInt8 → BitVec w) (hw : 0 < w) (c : Config) (hv : c.Valid)
    (blocks : List (List UInt8)) : ∀ (buf : List UInt8),
    ∃ cs, feed gear c buf blocks = some cs ∧ cs.flatten = buf ++ blocks.flatten ∧
      ∀ x ∈ cs, x ≠ [] ∧ x.length ≤ c.maxSize := by
  induction blocks with
  | nil =>
    intro buf
    obtain ⟨⟨cs, rest⟩, e⟩ := run_some gear hw c hv true buf
    have h1 := run_lossless gear hw c hv true buf cs rest e
    have h2 := run_eof_rest gear hw c hv buf cs rest e
    subst h2
    refine ⟨cs, ?_, by simpa using h1, (run_sizes gear hw c hv true buf cs [] e).1⟩
    simp [feed, process_eq gear c hv, e]
  | cons d ds ih =>
    intro buf
    obtain ⟨⟨cs, rest⟩, e⟩ := run_some gear hw c hv d.isEmpty (buf ++ d)
    have h1 := run_lossless gear hw c hv _ _ cs rest e
    obtain ⟨cs', e', h', hs'⟩ := ih rest
    refine ⟨cs ++ cs', ?_, ?_, ?_⟩
    · unfold feed
      rw [process_eq gear c hv, e]
      simp [e']
    · simp only [List.flatten_append, h', List.flatten_cons]
      rw [← List.append_assoc, h1, List.append_assoc]
    · intro x hx
      rcases List.mem_append.mp hx with hx | hx
      · exact (run_sizes gear hw c hv _ _ cs rest e).1 x hx
      · exact hs' x hx

/-- The chunker is memoryless: removing whole chunks from the front of the input removes exactly
these chunks from the output. -/
theorem run_suffix (gear : UInt8 → BitVec w) (hw : 0 < w) (c : Config) (hv : c.Valid)
    (p : List (List UInt8)) : ∀ (s : List (List UInt8)) (data tail : List UInt8) (r : List UInt8),
    run gear c true data = some (p ++ s, r) → data = p.flatten ++ tail →
    run gear c true tail = some (s, r) := by
  induction p with
  | nil => intro s data tail r e h; simp at h; subst h; simpa using e
  | cons x p ih =>
    intro s data tail r e h
    by_cases hgo : Go c true data
    · rw [run_go gear hw c hv true data hgo] at e
      obtain ⟨⟨cs', rest'⟩, e1, e2⟩ := Option.map_eq_some_iff.mp e
      simp at e2
      obtain ⟨⟨e2, e3⟩, e4⟩ := e2
      subst e3 e4
      have hle := (findBoundary_le gear c hv data).1
      have hlx : x.length = findBoundary gear c data := by rw [← e2]; simp; omega
      refine ih s (data.drop (findBoundary gear c data)) tail _ e1 ?_
      rw [← hlx, h, List.flatten_cons, List.append_assoc, List.drop_left]
    · rw [run_stop gear c true data hgo] at e
      simp at e

end Verif.FastCdc
