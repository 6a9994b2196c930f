import Verif.Indexer.Props

/-! # The sizes of the indexer with 64 bits (C141)

cdc_indexer/indexer.cc:122-136 doubles the average with a shift of a `size_t`; `Cfg.checked` has numbers without bounds. -/
namespace Verif.Indexer

/-! ## Model -/

/-- The constructor of `Impl` with 64 bit sizes, indexer.cc:122-136: only `<< 1` can leave the range. -/
def Cfg.checked64 (hw : Nat) (c : Cfg) : Cfg :=
  let avg := if c.avgSize = 0 then 262144 else c.avgSize
  let min := if c.minSize = 0 ∨ c.minSize > avg then avg / 2 else c.minSize
  let max := if c.maxSize = 0 ∨ c.maxSize < avg then (2 * avg) % 2 ^ 64 else c.maxSize
  { threads := if c.threads = 0 then hw else c.threads
    block := if c.block = 0 then 4096 else c.block
    minSize := min, avgSize := avg, maxSize := max
    step := if c.step = 0 then (if min > 0 then min else 128) else c.step }

/-- `left` bytes after `n` passes of the loop of `Chunker::Process`, fastcdc/fastcdc.h:132-141, before the end of the file; `cut` is
`FindChunkBoundary`, which is at most what is left. `none` if the loop has ended before. -/
def passes (max : Nat) (cut : Nat → Nat) : Nat → Nat → Option Nat
  | 0, left => some left
  | n + 1, left => if max ≤ left then passes max cut n (left - cut left) else none

/-! ## Proof -/

/-- **C141, 64 bits.** For an average below 2^63 (8 EB) nothing overflows: the sizes are those of C141_config. -/
theorem C141_fits (hw : Nat) (c : Cfg) (h : c.avgSize < 2 ^ 63) : c.checked64 hw = c.checked hw := by
  have : (2 * if c.avgSize = 0 then 262144 else c.avgSize) < 2 ^ 64 := by split <;> omega
  unfold Cfg.checked64 Cfg.checked
  simp only [Nat.mod_eq_of_lt this]

/-- **C141** is false for an average of 2^63 or more: unless a large enough maximum is given, the maximum becomes less than the average, and
the chunker gets parameters it does not accept. -/
theorem C141_huge_violated (hw : Nat) (c : Cfg) (h : 2 ^ 63 ≤ c.avgSize) (h' : c.avgSize < 2 ^ 64) (hm : c.maxSize < c.avgSize) :
    (c.checked64 hw).maxSize < (c.checked64 hw).avgSize ∧ ¬ (c.checked64 hw).cdc.Valid := by
  have e1 : (c.checked64 hw).avgSize = c.avgSize := by
    show (if c.avgSize = 0 then 262144 else c.avgSize) = _
    rw [if_neg (by omega)]
  have e2 : (c.checked64 hw).maxSize = 2 * c.avgSize - 2 ^ 64 := by
    show (if c.maxSize = 0 ∨ c.maxSize < (if c.avgSize = 0 then 262144 else c.avgSize) then
      (2 * (if c.avgSize = 0 then 262144 else c.avgSize)) % 2 ^ 64 else c.maxSize) = _
    rw [if_neg (show ¬ c.avgSize = 0 by omega), if_pos (Or.inr hm)]
    omega
  have h3 : (c.checked64 hw).maxSize < (c.checked64 hw).avgSize := by omega
  refine ⟨h3, fun hv => ?_⟩
  have := hv.2.2
  simp only [Cfg.cdc] at this
  omega

/-- **C141**: with an average of exactly 2^63 the maximum is 0, and the chunker never gets beyond the first block of a file, whatever it
contains and wherever it is cut. -/
theorem C141_hangs_violated (hw : Nat) (c : Cfg) (h : c.avgSize = 2 ^ 63) (hm : c.maxSize < c.avgSize) (cut : Nat → Nat) (left n : Nat) :
    (passes (c.checked64 hw).maxSize cut n left).isSome = true := by
  have e : (c.checked64 hw).maxSize = 0 := by
    show (if c.maxSize = 0 ∨ c.maxSize < (if c.avgSize = 0 then 262144 else c.avgSize) then
      (2 * (if c.avgSize = 0 then 262144 else c.avgSize)) % 2 ^ 64 else c.maxSize) = _
    rw [if_neg (show ¬ c.avgSize = 0 by omega), if_pos (Or.inr hm), h]
  rw [e]
  induction n generalizing left with
  | zero => rfl
  | succ n ih => rw [passes, if_pos (Nat.zero_le _)]; exact ih _

/-- Beside it: a valid maximum lets the loop end, with every cut that is not empty. -/
theorem C141_ends (max : Nat) (hmax : 0 < max) (cut : Nat → Nat) (hc : ∀ l, max ≤ l → 0 < cut l) (left : Nat) :
    passes max cut (left + 1) left = none := by
  have : ∀ n left, left < n → passes max cut n left = none := by
    intro n
    induction n with
    | zero => intro left h; omega
    | succ n ih =>
      intro left h
      rw [passes]
      split
      · rename_i hl
        have := hc left hl
        exact ih _ (by omega)
      · rfl
  exact this _ _ (Nat.lt_succ_self _)

/-- `--avg_chunk_size=9223372036854775808` -/
example : Cfg.checked64 8 ⟨0, 0, 0, 2 ^ 63, 0, 1024⟩ = ⟨8, 4096, 2 ^ 62, 2 ^ 63, 0, 1024⟩ := by decide +kernel

example : Cfg.checked64 8 ⟨3, 0, 700, 1, 0, 0⟩ = Cfg.checked 8 ⟨3, 0, 700, 1, 0, 0⟩ := by decide +kernel

end Verif.Indexer
