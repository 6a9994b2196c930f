import Verif.FastCdc.Model

/-! Specification vocabulary for the chunker properties. It uses nothing of the model but the type
of configurations. -/
namespace Verif.FastCdc
variable {w : Nat}

/-- The gear hash of a byte string, started with all ones, over the bytes from
`max(min_size - w, 0)` up to `i`: the value the documentation calls the hash at position `i`. -/
def hashAt (gear : UInt8 → BitVec w) (c : Config) (data : List UInt8) (i : Nat) : BitVec w :=
  ((data.take i).drop (c.minSize - w)).foldl (fun h b => (h <<< 1) + gear b) (BitVec.allOnes w)

/-- The hash of a window of bytes. -/
def windowHash (gear : UInt8 → BitVec w) (win : List UInt8) : BitVec w :=
  win.foldl (fun h b => (h <<< 1) + gear b) 0

/-- The threshold of the documentation: the fraction `1 / (avg - min + 1)` of the hash range. -/
def specThreshold (w : Nat) (c : Config) : Nat := (2 ^ w - 1) / (c.avgSize - c.minSize + 1)

/-- `r` is the documented cut point of `data`: everything if there are at most `min_size` bytes;
otherwise the first position in `[min_size, len)` whose hash is at most the threshold, or, if there
is none, the last position of `[min_size, len]` with the largest number of leading zero bits, where
`len = min(size, max_size)`. -/
def IsCut (gear : UInt8 → BitVec w) (c : Config) (data : List UInt8) (r : Nat) : Prop :=
  let len := min data.length c.maxSize
  let H := hashAt gear c data
  let T := specThreshold w c
  (data.length ≤ c.minSize → r = data.length) ∧
  (c.minSize < data.length →
    (c.minSize ≤ r ∧ r < len ∧ (H r).toNat ≤ T ∧
        ∀ j, c.minSize ≤ j → j < r → T < (H j).toNat) ∨
    ((∀ j, c.minSize ≤ j → j < len → T < (H j).toNat) ∧ c.minSize ≤ r ∧ r ≤ len ∧
      (∀ j, c.minSize ≤ j → j ≤ len → (H j).clz.toNat ≤ (H r).clz.toNat) ∧
      (∀ j, r < j → j ≤ len → (H j).clz.toNat < (H r).clz.toNat)))

end Verif.FastCdc
