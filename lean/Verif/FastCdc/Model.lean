/-!
# Model of the content-defined chunker (`fastcdc/fastcdc.h`)

The C++ class is a template over the hash type `T` (its width in bits is `w` here) and the
gear table.  The model is generic in both, so it covers `Chunker32`, `Chunker64` and any other
instantiation.  Bytes are `UInt8`, buffers are lists, sizes are `Nat` (a `size_t` overflow would
need more than 2^64 buffered bytes).
-/
namespace Verif.FastCdc

/-- `Config`, fastcdc/fastcdc.h:35-53. -/
structure Config where
  minSize : Nat
  avgSize : Nat
  maxSize : Nat
deriving DecidableEq, Repr

/-- The conditions the constructor asserts, fastcdc/fastcdc.h:103-105. -/
def Config.Valid (c : Config) : Prop :=
  1 ≤ c.avgSize ∧ c.minSize ≤ c.avgSize ∧ c.avgSize ≤ c.maxSize

instance (c : Config) : Decidable c.Valid := by unfold Config.Valid; infer_instance

section
variable {w : Nat}

/-- `threshold_ = numeric_limits<T>::max() / (avg_size - min_size + 1)`,
fastcdc/fastcdc.h:107-110. -/
def threshold (w : Nat) (c : Config) : BitVec w :=
  BitVec.ofNat w ((2 ^ w - 1) / (c.avgSize - c.minSize + 1))

/-- One step of the gear hash: `hash = (hash << 1) + gear[data[i]]`,
fastcdc/fastcdc.h:176 and 190. -/
def roll (gear : UInt8 → BitVec w) (h : BitVec w) (b : UInt8) : BitVec w :=
  (h <<< 1) + gear b

/-- `while (hash & rc_mask) rc_mask <<= 1;`, fastcdc/fastcdc.h:188.
The first argument bounds the number of iterations; `w` of them suffice because the mask is then
zero (`Lemmas.lean: maskLoop_eq`), so the C++ loop never runs longer. -/
def maskLoop (hash : BitVec w) : Nat → BitVec w → BitVec w
  | 0, m => m
  | f + 1, m => if hash &&& m ≠ 0 then maskLoop hash f (m <<< 1) else m

/-- `rc_mask = numeric_limits<T>::max(); while (hash & rc_mask) rc_mask <<= 1;`,
fastcdc/fastcdc.h:187-188. -/
def regressionMask (hash : BitVec w) : BitVec w :=
  maskLoop hash w (BitVec.allOnes w)

/-- The main loop `for (; i < len; ++i)` and the final `return`, fastcdc/fastcdc.h:178-193.
The list argument holds the bytes `data[i], ..., data[len-1]`. -/
def scan (gear : UInt8 → BitVec w) (thr : BitVec w) :
    (i rcLen : Nat) → (rcMask hash : BitVec w) → List UInt8 → Nat
  | i, rcLen, rcMask, hash, [] => if hash &&& rcMask ≠ 0 then rcLen else i
  | i, rcLen, rcMask, hash, b :: bs =>
    if hash &&& rcMask = 0 then
      if hash ≤ thr then i
      else scan gear thr (i + 1) i (regressionMask hash) (roll gear hash b) bs
    else scan gear thr (i + 1) rcLen rcMask (roll gear hash b) bs

/-- `FindChunkBoundary(data, len)`, fastcdc/fastcdc.h:157-194; `data` holds exactly the `len`
bytes of the C++ arguments. The warm-up loop (171-177) folds over the bytes
`max(min_size - kHashBits, 0) .. min_size`. -/
def findBoundary (gear : UInt8 → BitVec w) (c : Config) (data : List UInt8) : Nat :=
  if data.length ≤ c.minSize then data.length
  else
    let len := min data.length c.maxSize
    let start := c.minSize - w
    let warm := ((data.take c.minSize).drop start).foldl (roll gear) (BitVec.allOnes w)
    scan gear (threshold w c) c.minSize len 0 warm ((data.take len).drop c.minSize)

/-- The `while` loop of `Process`, fastcdc/fastcdc.h:131-141: returns the chunks passed to the
handler in order and the bytes that stay buffered. `none` means that the fuel did not suffice;
a loop that makes no progress is `none` for every fuel. -/
def drain (gear : UInt8 → BitVec w) (c : Config) (eof : Bool) :
    Nat → List UInt8 → Option (List (List UInt8) × List UInt8)
  | 0, _ => none
  | f + 1, buf =>
    if buf.length ≥ c.maxSize ∨ (buf.length > 0 ∧ eof = true) then
      let n := findBoundary gear c buf
      (drain gear c eof f (buf.drop n)).map fun (cs, rest) => (buf.take n :: cs, rest)
    else some ([], buf)

/-- `Process(data, size)`, fastcdc/fastcdc.h:117-147: `buf` is `data_` before the call.
An empty `data` means end of file (118). Fuel `length + 1` is enough whenever the loop terminates
at all (every iteration of a terminating loop consumes at least one byte). -/
def process (gear : UInt8 → BitVec w) (c : Config) (buf data : List UInt8) :
    Option (List (List UInt8) × List UInt8) :=
  let eof := data.isEmpty
  let buf' := buf ++ data
  if buf' = [] then some ([], [])
  else drain gear c eof (buf'.length + 1) buf'

/-- A chunker object that is fed the given blocks one by one (`Process`) and then finalized
(`Finalize() { Process(nullptr, 0); }`, fastcdc/fastcdc.h:151), starting with `buf` buffered.
The result is the list of all chunks passed to the handler. -/
def feed (gear : UInt8 → BitVec w) (c : Config) :
    List UInt8 → List (List UInt8) → Option (List (List UInt8))
  | buf, [] => (process gear c buf []).map Prod.fst
  | buf, d :: ds =>
    match process gear c buf d with
    | none => none
    | some (cs, buf') => (feed gear c buf' ds).map (cs ++ ·)

/-- What a user of the chunker observes: a fresh chunker is fed `blocks`, then finalized. -/
def chunkBlocks (gear : UInt8 → BitVec w) (c : Config) (blocks : List (List UInt8)) :
    Option (List (List UInt8)) :=
  feed gear c [] blocks

/-- `ValidateCdcParams`, manifest/manifest_updater.cc:87-91: the parameters the manifest updater
accepts from a stored manifest and passes to the chunker. -/
def validateCdcParams (c : Config) : Bool :=
  c.minSize ≤ c.avgSize && c.avgSize ≤ c.maxSize && c.maxSize > 0

end
end Verif.FastCdc
