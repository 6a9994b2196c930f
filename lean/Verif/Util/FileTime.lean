/-!
# Modification times on Windows

Models `UnixTimeToWindowsFileTime` (/repo/common/path.cc:99-113), `ToUint64` (136-138) and
`FileTimeToTimeT` (142-148), which `path::SetFileTime` (1137-1170), `path::GetFileTime` (1110-1135)
and the directory search (path.cc:568, 593) use.  A `FILETIME` is a pair of 32 bit words; 64 bit
signed arithmetic that leaves its range is undefined in C++ and is `none` here.
-/
namespace Verif.Util.FileTime

/-- `kUnixToWindowsEpochOffset` (path.cc:64). -/
def epochOffset : Int := 0x019DB1DED53E8000

/-- `kWinTicksPerSecond` (path.cc:67). -/
def ticksPerSecond : Int := 10000000

/-- `FILETIME`: two 32 bit words. -/
structure FILETIME where
  low : UInt32
  high : UInt32
  deriving DecidableEq, Repr

/-- A 64 bit signed result, `none` on overflow (undefined behaviour). -/
def int64 (x : Int) : Option Int := if -2 ^ 63 ≤ x ∧ x < 2 ^ 63 then some x else none

/-- `UnixTimeToWindowsFileTime` (path.cc:100-112). -/
def toFileTime (t : Int) : Option FILETIME := do
  let p ← int64 (t * ticksPerSecond)
  let w ← int64 (p + epochOffset)
  let w := if w < 0 then 0 else w
  some ⟨UInt32.ofNat (w.toNat % 2 ^ 32), UInt32.ofNat (w.toNat / 2 ^ 32)⟩

/-- `ToUint64` (path.cc:136-138); `|` on disjoint bits is `+`. -/
def toUint64 (high low : UInt32) : Nat := high.toNat * 2 ^ 32 + low.toNat

/-- `FileTimeToTimeT` (path.cc:142-148). -/
def toTimeT (ft : FILETIME) : Int :=
  (toUint64 ft.high ft.low : Int) / ticksPerSecond - epochOffset / ticksPerSecond

/-! ## Specification -/

/-- Seconds from 1601-01-01 to 1970-01-01: 369 years of which 89 are leap years. -/
def secondsBetweenEpochs : Int := (369 * 365 + 89) * 86400

/-- The number of 100 ns steps since 1601-01-01 that a `FILETIME` denotes. -/
def ticks (ft : FILETIME) : Int := ft.high.toNat * 4294967296 + ft.low.toNat

/-- `t` is the Unix second that the moment denoted by `ft` falls into. -/
def InSecond (ft : FILETIME) (t : Int) : Prop :=
  (t + secondsBetweenEpochs) * 10000000 ≤ ticks ft ∧
    ticks ft < (t + 1 + secondsBetweenEpochs) * 10000000

/-- **C157** (reading): the time read for a file is the Unix second its modification falls into,
whatever the `FILETIME`; in particular it is well before 1970 for the oldest files. -/
theorem C157_read (ft : FILETIME) : InSecond ft (toTimeT ft) ∧
    ∀ t, InSecond ft t → t = toTimeT ft := by
  unfold InSecond toTimeT toUint64 ticks epochOffset ticksPerSecond secondsBetweenEpochs
  refine ⟨by omega, fun t h => by omega⟩

/-- **C157** (round trip), partial: a time from 1601 on that is written to a file is read back
exactly, and the file time denotes the beginning of that very second.  Missing: earlier times, see
`C157_early_violated`. -/
theorem C157_round_trip_partial (t : Int) (h : -secondsBetweenEpochs ≤ t)
    (h' : (t + secondsBetweenEpochs) * 10000000 < 2 ^ 63) :
    ∃ ft, toFileTime t = some ft ∧ toTimeT ft = t ∧
      ticks ft = (t + secondsBetweenEpochs) * 10000000 := by
  unfold secondsBetweenEpochs at h h'
  have e1 : int64 (t * ticksPerSecond) = some (t * ticksPerSecond) := by
    unfold int64 ticksPerSecond; rw [if_pos]; omega
  have e2 : int64 (t * ticksPerSecond + epochOffset) = some (t * ticksPerSecond + epochOffset) := by
    unfold int64 ticksPerSecond epochOffset; rw [if_pos]; omega
  have e3 : ¬ (t * ticksPerSecond + epochOffset < 0) := by
    unfold ticksPerSecond epochOffset; omega
  have hn : (t * ticksPerSecond + epochOffset).toNat < 2 ^ 63 := by
    unfold ticksPerSecond epochOffset; omega
  have hz : ((t * ticksPerSecond + epochOffset).toNat : Int) = (t + 11644473600) * 10000000 := by
    unfold ticksPerSecond epochOffset; omega
  refine ⟨⟨UInt32.ofNat ((t * ticksPerSecond + epochOffset).toNat % 2 ^ 32),
    UInt32.ofNat ((t * ticksPerSecond + epochOffset).toNat / 2 ^ 32)⟩, ?_, ?_, ?_⟩
  · unfold toFileTime
    simp only [e1, e2, Option.bind_eq_bind, Option.bind_some, if_neg e3]
  · generalize (t * ticksPerSecond + epochOffset).toNat = n at hn hz
    unfold toTimeT toUint64 ticksPerSecond epochOffset
    have q1 : (UInt32.ofNat (n / 2 ^ 32)).toNat = n / 4294967296 := by
      rw [UInt32.toNat_ofNat']; omega
    have q2 : (UInt32.ofNat (n % 2 ^ 32)).toNat = n % 4294967296 := by
      rw [UInt32.toNat_ofNat']; omega
    have q3 : (((n / 4294967296 : Nat) : Int)) * 4294967296 + ((n % 4294967296 : Nat) : Int) = n := by
      omega
    have q4 : n / 4294967296 * 2 ^ 32 + n % 4294967296 = n := by omega
    simp only [q1, q2, q3, q4]
    omega
  · generalize (t * ticksPerSecond + epochOffset).toNat = n at hn hz
    unfold ticks secondsBetweenEpochs
    have q1 : (UInt32.ofNat (n / 2 ^ 32)).toNat = n / 4294967296 := by
      rw [UInt32.toNat_ofNat']; omega
    have q2 : (UInt32.ofNat (n % 2 ^ 32)).toNat = n % 4294967296 := by
      rw [UInt32.toNat_ofNat']; omega
    have q3 : (((n / 4294967296 : Nat) : Int)) * 4294967296 + ((n % 4294967296 : Nat) : Int) = n := by
      omega
    have q4 : n / 4294967296 * 2 ^ 32 + n % 4294967296 = n := by omega
    simp only [q1, q2, q3, q4]
    omega

/-- **C157**, violated before 1601: every earlier time is written as 1601-01-01 and so is read back
as a different time; a file with such a time is found changed by every later synchronisation. -/
theorem C157_early_violated (t : Int) (h : t < -secondsBetweenEpochs)
    (h' : -2 ^ 63 ≤ t * 10000000) :
    ∃ ft, toFileTime t = some ft ∧ toTimeT ft = -secondsBetweenEpochs ∧ toTimeT ft ≠ t := by
  unfold secondsBetweenEpochs at h
  have e1 : int64 (t * ticksPerSecond) = some (t * ticksPerSecond) := by
    unfold int64 ticksPerSecond; rw [if_pos]; omega
  have e2 : int64 (t * ticksPerSecond + epochOffset) = some (t * ticksPerSecond + epochOffset) := by
    unfold int64 ticksPerSecond epochOffset; rw [if_pos]; omega
  have e3 : t * ticksPerSecond + epochOffset < 0 := by
    unfold ticksPerSecond epochOffset; omega
  refine ⟨⟨0, 0⟩, ?_, by decide, ?_⟩
  · unfold toFileTime
    simp only [e1, e2, Option.bind_eq_bind, Option.bind_some, if_pos e3]
    rfl
  · have : toTimeT ⟨0, 0⟩ = -11644473600 := by decide
    rw [this]; omega

/-- **C157** (order): the order of two times is kept by what is read back, so is their equality:
the quick check never takes two different seconds for the same one. -/
theorem C157_order (a b : Int) (fa fb : FILETIME) (ha : -secondsBetweenEpochs ≤ a)
    (hb : -secondsBetweenEpochs ≤ b) (ha' : (a + secondsBetweenEpochs) * 10000000 < 2 ^ 63)
    (hb' : (b + secondsBetweenEpochs) * 10000000 < 2 ^ 63)
    (ea : toFileTime a = some fa) (eb : toFileTime b = some fb) :
    (ticks fa < ticks fb ↔ a < b) ∧ (fa = fb ↔ a = b) := by
  obtain ⟨x, x1, x2, x3⟩ := C157_round_trip_partial a ha ha'
  obtain ⟨y, y1, y2, y3⟩ := C157_round_trip_partial b hb hb'
  rw [ea] at x1; rw [eb] at y1
  cases x1; cases y1
  refine ⟨by rw [x3, y3]; omega, fun h => by rw [← x2, ← y2, h], fun h => ?_⟩
  subst h; rw [ea] at eb; exact Option.some.inj eb

/-- 2022-11-22, 1970-01-01, 1601-01-01 and a day before. -/
example : toFileTime 1669075200 = some ⟨0x5d3d0000, 0x1d8fe05⟩ ∧
    (toFileTime 1669075200).map toTimeT = some 1669075200 ∧
    (toFileTime 0).map toTimeT = some 0 ∧ (toFileTime (-1)).map toTimeT = some (-1) ∧
    (toFileTime (-11644473600)).map toTimeT = some (-11644473600) ∧
    (toFileTime (-11644560000)).map toTimeT = some (-11644473600) := by decide +kernel

/-- Half a second past: the second is the one begun, also before 1970. -/
example : toTimeT ⟨0xD53E8000 - 5000000, 0x019DB1DE⟩ = -1 ∧
    toTimeT ⟨0xD53E8000 + 5000000, 0x019DB1DE⟩ = 0 := by decide +kernel

end Verif.Util.FileTime
