import Verif.Util.FileTime

/-! # The time of a file that the watcher has seen (C216)

common/file_watcher_win.cc:53-61, 506. A directory is also scanned (path.cc:568, 593), and the manifest updater compares the times of both
(manifest_updater.cc:373). -/
namespace Verif.Util.FileTime

/-! ## Model -/

/-- `ToUnixTime`, file_watcher_win.cc:52-61: the ticks are signed here, and the division is that of C++, towards zero. -/
def toUnixTime (q : Int) : Option Int := (int64 (q - epochOffset)).map fun d => d.tdiv ticksPerSecond

/-! ## Specification: `ticks`, `InSecond` and `secondsBetweenEpochs` of C157 -/

/-- The file was changed in 1970 or later. -/
def From1970 (ft : FILETIME) : Prop := secondsBetweenEpochs * 10000000 ≤ ticks ft

/-! ## Proof -/

theorem toUnixTime_eq (ft : FILETIME) (h : ticks ft < 2 ^ 63) :
    toUnixTime (ticks ft) = some ((ticks ft - epochOffset).tdiv ticksPerSecond) := by
  unfold toUnixTime int64
  have : 0 ≤ ticks ft := by unfold ticks; omega
  rw [if_pos]
  · rfl
  · unfold epochOffset
    omega

theorem toTimeT_eq (ft : FILETIME) : toTimeT ft = (ticks ft - epochOffset) / 10000000 := by
  unfold toTimeT toUint64 ticks epochOffset ticksPerSecond
  omega

/-- **C216, partial**: for every file changed in 1970 or later the watcher gives the second of the change, the same time as a scan. -/
theorem C216_from_1970_partial (ft : FILETIME) (h : ticks ft < 2 ^ 63) (h70 : From1970 ft) :
    ∃ t, toUnixTime (ticks ft) = some t ∧ InSecond ft t ∧ t = toTimeT ft := by
  refine ⟨_, toUnixTime_eq ft h, ?_⟩
  have e : (ticks ft - epochOffset).tdiv ticksPerSecond = toTimeT ft := by
    rw [toTimeT_eq]
    unfold ticksPerSecond
    refine Int.tdiv_eq_ediv_of_nonneg ?_
    unfold From1970 secondsBetweenEpochs at h70
    unfold epochOffset
    omega
  rw [e]
  exact ⟨(C157_read ft).1, rfl⟩

/-- **C216** is false of the code: of a file changed before 1970, not at a full second, the watcher gives the second after the one in which it
was changed, and a scan the one in which it was. -/
theorem C216_before_1970_violated (ft : FILETIME) (h : ¬ From1970 ft) (hf : ticks ft % 10000000 ≠ 0) :
    toUnixTime (ticks ft) = some (toTimeT ft + 1) ∧ ¬ InSecond ft (toTimeT ft + 1) := by
  unfold From1970 secondsBetweenEpochs at h
  refine ⟨?_, fun hi => ?_⟩
  · rw [toUnixTime_eq ft (by omega), toTimeT_eq]
    congr 1
    unfold ticksPerSecond
    rw [Int.tdiv_eq_ediv, if_neg]
    · rfl
    · unfold epochOffset
      rintro (h1 | h1)
      · omega
      · omega
  · have := (C157_read ft).2 _ hi
    omega

/-- **C216, exactly when.** The watcher and a scan give the same time if and only if the file was changed in 1970 or later or at a full
second. -/
theorem C216_exactly (ft : FILETIME) (h : ticks ft < 2 ^ 63) :
    toUnixTime (ticks ft) = some (toTimeT ft) ↔ From1970 ft ∨ ticks ft % 10000000 = 0 := by
  constructor
  · intro he
    refine Classical.byContradiction fun hn => ?_
    rw [not_or] at hn
    rw [(C216_before_1970_violated ft hn.1 hn.2).1] at he
    simp only [Option.some.injEq] at he
    omega
  · rintro (h1 | h1)
    · obtain ⟨t, e, -, rfl⟩ := C216_from_1970_partial ft h h1
      exact e
    · rw [toUnixTime_eq ft h, toTimeT_eq]
      congr 1
      unfold ticksPerSecond
      refine Int.tdiv_eq_ediv_of_dvd (Int.dvd_of_emod_eq_zero ?_)
      unfold epochOffset
      omega

/-- A file of 2020-01-01 00:00:00.5: both say 1577836800. -/
example : let ft : FILETIME := ⟨UInt32.ofNat (132223104005000000 % 2 ^ 32), UInt32.ofNat (132223104005000000 / 2 ^ 32)⟩
    toUnixTime (ticks ft) = some 1577836800 ∧ toTimeT ft = 1577836800 ∧ ticks ft < 2 ^ 63 := by decide +kernel

/-- Half a second before 1970: the watcher says 0, a scan says -1. -/
example : let ft : FILETIME := ⟨UInt32.ofNat (116444735995000000 % 2 ^ 32), UInt32.ofNat (116444735995000000 / 2 ^ 32)⟩
    toUnixTime (ticks ft) = some 0 ∧ toTimeT ft = -1 := by decide +kernel

end Verif.Util.FileTime
