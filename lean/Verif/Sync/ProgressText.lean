import Verif.Sync.Progress
import Verif.Text.Components

/-! # The text of a progress line (C214)

progress_tracker.cc:50-91, 433-493, 516-541: what is behind the path in the line of a file. -/
namespace Verif.Progress
open Verif.Text.Components (dec dec_spec)
open Verif.Text.Flags (value IsNumber isDigit)

abbrev Text := List UInt8

/-! ## Model -/

def padLeft (n : Nat) (c : UInt8) (s : Text) : Text := List.replicate (n - s.length) c ++ s

/-- `%02i`. -/
def two (n : Nat) : Text := padLeft 2 48 (dec n)

/-- `FormatTime`, progress_tracker.cc:80-91; `sec` is the time cut to whole seconds. -/
def formatTime (sec : Nat) : Text :=
  if sec / 3600 > 0 then two (sec / 3600) ++ 58 :: two (sec % 3600 / 60) ++ 58 :: two (sec % 3600 % 60)
  else two (sec % 3600 / 60) ++ 58 :: two (sec % 3600 % 60)

/-- `FormatDoubleBytes`, progress_tracker.cc:68-77. Dividing by 1024 is exact; the number 999.9 is taken as it is, not as the nearest
`double`. -/
def formatDoubleBytes : (n : Nat) → Rat → Rat × Nat
  | 0, x => (x, 0)
  | n + 1, x => if x > 9999 / 10 then ((formatDoubleBytes n (x / 1024)).1, (formatDoubleBytes n (x / 1024)).2 + 1) else (x, 0)

/-- Tenths, rounded. -/
def tenths (x : Rat) : Nat := (10 * x + 1 / 2).floor.toNat

/-- `%5.1f`. Halves are rounded up here. -/
def oneDecimal (x : Rat) : Text := padLeft 5 32 (dec (tenths x / 10) ++ 46 :: dec (tenths x % 10))

/-- `kSizeUnits`, progress_tracker.cc:51. -/
def unitName : Nat → Text
  | 0 => [66]
  | 1 => [75, 66]
  | 2 => [77, 66]
  | 3 => [71, 66]
  | 4 => [84, 66]
  | 5 => [80, 66]
  | 6 => [69, 66]
  | _ => [90, 66]

def eta : Text := [69, 84, 65]
def blank3 : Text := [32, 32, 32]

/-- `GetTotalProgressText`, progress_tracker.cc:526-541: percent, seconds, whether the time is what is left. -/
def totalText (percent sec : Nat) (left : Bool) : Text :=
  padLeft 3 32 (dec percent) ++ [37, 32, 84, 79, 84, 32] ++ formatTime sec ++ [32] ++ if left then eta else blank3

/-- What is shown of a file. -/
structure Shown where
  /-- `C`, `S` or `D` -/
  op : UInt8
  percent : Nat
  size : Nat
  /-- bytes per second, not for signatures -/
  speed : Option Rat
  sec : Nat
  left : Bool
  totalPercent : Nat
  totalSec : Nat
  totalLeft : Bool

/-- `---.-` or the speed, and its unit, progress_tracker.cc:463-471. -/
def speedText : Option Rat → Text
  | none => [45, 45, 45, 46, 45] ++ paddRight [66] 2
  | some x => oneDecimal (formatDoubleBytes 7 x).1 ++ paddRight (unitName (formatDoubleBytes 7 x).2) 2

/-- `txt`, progress_tracker.cc:480-487. -/
def text (s : Shown) : Text :=
  [32, s.op] ++ padLeft 3 32 (dec s.percent) ++ [37, 32] ++
  padLeft 5 32 (dec (formatIntBytes 7 s.size).1) ++ paddRight (unitName (formatIntBytes 7 s.size).2) 2 ++ [32] ++
  speedText s.speed ++ [47, 115, 32] ++ formatTime s.sec ++ [32] ++ (if s.left then eta else blank3) ++ [32] ++
  totalText s.totalPercent s.totalSec s.totalLeft

/-! ## Specification -/

/-- A text says a time: hours with at least two digits if there are any, minutes and seconds with two digits. -/
inductive SaysTime : Text → Nat → Prop where
  | short (m s : Text) : m.length = 2 → s.length = 2 → IsNumber m → IsNumber s → value m < 60 → value s < 60 →
      SaysTime (m ++ 58 :: s) (60 * value m + value s)
  | long (h m s : Text) : 2 ≤ h.length → m.length = 2 → s.length = 2 → IsNumber h → IsNumber m → IsNumber s →
      0 < value h → value m < 60 → value s < 60 →
      SaysTime (h ++ 58 :: m ++ 58 :: s) (3600 * value h + 60 * value m + value s)

def bytes (s : String) : Text := s.toList.map fun c => c.toNat.toUInt8

/-- The number, in decimal, at the right of a column of this width. -/
def Column (width n : Nat) (t : Text) : Prop :=
  t.length = width ∧ ∃ k d, t = List.replicate k 32 ++ d ∧ IsNumber d ∧ value d = n

/-- The unit with this number, with two characters. -/
def UnitName (u : Nat) (t : Text) : Prop := ["B ", "KB", "MB", "GB", "TB", "PB", "EB", "ZB"][u]?.map bytes = some t

/-- A number with one decimal in five columns and its unit: the speed, to half of the last digit, in the smallest unit in which it is at most
999.9. -/
def SaysSpeed (x : Rat) (t : Text) : Prop := ∃ u n a b d e,
  t = d ++ 46 :: e ++ a ∧ d.length = 3 ∧ e.length = 1 ∧ Column 3 (n / 10) d ∧ Column 1 (n % 10) e ∧ UnitName u a ∧ b = x / 1024 ^ u ∧
  10 * b - 1 / 2 < (n : Rat) ∧ (n : Rat) ≤ 10 * b + 1 / 2 ∧ b ≤ 9999 / 10 ∧ ∀ u' < u, 9999 / 10 < x / 1024 ^ u'

/-- What follows the path, from the left to the right. -/
structure Says (s : Shown) (t : Text) : Prop where
  fields : ∃ pc size unit v spd tm tpc ttm, t = 32 :: s.op :: pc ++ bytes "% " ++ size ++ unit ++ bytes " " ++ spd ++ bytes "/s " ++ tm ++
      bytes (if s.left then " ETA " else "     ") ++ tpc ++ bytes "% TOT " ++ ttm ++ bytes (if s.totalLeft then " ETA" else "    ") ∧
    Column 3 s.percent pc ∧ Column 5 (s.size / 1024 ^ v) size ∧ UnitName v unit ∧ s.size / 1024 ^ v ≤ 9999 ∧
    (∀ v' < v, 9999 < s.size / 1024 ^ v') ∧
    (match s.speed with | none => spd = bytes "---.-B " | some x => SaysSpeed x spd) ∧
    SaysTime tm s.sec ∧ Column 3 s.totalPercent tpc ∧ SaysTime ttm s.totalSec

/-! ## Proof -/

theorem dec_length_le (n k : Nat) (hk : 0 < k) (h : n < 10 ^ k) : (dec n).length ≤ k := by
  induction n using Nat.strongRecOn generalizing k with
  | _ n ih =>
    rw [dec]
    split
    · exact hk
    · rw [List.length_append, List.length_singleton]
      obtain ⟨k, rfl⟩ : ∃ j, k = j + 1 := ⟨k - 1, by omega⟩
      have hk0 : 0 < k := by
        rcases Nat.eq_zero_or_pos k with rfl | h0
        · omega
        · exact h0
      have := ih (n / 10) (by omega) k hk0 (by rw [Nat.pow_succ] at h; omega)
      omega

theorem padLeft_length (n : Nat) (c : UInt8) (s : Text) (h : s.length ≤ n) : (padLeft n c s).length = n := by
  simp only [padLeft, List.length_append, List.length_replicate]; omega

theorem dec_two (n : Nat) (h : 10 ≤ n) : 2 ≤ (dec n).length := by
  rw [dec, if_neg (by omega), List.length_append, List.length_singleton]
  have := (dec_spec (n / 10)).1.1
  have := List.length_pos_iff.2 this
  omega

theorem two_spec (n : Nat) : IsNumber (two n) ∧ value (two n) = n ∧ 2 ≤ (two n).length ∧ (n < 100 → (two n).length = 2) := by
  have hd := dec_spec n
  by_cases h : 10 ≤ n
  · have h2 := dec_two n h
    have e : two n = dec n := by
      unfold two padLeft
      rw [show 2 - (dec n).length = 0 by omega]; rfl
    rw [e]
    exact ⟨hd.1, hd.2, h2, fun h3 => by have := dec_length_le n 2 (by decide) (by omega); omega⟩
  · have key : ∀ n : Fin 10, IsNumber (two n.val) ∧ value (two n.val) = n.val ∧ (two n.val).length = 2 := by
      intro n
      have e : two n.val = [48, 48 + n.val.toUInt8] := by
        unfold two; rw [dec, if_pos n.isLt]; rfl
      rw [e]
      revert n
      unfold IsNumber
      decide +kernel
    obtain ⟨h1, h2, h3⟩ := key ⟨n, by omega⟩
    exact ⟨h1, h2, Nat.le_of_eq h3.symm, fun _ => h3⟩

/-- **C214, times.** For every number of seconds the text says exactly this time. -/
theorem C214_time (sec : Nat) : SaysTime (formatTime sec) sec := by
  have m := two_spec (sec % 3600 / 60)
  have s := two_spec (sec % 3600 % 60)
  have h := two_spec (sec / 3600)
  unfold formatTime
  split
  · have := SaysTime.long (two (sec / 3600)) (two (sec % 3600 / 60)) (two (sec % 3600 % 60)) h.2.2.1 (m.2.2.2 (by omega)) (s.2.2.2 (by omega))
      h.1 m.1 s.1 (by rw [h.2.1]; omega) (by rw [m.2.1]; omega) (by rw [s.2.1]; omega)
    rw [h.2.1, m.2.1, s.2.1] at this
    rw [show 3600 * (sec / 3600) + 60 * (sec % 3600 / 60) + sec % 3600 % 60 = sec by omega] at this
    exact this
  · have := SaysTime.short (two (sec % 3600 / 60)) (two (sec % 3600 % 60)) (m.2.2.2 (by omega)) (s.2.2.2 (by omega))
      m.1 s.1 (by rw [m.2.1]; omega) (by rw [s.2.1]; omega)
    rw [m.2.1, s.2.1] at this
    rw [show 60 * (sec % 3600 / 60) + sec % 3600 % 60 = sec by omega] at this
    exact this

theorem time_length (sec : Nat) : (sec < 3600 → (formatTime sec).length = 5) ∧
    (3600 ≤ sec → sec < 360000 → (formatTime sec).length = 8) ∧ (360000 ≤ sec → 8 ≤ (formatTime sec).length) ∧ 5 ≤ (formatTime sec).length := by
  have m := (two_spec (sec % 3600 / 60)).2.2.2 (by omega)
  have s := (two_spec (sec % 3600 % 60)).2.2.2 (by omega)
  have h := (two_spec (sec / 3600)).2.2
  unfold formatTime
  split
  · rename_i hp
    have e : (two (sec / 3600) ++ 58 :: two (sec % 3600 / 60) ++ 58 :: two (sec % 3600 % 60)).length = (two (sec / 3600)).length + 6 := by
      simp only [List.length_append, List.length_cons, m, s]
    rw [e]
    refine ⟨fun _ => by omega, fun _ h2 => ?_, fun _ => by omega, by omega⟩
    rw [h.2 (by omega)]
  · rename_i hp
    have e : (two (sec % 3600 / 60) ++ 58 :: two (sec % 3600 % 60)).length = 5 := by
      simp only [List.length_append, List.length_cons, m, s]
    rw [e]
    refine ⟨fun _ => rfl, fun _ _ => by omega, fun _ => by omega, by omega⟩

theorem double_spec (n : Nat) (x : Rat) (hx : 0 ≤ x) : (formatDoubleBytes n x).2 ≤ n ∧
    (formatDoubleBytes n x).1 * 1024 ^ (formatDoubleBytes n x).2 = x ∧ 0 ≤ (formatDoubleBytes n x).1 ∧
    (x ≤ 9999 / 10 * 1024 ^ n → (formatDoubleBytes n x).1 ≤ 9999 / 10) ∧
    ∀ u < (formatDoubleBytes n x).2, 9999 / 10 * 1024 ^ u < x := by
  induction n generalizing x with
  | zero => simp [formatDoubleBytes, hx]
  | succ n ih =>
    rw [formatDoubleBytes]
    split
    · rename_i hgt
      obtain ⟨h1, h2, h3, h4, h5⟩ := ih (x / 1024) (by positivity)
      generalize formatDoubleBytes n (x / 1024) = r at *
      dsimp only
      refine ⟨by omega, ?_, h3, fun h => h4 ?_, fun u hu => ?_⟩
      · rw [pow_succ]; linarith
      · rw [pow_succ] at h; linarith
      · cases u with
        | zero => rw [pow_zero]; linarith
        | succ u =>
          have := h5 u (by omega)
          rw [pow_succ]; linarith
    · rename_i hle
      exact ⟨Nat.zero_le _, by simp, hx, fun _ => by linarith, fun u hu => absurd hu (Nat.not_lt_zero u)⟩

theorem tenths_spec (x : Rat) (h0 : 0 ≤ x) : (10 * x - 1 / 2 < (tenths x : Rat) ∧ (tenths x : Rat) ≤ 10 * x + 1 / 2) ∧
    (x ≤ 9999 / 10 → tenths x ≤ 9999) := by
  have hf1 := Rat.floor_le (10 * x + 1 / 2)
  have hf2 := Rat.lt_floor_add_one (10 * x + 1 / 2)
  have hn : 0 ≤ (10 * x + 1 / 2).floor := Rat.le_floor_iff.2 (by push_cast; linarith)
  unfold tenths
  generalize (10 * x + 1 / 2).floor = z at *
  obtain ⟨k, rfl⟩ := Int.eq_ofNat_of_zero_le hn
  simp only [Int.toNat_natCast]
  push_cast at hf1 hf2
  refine ⟨⟨by linarith, hf1⟩, fun hx => ?_⟩
  have : (k : Rat) < 10000 := by linarith
  have : k < 10000 := by exact_mod_cast this
  omega

/-- **C214, speeds.** Every speed below 999.9 ZB/s is shown with at most three digits before the point, in the smallest unit in which it is
at most 999.9, and the number shown differs from it by at most half of the last digit. -/
theorem C214_speed (x : Rat) (h0 : 0 ≤ x) (hx : x ≤ 9999 / 10 * 1024 ^ 7) :
    let u := (formatDoubleBytes 7 x).2
    let n := tenths (formatDoubleBytes 7 x).1
    u ≤ 7 ∧ n ≤ 9999 ∧ (10 * (x / 1024 ^ u) - 1 / 2 < (n : Rat) ∧ (n : Rat) ≤ 10 * (x / 1024 ^ u) + 1 / 2) ∧
      x / 1024 ^ u ≤ 9999 / 10 ∧ ∀ u' < u, 9999 / 10 < x / 1024 ^ u' := by
  intro u n
  obtain ⟨h1, h2, h3, h4, h5⟩ := double_spec 7 x h0
  have e : x / 1024 ^ u = (formatDoubleBytes 7 x).1 := by
    rw [div_eq_iff (by positivity)]; exact h2.symm
  have ht := tenths_spec _ h3
  rw [e]
  refine ⟨h1, ht.2 (h4 hx), ht.1, h4 hx, fun u' hu => ?_⟩
  rw [lt_div_iff₀ (by positivity)]
  exact h5 u' hu

theorem unit_length (u : Nat) : (paddRight (unitName u) 2).length = 2 := by
  unfold paddRight unitName
  split <;> simp

theorem speed_length (v : Option Rat) (hv : ∀ x, v = some x → 0 ≤ x ∧ x ≤ 9999 / 10 * 1024 ^ 7) : (speedText v).length = 7 := by
  cases v with
  | none => simp [speedText, paddRight]
  | some x =>
    obtain ⟨h0, h1⟩ := hv x rfl
    obtain ⟨-, h3, h4, -, -⟩ := (fun h => h) (C214_speed x h0 h1)
    rw [speedText, List.length_append, unit_length, oneDecimal, padLeft_length]
    rw [List.length_append, List.length_cons]
    have a := dec_length_le (tenths (formatDoubleBytes 7 x).1 / 10) 3 (by decide) (by omega)
    have b := dec_length_le (tenths (formatDoubleBytes 7 x).1 % 10) 1 (by decide) (by omega)
    omega

theorem text_length (s : Shown) (h1 : s.percent ≤ 100) (h2 : s.size < 2 ^ 64)
    (h3 : ∀ x, s.speed = some x → 0 ≤ x ∧ x ≤ 9999 / 10 * 1024 ^ 7) (h4 : s.totalPercent ≤ 100) :
    (text s).length = 43 + (formatTime s.sec).length + (formatTime s.totalSec).length := by
  have a1 := padLeft_length 3 32 _ (dec_length_le s.percent 3 (by decide) (by omega))
  have a2 := padLeft_length 3 32 _ (dec_length_le s.totalPercent 3 (by decide) (by omega))
  have b := (C129_sizes s.size h2 _ _ rfl).1
  have a3 := padLeft_length 5 32 _ (Nat.le_succ_of_le (dec_length_le (formatIntBytes 7 s.size).1 4 (by decide) (Nat.lt_of_le_of_lt b (by decide))))
  have a4 := speed_length s.speed h3
  have e1 : ∀ b : Bool, (if b then eta else blank3).length = 3 := by decide
  simp only [text, totalText, List.length_append, List.length_cons, List.length_nil, a1, a2, a3, a4, unit_length, e1]
  omega

/-- **C214, the columns.** While no time of an hour or more is shown, the text behind the path always has 53 characters, whatever the
file, the sizes, the speed and the progress: the columns of all lines are below each other, and from 65 columns on a line has exactly the
width of the terminal. -/
theorem C214_columns_partial (s : Shown) (h1 : s.percent ≤ 100) (h2 : s.size < 2 ^ 64)
    (h3 : ∀ x, s.speed = some x → 0 ≤ x ∧ x ≤ 9999 / 10 * 1024 ^ 7) (h4 : s.totalPercent ≤ 100) (h5 : s.sec < 3600) (h6 : s.totalSec < 3600) :
    (text s).length = 53 ∧ ∀ (path : Text) (width : Nat), 65 ≤ width → (fileLine path (text s) width).length = width := by
  have h := text_length s h1 h2 h3 h4
  rw [(time_length s.sec).1 h5, (time_length s.totalSec).1 h6] at h
  exact ⟨h, fun path width hw => (C129_width path (text s) width (by omega)).1⟩

/-- **C214**: the columns are not where they were once a time is an hour or more: the text is longer, for every such file. -/
theorem C214_hours_violated (s : Shown) (h1 : s.percent ≤ 100) (h2 : s.size < 2 ^ 64)
    (h3 : ∀ x, s.speed = some x → 0 ≤ x ∧ x ≤ 9999 / 10 * 1024 ^ 7) (h4 : s.totalPercent ≤ 100) (h5 : 3600 ≤ s.sec ∨ 3600 ≤ s.totalSec) :
    56 ≤ (text s).length := by
  have h := text_length s h1 h2 h3 h4
  have a := time_length s.sec
  have b := time_length s.totalSec
  by_cases c1 : s.sec < 360000
  · by_cases c2 : s.totalSec < 360000
    · rcases h5 with h5 | h5
      · have := a.2.1 h5 c1; omega
      · have := b.2.1 h5 c2; omega
    · have := b.2.2.1 (by omega); omega
  · have := a.2.2.1 (by omega); omega

theorem column_spec (w n : Nat) (h : (dec n).length ≤ w) : Column w n (padLeft w 32 (dec n)) :=
  ⟨padLeft_length w 32 _ h, _, _, rfl, (dec_spec n).1, (dec_spec n).2⟩

theorem unit_spec (u : Nat) (h : u ≤ 7) : UnitName u (paddRight (unitName u) 2) := by
  have : ∀ u : Fin 8, ["B ", "KB", "MB", "GB", "TB", "PB", "EB", "ZB"][u.val]?.map bytes = some (paddRight (unitName u.val) 2) := by
    decide +kernel
  exact this ⟨u, by omega⟩

theorem speed_says (x : Rat) (h0 : 0 ≤ x) (hx : x ≤ 9999 / 10 * 1024 ^ 7) : SaysSpeed x (speedText (some x)) := by
  obtain ⟨h1, h2, h3, h4, h5⟩ := C214_speed x h0 hx
  rw [speedText]
  generalize hn : tenths (formatDoubleBytes 7 x).1 = n at *
  generalize (formatDoubleBytes 7 x).2 = u at *
  have a := dec_length_le (n / 10) 3 (by decide) (by omega)
  have b := dec_length_le (n % 10) 1 (by decide) (by omega)
  have b1 : (dec (n % 10)).length = 1 := by
    have := List.length_pos_iff.2 (dec_spec (n % 10)).1.1
    omega
  refine ⟨u, n, _, _, padLeft 3 32 (dec (n / 10)), dec (n % 10), ?_, padLeft_length 3 32 _ a, b1, column_spec 3 _ a, ?_, unit_spec u h1, rfl,
    h3.1, h3.2, h4, h5⟩
  · unfold oneDecimal
    rw [hn]
    have e : padLeft 5 32 (dec (n / 10) ++ 46 :: dec (n % 10)) = padLeft 3 32 (dec (n / 10)) ++ 46 :: dec (n % 10) := by
      unfold padLeft
      rw [List.length_append, List.length_cons, b1, List.append_assoc, show 5 - ((dec (n / 10)).length + (1 + 1)) = 3 - (dec (n / 10)).length by omega]
    rw [e]
  · exact ⟨b1, 0, _, rfl, (dec_spec _).1, (dec_spec _).2⟩

/-- **C214, the contents.** For every file the text says, in this order, the operation, the percentage, the size in the smallest unit in which
it has at most four digits, the speed, the time, whether it is what is left, and the same of the whole. -/
theorem C214_contents (s : Shown) (h1 : s.percent ≤ 100) (h2 : s.size < 2 ^ 64)
    (h3 : ∀ x, s.speed = some x → 0 ≤ x ∧ x ≤ 9999 / 10 * 1024 ^ 7) (h4 : s.totalPercent ≤ 100) : Says s (text s) := by
  obtain ⟨b1, b2, b3, b4⟩ := C129_sizes s.size h2 _ _ rfl
  have a3 := Nat.le_succ_of_le (dec_length_le (formatIntBytes 7 s.size).1 4 (by decide) (Nat.lt_of_le_of_lt b1 (by decide)))
  refine ⟨padLeft 3 32 (dec s.percent), padLeft 5 32 (dec (formatIntBytes 7 s.size).1), paddRight (unitName (formatIntBytes 7 s.size).2) 2,
    (formatIntBytes 7 s.size).2, speedText s.speed, formatTime s.sec, padLeft 3 32 (dec s.totalPercent), formatTime s.totalSec, ?_,
    column_spec 3 _ (dec_length_le _ 3 (by decide) (by omega)), b3 ▸ column_spec 5 _ a3, unit_spec _ b2, b3 ▸ b1, b4, ?_, C214_time _,
    column_spec 3 _ (dec_length_le _ 3 (by decide) (by omega)), C214_time _⟩
  · have e1 : bytes (if s.left then " ETA " else "     ") = [32] ++ (if s.left then eta else blank3) ++ [32] := by
      cases s.left <;> decide +kernel
    have e2 : bytes (if s.totalLeft then " ETA" else "    ") = [32] ++ (if s.totalLeft then eta else blank3) := by
      cases s.totalLeft <;> decide +kernel
    have e3 : bytes "% " = [37, 32] := by decide +kernel
    have e4 : bytes " " = [32] := by decide +kernel
    have e5 : bytes "/s " = [47, 115, 32] := by decide +kernel
    have e6 : bytes "% TOT " = [37, 32, 84, 79, 84, 32] := by decide +kernel
    rw [e1, e2, e3, e4, e5, e6]
    unfold text totalText
    simp only [List.append_assoc, List.cons_append, List.nil_append]
  · cases hs : s.speed with
    | none => dsimp only; decide +kernel
    | some x => exact speed_says x (h3 x hs).1 (h3 x hs).2

/-- A line like the one in the comments of the code. -/
example : text ⟨67, 50, 12345000000, some 129394278, 10, true, 50, 300, true⟩ =
    " C 50%    11GB 123.4MB/s 00:10 ETA  50% TOT 05:00 ETA".toList.map (fun c => c.toNat.toUInt8) := by decide +kernel

example : formatTime 3599 = "59:59".toList.map (fun c => c.toNat.toUInt8) ∧ formatTime 3600 = "01:00:00".toList.map (fun c => c.toNat.toUInt8) := by
  decide +kernel

end Verif.Progress
