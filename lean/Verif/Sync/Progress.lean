import Mathlib.Algebra.Order.Field.Basic
import Mathlib.Algebra.Order.Floor.Ring
import Mathlib.Data.Rat.Floor
import Mathlib.Tactic.Linarith
import Mathlib.Tactic.NormNum

/-! # Progress shown by `cdc_rsync` (C125-C129)

cdc_rsync/progress_tracker.cc. -/
namespace Verif.Progress

/-! ### Model -/

/-- Rounding of real numbers to `double`. All that is assumed about it: it does not change the order, small integers are not changed, and neither is the largest number below 1;
the largest product of 100 with a smaller number is less than 100. (IEEE 754, any rounding mode but upwards.) -/
structure Rounding (fl : Rat → Rat) : Prop where
  mono : ∀ x y, x ≤ y → fl x ≤ fl y
  nat : ∀ n : Nat, n ≤ 2 ^ 53 → fl n = n
  below : fl (1 - 1 / 2 ^ 53) < 1
  hundred : fl (100 * fl (1 - 1 / 2 ^ 53)) < 100

/-- `State`, progress_tracker.h:192-199. -/
inductive Phase | idle | search | copy | sig | diff | delete
  deriving DecidableEq, Repr

/-- `ProgressTracker`, progress_tracker.h:177-239, without the timers for speeds and remaining times. Simplified: the counters do not overflow. `printAt` is the time at which `print_timer_` was reset. -/
structure State where
  phase : Phase := .idle
  filesFound : Nat := 0
  dirsFound : Nat := 0
  path : List UInt8 := []
  size : Nat := 0
  copied : Nat := 0
  totalCopied : Nat := 0
  toCopy : Nat := 0
  sigRead : Nat := 0
  totalSigRead : Nat := 0
  totalSig : Nat := 0
  serverSize : Nat := 0
  diffed : Nat := 0
  totalDiffed : Nat := 0
  toDiff : Nat := 0
  filesDeleted : Nat := 0
  filesToDelete : Nat := 0
  dirsDeleted : Nat := 0
  dirsToDelete : Nat := 0
  printAt : Nat := 0

/-- `quiet` and `is_tty` of the printer, `only_total_progress_` and `json_`, progress_tracker.cc:117-128. -/
structure Cfg where
  quiet : Bool
  tty : Bool
  onlyTotal : Bool
  json : Bool
  fl : Rat → Rat

/-- `display_delay_sec_` in nanoseconds, progress_tracker.cc:124. -/
def Cfg.delay (c : Cfg) : Nat := if c.tty then 100000000 else 1000000000

/-- `GetProgress`, progress_tracker.cc:95-98. -/
def getProgress (fl : Rat → Rat) (curr total : Nat) : Rat := min (max (fl (fl curr / fl (max 1 total : Nat))) 0) 1

/-- `GetTotalProgress`, progress_tracker.cc:512-517. -/
def totalProgress (fl : Rat → Rat) (s : State) : Rat :=
  getProgress fl (s.totalCopied + s.totalDiffed + s.totalSigRead / 40) (s.toCopy + s.toDiff + s.totalSig / 40)

/-- A line that is printed; `newline` says whether the next one is below it or overwrites it on a terminal. Speeds and times are left out. -/
inductive Line where
  /-- progress_tracker.cc:190-194, the numbers of files -/
  | stats (missing changed matching extraneous : Nat)
  /-- 368-373 -/
  | found (files dirs : Nat) (newline : Bool)
  /-- 320-323 -/
  | deletedTotal (files filesTotal dirs dirsTotal : Nat) (newline : Bool)
  /-- 327-335 -/
  | deleted (path : List UInt8) (n total : Nat)
  /-- 346-357: the progress as in the JSON value; the text has the percentage, 530 -/
  | total (progress : Rat) (newline : Bool)
  /-- 408-495: operation, size, progress of the file (only in the text) and total progress -/
  | file (op : Phase) (path : List UInt8) (size : Nat) (progress total : Rat) (newline : Bool)

/-- What is printed as percentage, progress_tracker.cc:457, 530. -/
def percent (fl : Rat → Rat) (p : Rat) : Int := ⌊fl (p * 100)⌋

/-- The progress in `UpdateOutput`, progress_tracker.cc:375-398. -/
def fileProgress (fl : Rat → Rat) (s : State) : Rat :=
  match s.phase with
  | .copy => getProgress fl s.copied s.size
  | _ => getProgress fl (s.diffed + s.sigRead / 40) (s.size + s.serverSize / 40)

/-- `UpdateOutput`, progress_tracker.cc:302-406, at the time `now`. Returns the line that is printed. -/
def updateOutput (c : Cfg) (now : Nat) (finished : Bool) (s : State) : State × List Line :=
  if c.quiet then (s, [])
  else if s.phase = .delete then
    if s.filesToDelete + s.dirsToDelete = 0 ∨ (!c.onlyTotal && finished) = true then (s, [])
    else if c.onlyTotal then
      if !finished && now - s.printAt < c.delay then (s, [])
      else ({ s with printAt := now }, [.deletedTotal s.filesDeleted s.filesToDelete s.dirsDeleted s.dirsToDelete finished])
    else (s, [.deleted s.path (s.filesDeleted + s.dirsDeleted) (s.filesToDelete + s.dirsToDelete)])
  else if c.onlyTotal = true ∧ s.phase ≠ .search then
    let finished := finished && decide (totalProgress c.fl s = 1)
    if !finished && now - s.printAt < c.delay then (s, [])
    else ({ s with printAt := now }, [.total (totalProgress c.fl s) finished])
  else if !finished && now - s.printAt < c.delay then (s, [])
  else ({ s with printAt := now },
    match s.phase with
    | .search => [.found s.filesFound s.dirsFound finished]
    | .copy | .sig | .diff => [.file s.phase s.path s.size (if finished then 1 else fileProgress c.fl s) (totalProgress c.fl s) finished]
    | _ => [])

/-- The calls, progress_tracker.h:78-136. -/
inductive Event where
  | startFind
  | fileFound
  | dirFound
  | stats (missing extraneous matching changed missingBytes changedClient changedServer extraneousDirs : Nat)
  | startCopy (path : List UInt8) (size : Nat)
  | copied (n : Nat)
  | startSync (path : List UInt8) (client server : Nat)
  | synced (client server : Nat)
  | startDelete
  | fileDeleted (path : List UInt8)
  | dirDeleted (path : List UInt8)
  | finish

/-- The functions of `ProgressTracker`, progress_tracker.cc:132-300. -/
def step (c : Cfg) (now : Nat) (e : Event) (s : State) : State × List Line :=
  match e with
  | .startFind => ({ s with phase := .search, filesFound := 0 }, [])
  | .fileFound => updateOutput c now false { s with filesFound := s.filesFound + 1 }
  | .dirFound => updateOutput c now false { s with dirsFound := s.dirsFound + 1 }
  | .stats missing extraneous matching changed missingBytes cc cs extraneousDirs =>
    ({ s with toCopy := missingBytes, toDiff := cc, totalSig := cs, filesToDelete := extraneous, dirsToDelete := extraneousDirs },
      if c.quiet then [] else [.stats missing changed matching extraneous])
  | .startCopy path size => ({ s with phase := .copy, path := path, size := size, copied := 0 }, [])
  | .copied n => updateOutput c now false { s with copied := s.copied + n, totalCopied := s.totalCopied + n }
  | .startSync path client server => ({ s with phase := .diff, path := path, size := client, serverSize := server, sigRead := 0, diffed := 0 }, [])
  | .synced client server => updateOutput c now false
      { s with phase := if client > 0 then .diff else if server > 0 then .sig else s.phase,
               diffed := s.diffed + client, totalDiffed := s.totalDiffed + client, sigRead := s.sigRead + server, totalSigRead := s.totalSigRead + server }
  | .startDelete => ({ s with phase := .delete, filesDeleted := 0 }, [])
  | .fileDeleted path => updateOutput c now false { s with path := path, filesDeleted := s.filesDeleted + 1 }
  | .dirDeleted path => updateOutput c now false { s with path := path, dirsDeleted := s.dirsDeleted + 1 }
  | .finish => ({ (updateOutput c now true s).1 with phase := .idle }, (updateOutput c now true s).2)

/-- Calls at their times. The lines are printed at these times. -/
def run (c : Cfg) : List (Nat × Event) → State → State × List (Nat × Line)
  | [], s => (s, [])
  | (now, e) :: es, s => ((run c es (step c now e s).1).1, (step c now e s).2.map (fun l => (now, l)) ++ (run c es (step c now e s).1).2)

/-- `FormatIntBytes`, progress_tracker.cc:55-64: the number and the index of the unit, for at most `n` more units. -/
def formatIntBytes : (n : Nat) → Nat → Nat × Nat
  | 0, size => (size, 0)
  | n + 1, size => if size > 9999 then ((formatIntBytes n (size / 1024)).1, (formatIntBytes n (size / 1024)).2 + 1) else (size, 0)

/-- `PaddRight`, progress_tracker.cc:34-38. -/
def paddRight (s : List UInt8) (n : Nat) : List UInt8 := s ++ List.replicate (n - s.length) 32

/-- `ShortenFilePath`, progress_tracker.cc:43-48. -/
def shortenFilePath (p : List UInt8) (maxLen : Nat) : List UInt8 :=
  if p.length > maxLen ∧ maxLen ≥ 3 then [46, 46, 46] ++ p.drop (p.length - maxLen + 3) else p

/-- The line for a file, progress_tracker.cc:488-493. -/
def fileLine (path txt : List UInt8) (width : Nat) : List UInt8 :=
  paddRight (shortenFilePath path (max 12 (width - txt.length))) (max 12 (width - txt.length)) ++ txt

/-! ### Specification -/

/-- The total progress that a line shows, if it does. -/
def Line.totalOf : Line → Option Rat
  | .total p _ => some p
  | .file _ _ _ _ p _ => some p
  | _ => none

/-- The progress of the current file that a line shows, if it does. -/
def Line.fileOf : Line → Option Rat
  | .file _ _ _ p _ _ => some p
  | _ => none

def Line.newline : Line → Bool
  | .found _ _ b => b
  | .deletedTotal _ _ _ _ b => b
  | .total _ b => b
  | .file _ _ _ _ _ b => b
  | .stats .. => true
  | .deleted .. => true

/-- Lines that show how far something is, and not that one more file is deleted, or the numbers of files found to differ. -/
def Line.repeated : Line → Bool
  | .stats .. => false
  | .deleted .. => false
  | _ => true

def Event.isStats : Event → Bool
  | .stats .. => true
  | _ => false

def Event.isStart : Event → Bool
  | .startCopy .. => true
  | .startSync .. => true
  | _ => false

/-- The bytes reported by a call: copied, compared and read on the server. -/
def Event.bytes : Event → Nat × Nat × Nat
  | .copied n => (n, 0, 0)
  | .synced c s => (0, c, s)
  | _ => (0, 0, 0)

def sumCopied (es : List (Nat × Event)) : Nat := (es.map fun e => e.2.bytes.1).sum
def sumDiffed (es : List (Nat × Event)) : Nat := (es.map fun e => e.2.bytes.2.1).sum
def sumSig (es : List (Nat × Event)) : Nat := (es.map fun e => e.2.bytes.2.2).sum

/-! ### Numbers -/

section
variable {fl : Rat → Rat} (hf : Rounding fl)
include hf

theorem fl_nonneg {x : Rat} (h : 0 ≤ x) : 0 ≤ fl x := by
  have := hf.mono 0 x h
  have h0 := hf.nat 0 (by norm_num)
  simp only [Nat.cast_zero] at h0
  rw [h0] at this; exact this

theorem fl_total (n : Nat) : 1 ≤ fl (max 1 n : Nat) := by
  have h1 : ((1 : Nat) : Rat) ≤ (max 1 n : Nat) := by exact_mod_cast Nat.le_max_left 1 n
  have := hf.mono _ _ h1
  rw [hf.nat 1 (by norm_num)] at this
  simpa using this

theorem progress_mono {a b n : Nat} (h : a ≤ b) : getProgress fl a n ≤ getProgress fl b n := by
  unfold getProgress
  refine min_le_min (max_le_max (hf.mono _ _ ?_) (le_refl _)) (le_refl _)
  have := fl_total hf n
  exact div_le_div_of_nonneg_right (hf.mono _ _ (by exact_mod_cast h)) (by linarith)

omit hf in
theorem progress_bounds (a n : Nat) : 0 ≤ getProgress fl a n ∧ getProgress fl a n ≤ 1 := by
  unfold getProgress
  exact ⟨le_min (le_max_right _ _) (by norm_num), min_le_right _ _⟩

theorem progress_full {a n : Nat} (hn : 0 < n) (h : n ≤ a) : getProgress fl a n = 1 := by
  have h1 : max 1 n = n := by omega
  have h2 := fl_total hf n
  unfold getProgress
  rw [h1] at *
  have h3 : 1 ≤ fl a / fl n := by
    rw [le_div_iff₀ (by linarith)]
    rw [one_mul]
    exact hf.mono _ _ (by exact_mod_cast h)
  have h4 := hf.mono _ _ h3
  have h5 := hf.nat 1 (by norm_num)
  simp only [Nat.cast_one] at h5
  rw [h5] at h4
  rw [min_eq_right (le_trans h4 (le_max_left _ _))]

theorem percent_mono {p q : Rat} (h : p ≤ q) : percent fl p ≤ percent fl q := by
  unfold percent
  exact Int.floor_le_floor (hf.mono _ _ (by linarith))

theorem percent_one : percent fl 1 = 100 := by
  unfold percent
  have := hf.nat 100 (by norm_num)
  rw [one_mul, show (100 : Rat) = ((100 : Nat) : Rat) by norm_num, this]
  norm_num

theorem percent_zero : percent fl 0 = 0 := by
  unfold percent
  have := hf.nat 0 (by norm_num)
  simp only [Nat.cast_zero] at this
  rw [zero_mul, this]
  norm_num

/-- 100 percent means all. -/
theorem percent_full {a n : Nat} (hn : n < 2 ^ 53) (h : percent fl (getProgress fl a n) = 100) : n ≤ a := by
  by_contra hlt
  push_neg at hlt
  have h1 : max 1 n = n := by omega
  have hn0 : (0 : Rat) < n := by
    have : 0 < n := by omega
    exact_mod_cast this
  have hx : (a : Rat) / n ≤ 1 - 1 / 2 ^ 53 := by
    rw [div_le_iff₀ hn0]
    have h2 : (a : Rat) + 1 ≤ n := by exact_mod_cast hlt
    have h3 : (n : Rat) ≤ 2 ^ 53 := by
      have : n ≤ 2 ^ 53 := by omega
      exact_mod_cast this
    have h4 : (1 : Rat) / 2 ^ 53 * n ≤ 1 := by
      rw [div_mul_eq_mul_div, one_mul]
      exact (div_le_one (by norm_num)).mpr h3
    linarith
  have hp : getProgress fl a n ≤ fl (1 - 1 / 2 ^ 53) := by
    unfold getProgress
    rw [h1, hf.nat a (by omega), hf.nat n (by omega)]
    refine le_trans (min_le_left _ _) (max_le (hf.mono _ _ hx) ?_)
    exact fl_nonneg hf (by norm_num)
  have : fl (getProgress fl a n * 100) < 100 := by
    refine lt_of_le_of_lt (hf.mono _ _ ?_) hf.hundred
    linarith
  unfold percent at h
  have h5 := Int.floor_le (fl (getProgress fl a n * 100))
  rw [h] at h5
  norm_num at h5
  linarith

end

/-! ### Steps -/

theorem output_state (c : Cfg) (now : Nat) (fin : Bool) (s : State) : (updateOutput c now fin s).1 = { s with printAt := (updateOutput c now fin s).1.printAt } := by
  unfold updateOutput
  dsimp only
  repeat' split
  all_goals rfl

theorem output_total (c : Cfg) (now : Nat) (fin : Bool) (s : State) : ∀ l ∈ (updateOutput c now fin s).2, ∀ p, l.totalOf = some p → p = totalProgress c.fl s := by
  intro l hl p hp
  unfold updateOutput at hl
  dsimp only at hl
  repeat' split at hl
  all_goals first
    | cases hl; done
    | (rw [List.mem_singleton] at hl; subst hl; cases hp; rfl)
    | (rw [List.mem_singleton] at hl; subst hl; cases hp; done)

/-- Only these are of interest here. -/
structure Counts where
  copied : Nat
  diffed : Nat
  sig : Nat
  toCopy : Nat
  toDiff : Nat
  toSig : Nat

def counts (s : State) : Counts := ⟨s.totalCopied, s.totalDiffed, s.totalSigRead, s.toCopy, s.toDiff, s.totalSig⟩

def Counts.progress (fl : Rat → Rat) (k : Counts) : Rat := getProgress fl (k.copied + k.diffed + k.sig / 40) (k.toCopy + k.toDiff + k.toSig / 40)

def Counts.add (k : Counts) (b : Nat × Nat × Nat) : Counts := { k with copied := k.copied + b.1, diffed := k.diffed + b.2.1, sig := k.sig + b.2.2 }

theorem progress_counts (fl : Rat → Rat) (s : State) : totalProgress fl s = (counts s).progress fl := rfl

theorem output_counts (c : Cfg) (now : Nat) (fin : Bool) (s : State) : counts (updateOutput c now fin s).1 = counts s := by
  rw [output_state]; rfl

theorem step_counts (c : Cfg) (now : Nat) (e : Event) (he : e.isStats = false) (s : State) : counts (step c now e s).1 = (counts s).add e.bytes := by
  cases e <;> simp only [step]
  case stats => cases he
  case finish =>
    show counts (updateOutput c now true s).1 = _
    rw [output_counts]; rfl
  all_goals first
    | rfl
    | (rw [output_counts]; rfl)

theorem step_total (c : Cfg) (now : Nat) (e : Event) (s : State) :
    ∀ l ∈ (step c now e s).2, ∀ p, l.totalOf = some p → p = totalProgress c.fl (step c now e s).1 := by
  intro l hl p hp
  cases e <;> simp only [step] at hl ⊢
  case stats =>
    split at hl
    · cases hl
    · rw [List.mem_singleton] at hl; subst hl; cases hp
  case finish =>
    have := output_total c now true s l hl p hp
    show p = totalProgress c.fl (updateOutput c now true s).1
    rw [this, progress_counts, progress_counts, output_counts]
  all_goals first
    | cases hl; done
    | (rw [progress_counts, output_counts, ← progress_counts]; exact output_total _ _ _ _ l hl p hp)

theorem add_mono {fl : Rat → Rat} (hf : Rounding fl) (k : Counts) (b : Nat × Nat × Nat) : k.progress fl ≤ (k.add b).progress fl := by
  refine progress_mono hf ?_
  have : k.sig / 40 ≤ (k.sig + b.2.2) / 40 := Nat.div_le_div_right (by omega)
  show k.copied + k.diffed + k.sig / 40 ≤ k.copied + b.1 + (k.diffed + b.2.1) + (k.sig + b.2.2) / 40
  omega

theorem run_append (c : Cfg) (es es' : List (Nat × Event)) (s : State) :
    run c (es ++ es') s = ((run c es' (run c es s).1).1, (run c es s).2 ++ (run c es' (run c es s).1).2) := by
  induction es generalizing s with
  | nil => rfl
  | cons e es ih => rw [List.cons_append, run, ih, run]; simp

theorem run_counts (c : Cfg) (es : List (Nat × Event)) (he : ∀ e ∈ es, e.2.isStats = false) (s : State) :
    counts (run c es s).1 = (counts s).add (sumCopied es, sumDiffed es, sumSig es) := by
  induction es generalizing s with
  | nil => rfl
  | cons e es ih =>
    obtain ⟨now, e⟩ := e
    rw [run, ih (fun e h => he e (List.mem_cons_of_mem _ h)), step_counts c now e (he (now, e) List.mem_cons_self)]
    simp only [Counts.add, sumCopied, sumDiffed, sumSig, List.map_cons, List.sum_cons, Nat.add_assoc]

/-- All totals shown are between the first and the last. -/
theorem run_total {c : Cfg} (hf : Rounding c.fl) (es : List (Nat × Event)) (he : ∀ e ∈ es, e.2.isStats = false) (s : State) :
    totalProgress c.fl s ≤ totalProgress c.fl (run c es s).1 ∧
    (∀ p ∈ (run c es s).2.filterMap (fun l => l.2.totalOf), totalProgress c.fl s ≤ p ∧ p ≤ totalProgress c.fl (run c es s).1) ∧
    ((run c es s).2.filterMap (fun l => l.2.totalOf)).Pairwise (· ≤ ·) := by
  induction es generalizing s with
  | nil => exact ⟨le_refl _, by simp [run], by simp [run]⟩
  | cons e es ih =>
    obtain ⟨now, e⟩ := e
    obtain ⟨h1, h2, h3⟩ := ih (fun e h => he e (List.mem_cons_of_mem _ h)) (step c now e s).1
    have hs : totalProgress c.fl s ≤ totalProgress c.fl (step c now e s).1 := by
      rw [progress_counts, progress_counts, step_counts c now e (he (now, e) List.mem_cons_self)]
      exact add_mono hf _ _
    have hl : ∀ p ∈ ((step c now e s).2.map (fun l => (now, l))).filterMap (fun l => l.2.totalOf), p = totalProgress c.fl (step c now e s).1 := by
      intro p hp
      obtain ⟨l, hl, hp⟩ := List.mem_filterMap.mp hp
      obtain ⟨l', hl', rfl⟩ := List.mem_map.mp hl
      exact step_total c now e s l' hl' p hp
    rw [run]
    dsimp only
    rw [List.filterMap_append]
    refine ⟨le_trans hs h1, fun p hp => ?_, List.pairwise_append.mpr ⟨?_, h3, fun p hp q hq => ?_⟩⟩
    · rcases List.mem_append.mp hp with hp | hp
      · rw [hl p hp]; exact ⟨hs, h1⟩
      · exact ⟨le_trans hs (h2 p hp).1, (h2 p hp).2⟩
    · refine List.Pairwise.imp_of_mem (fun {a b} ha hb _ => ?_) (List.pairwise_of_forall (R := fun _ _ => True) (fun _ _ => trivial))
      rw [hl a ha, hl b hb]
    · rw [hl p hp]; exact (h2 q hq).1

/-! ### Transfers -/

/-- What is done for a file, cdc_rsync_client.cc:657-682, 746-760 and cdc_interface.cc:553-557: the calls with their times. -/
inductive Transfer where
  | copy (path : List UInt8) (size : Nat) (start : Nat) (reports : List (Nat × Nat)) (finish : Nat)
  | sync (path : List UInt8) (client server : Nat) (start : Nat) (reports : List (Nat × Nat × Nat)) (finish : Nat)

def Transfer.reports : Transfer → List (Nat × Event)
  | .copy _ _ _ r _ => r.map fun x => (x.1, .copied x.2)
  | .sync _ _ _ _ r _ => r.map fun x => (x.1, .synced x.2.1 x.2.2)

def Transfer.first : Transfer → Nat × Event
  | .copy path size t _ _ => (t, .startCopy path size)
  | .sync path client server t _ _ => (t, .startSync path client server)

def Transfer.last : Transfer → Nat × Event
  | .copy _ _ _ _ t => (t, .finish)
  | .sync _ _ _ _ _ t => (t, .finish)

def Transfer.path : Transfer → List UInt8
  | .copy path _ _ _ _ => path
  | .sync path _ _ _ _ _ => path

def Transfer.events (x : Transfer) : List (Nat × Event) := x.first :: x.reports ++ [x.last]

/-- The state during a transfer. -/
def During (x : Transfer) (s : State) : Prop := s.path = x.path ∧
  match x with
  | .copy .. => s.phase = .copy
  | .sync .. => s.phase = .diff ∨ s.phase = .sig

/-- The progress of the file. -/
def Transfer.progress (fl : Rat → Rat) (x : Transfer) (s : State) : Rat :=
  match x with
  | .copy .. => getProgress fl s.copied s.size
  | .sync .. => getProgress fl (s.diffed + s.sigRead / 40) (s.size + s.serverSize / 40)

theorem during_progress {fl : Rat → Rat} {x : Transfer} {s : State} (h : During x s) : fileProgress fl s = x.progress fl s := by
  obtain ⟨-, h⟩ := h
  cases x with
  | copy => unfold fileProgress; rw [show s.phase = .copy from h]; rfl
  | sync =>
    unfold fileProgress
    rcases (show s.phase = .diff ∨ s.phase = .sig from h) with h | h <;> rw [h] <;> rfl

theorem output_during {c : Cfg} {x : Transfer} {s : State} (now : Nat) (fin : Bool) (h : During x s) :
    ∀ l ∈ (updateOutput c now fin s).2, ∀ p, l.fileOf = some p → p = if fin then 1 else x.progress c.fl s := by
  intro l hl p hp
  rw [← during_progress h]
  unfold updateOutput at hl
  dsimp only at hl
  repeat' split at hl
  all_goals first
    | cases hl; done
    | (rw [List.mem_singleton] at hl; subst hl; cases hp; rfl)
    | (rw [List.mem_singleton] at hl; subst hl; cases hp; done)
    | (rw [List.mem_singleton] at hl; subst hl; cases hp; simp_all)

theorem during_mono {fl : Rat → Rat} (hf : Rounding fl) {c : Cfg} {x : Transfer} {s : State} (h : During x s) {e : Nat × Event} (he : e ∈ x.reports) :
    During x (step c e.1 e.2 s).1 ∧ x.progress fl s ≤ x.progress fl (step c e.1 e.2 s).1 ∧
      ∀ l ∈ (step c e.1 e.2 s).2, ∀ p, l.fileOf = some p → p = x.progress c.fl (step c e.1 e.2 s).1 := by
  cases x with
  | copy path size t r t' =>
    obtain ⟨y, hy, rfl⟩ := List.mem_map.mp he
    have hd : During (.copy path size t r t') { s with copied := s.copied + y.2, totalCopied := s.totalCopied + y.2 } := h
    refine ⟨?_, ?_, fun l hl p hp => ?_⟩
    · simp only [step]
      rw [output_state]; exact h
    · simp only [step]
      rw [output_state]
      exact progress_mono hf (Nat.le_add_right _ _)
    · have := output_during y.1 false hd l hl p hp
      simp only [step]
      rw [output_state]; exact this
  | sync path cs ss t r t' =>
    obtain ⟨y, hy, rfl⟩ := List.mem_map.mp he
    have hd : During (.sync path cs ss t r t') { s with phase := (if y.2.1 > 0 then .diff else if y.2.2 > 0 then .sig else s.phase), diffed := s.diffed + y.2.1, totalDiffed := s.totalDiffed + y.2.1, sigRead := s.sigRead + y.2.2, totalSigRead := s.totalSigRead + y.2.2 } := by
      refine ⟨h.1, ?_⟩
      show (if y.2.1 > 0 then Phase.diff else if y.2.2 > 0 then .sig else s.phase) = .diff ∨ (if y.2.1 > 0 then Phase.diff else if y.2.2 > 0 then .sig else s.phase) = .sig
      split
      · exact .inl rfl
      · split
        · exact .inr rfl
        · exact h.2
    refine ⟨?_, ?_, fun l hl p hp => ?_⟩
    · simp only [step]
      rw [output_state]; exact hd
    · simp only [step]
      rw [output_state]
      refine progress_mono hf ?_
      have : s.sigRead / 40 ≤ (s.sigRead + y.2.2) / 40 := Nat.div_le_div_right (Nat.le_add_right _ _)
      show s.diffed + s.sigRead / 40 ≤ s.diffed + y.2.1 + (s.sigRead + y.2.2) / 40
      omega
    · have := output_during y.1 false hd l hl p hp
      simp only [step]
      rw [output_state]; exact this

theorem run_during {c : Cfg} (hf : Rounding c.fl) {x : Transfer} (es : List (Nat × Event)) (he : ∀ e ∈ es, e ∈ x.reports) (s : State) (h : During x s) :
    During x (run c es s).1 ∧ (∀ p ∈ (run c es s).2.filterMap (fun l => l.2.fileOf), x.progress c.fl s ≤ p ∧ p ≤ x.progress c.fl (run c es s).1) ∧
    x.progress c.fl s ≤ x.progress c.fl (run c es s).1 ∧
    ((run c es s).2.filterMap (fun l => l.2.fileOf)).Pairwise (· ≤ ·) := by
  induction es generalizing s with
  | nil => exact ⟨h, by simp [run], le_refl _, by simp [run]⟩
  | cons e es ih =>
    obtain ⟨k1, k2, k3⟩ := during_mono (c := c) hf h (he e List.mem_cons_self)
    obtain ⟨h1, h2, h3, h4⟩ := ih (fun e h => he e (List.mem_cons_of_mem _ h)) (step c e.1 e.2 s).1 k1
    have hl : ∀ p ∈ ((step c e.1 e.2 s).2.map (fun l => (e.1, l))).filterMap (fun l => l.2.fileOf), p = x.progress c.fl (step c e.1 e.2 s).1 := by
      intro p hp
      obtain ⟨l, hl, hp⟩ := List.mem_filterMap.mp hp
      obtain ⟨l', hl', rfl⟩ := List.mem_map.mp hl
      exact k3 l' hl' p hp
    obtain ⟨now, e⟩ := e
    rw [run]
    dsimp only at *
    rw [List.filterMap_append]
    refine ⟨h1, fun p hp => ?_, le_trans k2 h3, List.pairwise_append.mpr ⟨?_, h4, fun p hp q hq => ?_⟩⟩
    · rcases List.mem_append.mp hp with hp | hp
      · rw [hl p hp]; exact ⟨k2, h3⟩
      · exact ⟨le_trans k2 (h2 p hp).1, (h2 p hp).2⟩
    · refine List.Pairwise.imp_of_mem (fun {a b} ha hb _ => ?_) (List.pairwise_of_forall (R := fun _ _ => True) (fun _ _ => trivial))
      rw [hl a ha, hl b hb]
    · rw [hl p hp]; exact (h2 q hq).1

theorem first_during (c : Cfg) (x : Transfer) (s : State) : During x (step c x.first.1 x.first.2 s).1 ∧ (step c x.first.1 x.first.2 s).2 = [] := by
  cases x with
  | copy => exact ⟨⟨rfl, rfl⟩, rfl⟩
  | sync => exact ⟨⟨rfl, .inl rfl⟩, rfl⟩

theorem last_finish (x : Transfer) : x.last.2 = .finish := by cases x <;> rfl

theorem output_finish {c : Cfg} (hq : c.quiet = false) {x : Transfer} {s : State} (now : Nat) (h : During x s) :
    if c.onlyTotal = true then (totalProgress c.fl s = 1 → (updateOutput c now true s).2 = [.total 1 true])
    else (updateOutput c now true s).2 = [.file s.phase x.path s.size 1 (totalProgress c.fl s) true] := by
  have hph : s.phase = .copy ∨ s.phase = .diff ∨ s.phase = .sig := by
    obtain ⟨-, h⟩ := h
    cases x with
    | copy => exact .inl h
    | sync => exact .inr h
  have hpath := h.1
  unfold updateOutput
  cases ho : c.onlyTotal with
  | true => rcases hph with h | h | h <;> simp [hq, h] <;> intro h1 <;> simp [h1]
  | false => rcases hph with h | h | h <;> simp [hq, h, hpath]

/-! ### Theorems -/

/-- C125: the total progress that is shown never goes back and is between 0 and 100 percent, for any calls at any times after the numbers of files are known. -/
theorem C125_total_never_goes_back (c : Cfg) (hf : Rounding c.fl) (s : State) (es : List (Nat × Event)) (he : ∀ e ∈ es, e.2.isStats = false) :
    ((run c es s).2.filterMap (fun l => l.2.totalOf)).Pairwise (fun p q => p ≤ q ∧ percent c.fl p ≤ percent c.fl q) ∧
    ∀ l ∈ (run c es s).2, ∀ p, l.2.totalOf = some p → 0 ≤ p ∧ p ≤ 1 ∧ 0 ≤ percent c.fl p ∧ percent c.fl p ≤ 100 := by
  obtain ⟨-, h2, h3⟩ := run_total hf es he s
  refine ⟨h3.imp fun h => ⟨h, percent_mono hf h⟩, fun l hl p hp => ?_⟩
  obtain ⟨k1, k2⟩ := h2 p (List.mem_filterMap.mpr ⟨l, hl, hp⟩)
  have h0 : 0 ≤ p := le_trans (progress_bounds _ _).1 k1
  have h1 : p ≤ 1 := le_trans k2 (progress_bounds _ _).2
  exact ⟨h0, h1, by rw [← percent_zero hf]; exact percent_mono hf h0, by rw [← percent_one hf]; exact percent_mono hf h1⟩

/-- C125: the progress that is shown for a file never goes back. -/
theorem C125_file_never_goes_back (c : Cfg) (hf : Rounding c.fl) (s : State) (x : Transfer) :
    ((run c x.events s).2.filterMap (fun l => l.2.fileOf)).Pairwise (fun p q => p ≤ q ∧ percent c.fl p ≤ percent c.fl q) ∧
    ∀ l ∈ (run c x.events s).2, ∀ p, l.2.fileOf = some p → 0 ≤ p ∧ p ≤ 1 := by
  obtain ⟨f1, f2⟩ := first_during c x s
  obtain ⟨h1, h2, h3, h4⟩ := run_during hf x.reports (fun _ h => h) _ f1
  have hx : ∀ s, 0 ≤ x.progress c.fl s ∧ x.progress c.fl s ≤ 1 := by
    intro s
    cases x <;> exact progress_bounds _ _
  have hlast : ∀ p ∈ (run c [x.last] (run c x.reports (step c x.first.1 x.first.2 s).1).1).2.filterMap (fun l => l.2.fileOf), p = 1 := by
    intro p hp
    obtain ⟨l, hl, hp⟩ := List.mem_filterMap.mp hp
    have hl : l ∈ (step c x.last.1 x.last.2 _).2.map (fun l => (x.last.1, l)) ++ [] := hl
    rw [List.append_nil] at hl
    obtain ⟨l', hl', rfl⟩ := List.mem_map.mp hl
    rw [last_finish] at hl'
    exact output_during x.last.1 true h1 l' hl' p hp
  have hrun : (run c x.events s).2 = (run c x.reports (step c x.first.1 x.first.2 s).1).2 ++ (run c [x.last] (run c x.reports (step c x.first.1 x.first.2 s).1).1).2 := by
    show (run c ((x.first.1, x.first.2) :: (x.reports ++ [x.last])) s).2 = _
    rw [run, f2, run_append]; rfl
  have hb : ∀ p ∈ (run c x.events s).2.filterMap (fun l => l.2.fileOf), 0 ≤ p ∧ p ≤ 1 := by
    rw [hrun, List.filterMap_append]
    intro p hp
    rcases List.mem_append.mp hp with hp | hp
    · exact ⟨le_trans (hx _).1 (h2 p hp).1, le_trans (h2 p hp).2 (hx _).2⟩
    · rw [hlast p hp]; norm_num
  refine ⟨?_, fun l hl p hp => hb p (List.mem_filterMap.mpr ⟨l, hl, hp⟩)⟩
  rw [hrun, List.filterMap_append]
  refine List.pairwise_append.mpr ⟨h4.imp fun h => ⟨h, percent_mono hf h⟩, ?_, fun p hp q hq => ?_⟩
  · refine List.Pairwise.imp_of_mem (fun {a b} ha hb _ => ?_) (List.pairwise_of_forall (R := fun _ _ => True) (fun _ _ => trivial))
    rw [hlast a ha, hlast b hb]
    exact ⟨le_refl _, le_refl _⟩
  · have : p ≤ q := by rw [hlast q hq]; exact le_trans (h2 p hp).2 (hx _).2
    exact ⟨this, percent_mono hf this⟩

/-- C126: with `-v`, the last line for each file says 100 percent, and is not overwritten. -/
theorem C126_file_ends_at_100 (c : Cfg) (hq : c.quiet = false) (hv : c.onlyTotal = false) (s : State) (x : Transfer) :
    ∃ op size total, (run c x.events s).2.getLast? = some (x.last.1, .file op x.path size 1 total true) := by
  obtain ⟨f1, f2⟩ := first_during c x s
  have h1 : During x (run c x.reports (step c x.first.1 x.first.2 s).1).1 := by
    have : ∀ (es : List (Nat × Event)) (s : State), (∀ e ∈ es, e ∈ x.reports) → During x s → During x (run c es s).1 := by
      intro es
      induction es with
      | nil => exact fun _ _ h => h
      | cons e es ih =>
        intro s he h
        refine ih _ (fun e h => he e (List.mem_cons_of_mem _ h)) ?_
        exact (during_mono (fl := fun x => x) (c := c) ⟨fun _ _ h => h, fun _ _ => rfl, by norm_num, by norm_num⟩ h (he e List.mem_cons_self)).1
    exact this _ _ (fun _ h => h) f1
  have hpq : ∀ s', s' = (run c x.reports (step c x.first.1 x.first.2 s).1).1 → (updateOutput c x.last.1 true s').2 = [Line.file s'.phase x.path s'.size 1 (totalProgress c.fl s') true] := by
    rintro s' rfl
    have := output_finish hq x.last.1 h1
    rw [hv] at this
    simp only [Bool.false_eq_true, if_false] at this
    exact this
  have this := hpq _ rfl
  generalize hs2 : (run c x.reports (step c x.first.1 x.first.2 s).1).1 = s2 at this
  refine ⟨s2.phase, s2.size, totalProgress c.fl s2, ?_⟩
  show (run c ((x.first.1, x.first.2) :: (x.reports ++ [x.last])) s).2.getLast? = _
  rw [run, run_append, hs2]
  show (_ ++ (_ ++ ((step c x.last.1 x.last.2 s2).2.map (fun l => (x.last.1, l)) ++ []))).getLast? = _
  rw [last_finish]
  show (_ ++ (_ ++ ((updateOutput c x.last.1 true s2).2.map (fun l => (x.last.1, l)) ++ []))).getLast? = _
  rw [this]
  simp only [List.map_cons, List.map_nil, List.append_nil, ← List.append_assoc, List.getLast?_append, List.getLast?_singleton, Option.some_or]

/-- C126: when all bytes that were announced have been processed, at the end of the last file, 100 percent are shown, and the line is not overwritten. Partial: not if nothing is announced,
see `C126_empty_files_violated`; and in a dry run the bytes of new files are not reported, see `C126_dry_run_violated`. -/
theorem C126_ends_at_100_partial (c : Cfg) (hf : Rounding c.fl) (hq : c.quiet = false) (pre post : List (Nat × Event)) (x : Transfer) (now a b d e toCopy toDiff toSig g : Nat)
    (hpre : ∀ e ∈ pre, e.2.isStats = false) (hpost : ∀ e ∈ post, e.2.isStats = false)
    (h1 : sumCopied (pre ++ post ++ x.events) = toCopy) (h2 : sumDiffed (pre ++ post ++ x.events) = toDiff) (h3 : sumSig (pre ++ post ++ x.events) = toSig)
    (h0 : 0 < toCopy + toDiff + toSig / 40) :
    ∃ l, (run c (pre ++ (now, .stats a b d e toCopy toDiff toSig g) :: post ++ x.events) {}).2.getLast? = some (x.last.1, l) ∧ l.newline = true ∧ l.totalOf = some 1 ∧ percent c.fl 1 = 100 := by
  rw [show pre ++ (now, Event.stats a b d e toCopy toDiff toSig g) :: post ++ x.events = (pre ++ (now, .stats a b d e toCopy toDiff toSig g) :: post) ++ x.events from rfl, run_append]
  generalize hs : (run c (pre ++ (now, .stats a b d e toCopy toDiff toSig g) :: post) {}).1 = s
  have hcs : counts s = ⟨sumCopied (pre ++ post), sumDiffed (pre ++ post), sumSig (pre ++ post), toCopy, toDiff, toSig⟩ := by
    rw [← hs, run_append]
    dsimp only
    rw [run]
    dsimp only
    rw [run_counts c post hpost]
    have := run_counts c pre hpre {}
    generalize (run c pre {}).1 = s1 at this
    show (Counts.mk s1.totalCopied s1.totalDiffed s1.totalSigRead toCopy toDiff toSig).add _ = _
    simp only [counts, Counts.add, Counts.mk.injEq] at this
    obtain ⟨k1, k2, k3, -⟩ := this
    simp only [Counts.add, k1, k2, k3, sumCopied, sumDiffed, sumSig, List.map_append, List.sum_append, Nat.zero_add]
  obtain ⟨f1, f2⟩ := first_during c x s
  have hd := (run_during hf x.reports (fun _ h => h) _ f1).1
  have hns : ∀ e ∈ x.reports, e.2.isStats = false := by
    intro e he
    cases x <;> obtain ⟨y, -, rfl⟩ := List.mem_map.mp he <;> rfl
  have hfs : x.first.2.isStats = false ∧ x.first.2.bytes = (0, 0, 0) := by cases x <;> exact ⟨rfl, rfl⟩
  generalize hs2 : (run c x.reports (step c x.first.1 x.first.2 s).1).1 = s2 at hd
  have hc2 : counts s2 = ⟨toCopy, toDiff, toSig, toCopy, toDiff, toSig⟩ := by
    rw [← hs2, run_counts c _ hns, step_counts c _ _ hfs.1, hfs.2, hcs]
    have e1 : ∀ f : Nat × Event → Nat, f x.first = 0 → f x.last = 0 → ((x.events).map f).sum = (x.reports.map f).sum := by
      intro f k1 k2
      unfold Transfer.events
      simp [k1, k2]
    have g1 := e1 (fun e => e.2.bytes.1) (by rw [hfs.2]) (by rw [last_finish]; rfl)
    have g2 := e1 (fun e => e.2.bytes.2.1) (by rw [hfs.2]) (by rw [last_finish]; rfl)
    have g3 := e1 (fun e => e.2.bytes.2.2) (by rw [hfs.2]) (by rw [last_finish]; rfl)
    rw [← h1, ← h2, ← h3]
    simp only [Counts.add, sumCopied, sumDiffed, sumSig, List.map_append, List.sum_append, g1, g2, g3, Nat.add_zero]
  have hp : totalProgress c.fl s2 = 1 := by
    rw [progress_counts, hc2]
    exact progress_full hf h0 (Nat.le_refl _)
  have hrun : (run c x.events s).2 = (run c x.reports (step c x.first.1 x.first.2 s).1).2 ++ (updateOutput c x.last.1 true s2).2.map (fun l => (x.last.1, l)) := by
    show (run c ((x.first.1, x.first.2) :: (x.reports ++ [x.last])) s).2 = _
    rw [run, f2, run_append, hs2]
    show [].map _ ++ (_ ++ ((step c x.last.1 x.last.2 s2).2.map (fun l => (x.last.1, l)) ++ [])) = _
    rw [last_finish, List.append_nil]; rfl
  have hout := output_finish hq x.last.1 hd
  have : ∃ l, (updateOutput c x.last.1 true s2).2 = [l] ∧ l.newline = true ∧ l.totalOf = some 1 := by
    split at hout
    · exact ⟨_, hout hp, rfl, rfl⟩
    · exact ⟨_, hout, rfl, by rw [hp]; rfl⟩
  obtain ⟨l, k1, k2, k3⟩ := this
  refine ⟨l, ?_, k2, k3, percent_one hf⟩
  rw [hrun, k1]
  simp only [List.map_cons, List.map_nil, ← List.append_assoc, List.getLast?_append, List.getLast?_singleton, Option.some_or]

/-- C126 does not hold if all files that are copied are empty: without `-v`, the last line shows 0 percent, and there is no line feed after it. -/
theorem C126_empty_files_violated (fl : Rat → Rat) (hf : Rounding fl) (tty json : Bool) (path : List UInt8) (t0 t1 : Nat) (ht : 1000000000 ≤ t1) :
    ∃ p, (run ⟨false, tty, true, json, fl⟩ ([(t0, .stats 1 0 0 0 0 0 0 0)] ++ (Transfer.copy path 0 t0 [] t1).events) {}).2 = [(t0, .stats 1 0 0 0), (t1, .total p false)] ∧ percent fl p = 0 := by
  have h0 := hf.nat 0 (by norm_num)
  have h1 := hf.nat 1 (by norm_num)
  simp only [Nat.cast_zero, Nat.cast_one] at h0 h1
  have hp : getProgress fl 0 0 = 0 := by
    unfold getProgress
    simp [h0, h1]
  have hd : ¬ t1 < (⟨false, tty, true, json, fl⟩ : Cfg).delay := by
    unfold Cfg.delay
    split <;> omega
  refine ⟨0, ?_, percent_zero hf⟩
  simp [run, Transfer.events, Transfer.first, Transfer.last, Transfer.reports, step, updateOutput, totalProgress, hp, hd]

/-- C126 does not hold for new files in a dry run, cdc_rsync_client.cc:631-636: without `-v`, 0 percent are shown at the end. -/
theorem C126_dry_run_violated (fl : Rat → Rat) (hf : Rounding fl) (tty json : Bool) (path : List UInt8) (size t0 t1 : Nat) (ht : 1000000000 ≤ t1) :
    ∃ p, (run ⟨false, tty, true, json, fl⟩ ([(t0, .stats 1 0 0 0 size 0 0 0)] ++ (Transfer.copy path size t0 [] t1).events) {}).2 = [(t0, .stats 1 0 0 0), (t1, .total p false)] ∧ percent fl p = 0 := by
  have h0 := hf.nat 0 (by norm_num)
  simp only [Nat.cast_zero] at h0
  have hp : getProgress fl 0 size = 0 := by
    unfold getProgress
    simp [h0]
  have hd : ¬ t1 < (⟨false, tty, true, json, fl⟩ : Cfg).delay := by
    unfold Cfg.delay
    split <;> omega
  refine ⟨0, ?_, percent_zero hf⟩
  simp [run, Transfer.events, Transfer.first, Transfer.last, Transfer.reports, step, updateOutput, totalProgress, hp, hd]

/-- C127: 100 percent are not shown before all bytes are copied and compared, if no more bytes are processed than announced, and these are less than 2^53. `rest` is what is still to come. -/
theorem C127_100_percent_means_all (c : Cfg) (hf : Rounding c.fl) (pre post rest : List (Nat × Event)) (now a b d e toCopy toDiff toSig g : Nat)
    (hpre : ∀ e ∈ pre, e.2.isStats = false) (hpost : ∀ e ∈ post, e.2.isStats = false) (hnone : ∀ e ∈ pre, e.2.bytes = (0, 0, 0))
    (h1 : sumCopied (post ++ rest) ≤ toCopy) (h2 : sumDiffed (post ++ rest) ≤ toDiff) (h3 : sumSig (post ++ rest) ≤ toSig)
    (hsmall : toCopy + toDiff + toSig / 40 < 2 ^ 53)
    (l : Nat × Line) (hl : l ∈ (run c (pre ++ (now, .stats a b d e toCopy toDiff toSig g) :: post) {}).2) (p : Rat) (hp : l.2.totalOf = some p) (h100 : percent c.fl p = 100) :
    sumCopied rest = 0 ∧ sumDiffed rest = 0 ∧ sumSig rest < 40 := by
  have hz : ∀ f : Nat × Nat × Nat → Nat, f (0, 0, 0) = 0 → (pre.map fun e => f e.2.bytes).sum = 0 := by
    intro f hf0
    refine List.sum_eq_zero ?_
    intro y hy
    obtain ⟨e, he, rfl⟩ := List.mem_map.mp hy
    rw [hnone e he]; exact hf0
  have hc1 : counts (run c pre {}).1 = ⟨0, 0, 0, 0, 0, 0⟩ := by
    rw [run_counts c pre hpre]
    have g1 := hz (fun b => b.1) rfl
    have g2 := hz (fun b => b.2.1) rfl
    have g3 := hz (fun b => b.2.2) rfl
    simp only [sumCopied, sumDiffed, sumSig, g1, g2, g3]; rfl
  rw [run_append] at hl
  rcases List.mem_append.mp hl with hl | hl
  · have k := ((run_total hf pre hpre {}).2.1 p (List.mem_filterMap.mpr ⟨l, hl, hp⟩)).2
    rw [progress_counts, hc1] at k
    have h0 := hf.nat 0 (by norm_num)
    simp only [Nat.cast_zero] at h0
    have hzero : Counts.progress c.fl ⟨0, 0, 0, 0, 0, 0⟩ = 0 := by
      simp [Counts.progress, getProgress, h0]
    rw [hzero] at k
    have := percent_mono hf k
    rw [h100, percent_zero hf] at this
    exact absurd this (by norm_num)
  · generalize (run c pre {}).1 = s1 at hc1 hl
    rw [run] at hl
    dsimp only at hl
    rcases List.mem_append.mp hl with hl | hl
    · obtain ⟨l', hl', rfl⟩ := List.mem_map.mp hl
      simp only [step] at hl'
      split at hl'
      · cases hl'
      · rw [List.mem_singleton] at hl'; subst hl'; cases hp
    · have k := ((run_total hf post hpost _).2.1 p (List.mem_filterMap.mpr ⟨l, hl, hp⟩)).2
      have hc3 : counts (run c post (step c now (.stats a b d e toCopy toDiff toSig g) s1).1).1 = ⟨sumCopied post, sumDiffed post, sumSig post, toCopy, toDiff, toSig⟩ := by
        rw [run_counts c post hpost]
        have hc1 : s1.totalCopied = 0 ∧ s1.totalDiffed = 0 ∧ s1.totalSigRead = 0 := by
          unfold counts at hc1
          simp only [Counts.mk.injEq] at hc1
          exact ⟨hc1.1, hc1.2.1, hc1.2.2.1⟩
        show (Counts.mk s1.totalCopied s1.totalDiffed s1.totalSigRead toCopy toDiff toSig).add _ = _
        simp only [Counts.add, hc1, Nat.zero_add]
      rw [progress_counts, hc3] at k
      have hfull : percent c.fl (Counts.progress c.fl ⟨sumCopied post, sumDiffed post, sumSig post, toCopy, toDiff, toSig⟩) = 100 := by
        refine le_antisymm ?_ ?_
        · rw [← percent_one hf]; exact percent_mono hf (progress_bounds _ _).2
        · rw [← h100]; exact percent_mono hf k
      have := percent_full hf hsmall hfull
      simp only at this
      have e1 : sumCopied (post ++ rest) = sumCopied post + sumCopied rest := by simp [sumCopied]
      have e2 : sumDiffed (post ++ rest) = sumDiffed post + sumDiffed rest := by simp [sumDiffed]
      have e3 : sumSig (post ++ rest) = sumSig post + sumSig rest := by simp [sumSig]
      rw [e1] at h1; rw [e2] at h2; rw [e3] at h3
      have : sumSig post / 40 ≤ toSig / 40 := Nat.div_le_div_right (by omega)
      omega

/-! ### How often -/

theorem output_printAt (c : Cfg) (now : Nat) (fin : Bool) (s : State) (ht : s.printAt ≤ now) :
    s.printAt ≤ (updateOutput c now fin s).1.printAt ∧ (updateOutput c now fin s).1.printAt ≤ now ∧
    ∀ l ∈ (updateOutput c now fin s).2, l.repeated = true → (updateOutput c now fin s).1.printAt = now ∧ (l.newline = true ∨ c.delay ≤ now - s.printAt) := by
  have hcond : ∀ b : Bool, ¬ ((!b && decide (now - s.printAt < c.delay)) = true) → b = true ∨ c.delay ≤ now - s.printAt := by
    intro b h
    cases b with
    | true => exact .inl rfl
    | false => exact .inr (by simpa using h)
  unfold updateOutput
  dsimp only
  split
  · exact ⟨Nat.le_refl _, ht, fun l hl => absurd hl List.not_mem_nil⟩
  split
  · split
    · exact ⟨Nat.le_refl _, ht, fun l hl => absurd hl List.not_mem_nil⟩
    split
    · split
      · exact ⟨Nat.le_refl _, ht, fun l hl => absurd hl List.not_mem_nil⟩
      · rename_i h
        refine ⟨ht, Nat.le_refl _, fun l hl _ => ⟨rfl, ?_⟩⟩
        rw [List.mem_singleton] at hl
        subst hl
        exact hcond _ h
    · refine ⟨Nat.le_refl _, ht, fun l hl h => ?_⟩
      rw [List.mem_singleton] at hl
      subst hl
      cases h
  split
  · split
    · exact ⟨Nat.le_refl _, ht, fun l hl => absurd hl List.not_mem_nil⟩
    · rename_i h
      refine ⟨ht, Nat.le_refl _, fun l hl _ => ⟨rfl, ?_⟩⟩
      rw [List.mem_singleton] at hl
      subst hl
      exact hcond _ h
  · split
    · exact ⟨Nat.le_refl _, ht, fun l hl => absurd hl List.not_mem_nil⟩
    · rename_i h
      refine ⟨ht, Nat.le_refl _, fun l hl _ => ⟨rfl, ?_⟩⟩
      have hn : l.newline = fin := by
        dsimp only at hl
        split at hl
        all_goals first
          | (rw [List.mem_singleton] at hl; subst hl; rfl)
          | exact absurd hl List.not_mem_nil
      rw [hn]
      exact hcond _ h

theorem output_printAt' (c : Cfg) (now : Nat) (fin : Bool) (n : Nat) (s : State) (hs : s.printAt = n) (ht : n ≤ now) :
    n ≤ (updateOutput c now fin s).1.printAt ∧ (updateOutput c now fin s).1.printAt ≤ now ∧
    ∀ l ∈ (updateOutput c now fin s).2, l.repeated = true → (updateOutput c now fin s).1.printAt = now ∧ (l.newline = true ∨ c.delay ≤ now - n) := by
  subst hs
  exact output_printAt c now fin s ht

theorem step_printAt (c : Cfg) (now : Nat) (e : Event) (s : State) (ht : s.printAt ≤ now) :
    s.printAt ≤ (step c now e s).1.printAt ∧ (step c now e s).1.printAt ≤ now ∧
    ∀ l ∈ (step c now e s).2, l.repeated = true → (step c now e s).1.printAt = now ∧ (l.newline = true ∨ c.delay ≤ now - s.printAt) := by
  cases e <;> simp only [step]
  case stats =>
    refine ⟨Nat.le_refl _, ht, fun l hl h => ?_⟩
    split at hl
    · cases hl
    · rw [List.mem_singleton] at hl; subst hl; cases h
  case finish => exact output_printAt c now true s ht
  all_goals first
    | exact ⟨Nat.le_refl _, ht, fun l hl => absurd hl List.not_mem_nil⟩
    | exact output_printAt' c now false s.printAt _ rfl ht

/-- The least time between two lines in nanoseconds: 0.1 s for a terminal, else 1 s. -/
def minGap (c : Cfg) : Nat := if c.tty then 100 * 1000 * 1000 else 1000 * 1000 * 1000

theorem delay_minGap (c : Cfg) : c.delay = minGap c := by
  unfold Cfg.delay minGap
  split <;> rfl

/-- C128: there are not too many lines: a line that shows progress is printed at least 0.1 s (1 s if the output is not a terminal) after any line before it that does, unless it is the last one for a file. -/
theorem C128_not_too_often (c : Cfg) (es : List (Nat × Event)) (s : State) (hs : ∀ e ∈ es, s.printAt ≤ e.1) (ht : es.Pairwise fun e e' => e.1 ≤ e'.1) :
    ((run c es s).2.filter fun l => l.2.repeated).Pairwise fun l l' => l'.2.newline = true ∨ l.1 + minGap c ≤ l'.1 := by
  rw [← delay_minGap]
  have key : ∀ (es : List (Nat × Event)) (s : State), (∀ e ∈ es, s.printAt ≤ e.1) → (es.Pairwise fun e e' => e.1 ≤ e'.1) →
      ((run c es s).2.filter fun l => l.2.repeated).Pairwise (fun l l' => l'.2.newline = true ∨ l.1 + c.delay ≤ l'.1) ∧
      ∀ l ∈ (run c es s).2, l.2.repeated = true → l.2.newline = true ∨ s.printAt + c.delay ≤ l.1 := by
    intro es
    induction es with
    | nil => exact fun s _ _ => ⟨.nil, fun l hl => nomatch hl⟩
    | cons e es ih =>
      intro s hs ht
      obtain ⟨now, e⟩ := e
      rw [List.pairwise_cons] at ht
      obtain ⟨k1, k2, k3⟩ := step_printAt c now e s (hs _ List.mem_cons_self)
      obtain ⟨h1, h2⟩ := ih (step c now e s).1 (fun e' he => Nat.le_trans k2 (ht.1 e' he)) ht.2
      have hn : s.printAt ≤ now := hs _ List.mem_cons_self
      rw [run]
      dsimp only
      rw [List.filter_append]
      refine ⟨List.pairwise_append.mpr ⟨?_, h1, ?_⟩, ?_⟩
      · have : (step c now e s).2.length ≤ 1 := by
          have hu : ∀ fin s, (updateOutput c now fin s).2.length ≤ 1 := by
            intro fin s
            unfold updateOutput
            dsimp only
            repeat' split
            all_goals simp
          cases e <;> simp only [step]
          case stats => split <;> simp
          all_goals first
            | exact hu _ _
            | simp
        match h : (step c now e s).2, this with
        | [], _ => exact .nil
        | [l], _ => cases hr : l.repeated <;> simp [hr]
      · intro l hl l' hl'
        obtain ⟨hl, hr⟩ := List.mem_filter.mp hl
        obtain ⟨l0, hl0, rfl⟩ := List.mem_map.mp hl
        obtain ⟨hl', hr'⟩ := List.mem_filter.mp hl'
        have := (k3 l0 hl0 hr).1
        rcases h2 l' hl' hr' with h | h
        · exact .inl h
        · rw [this] at h; exact .inr h
      · intro l hl hr
        rcases List.mem_append.mp hl with hl | hl
        · obtain ⟨l0, hl0, rfl⟩ := List.mem_map.mp hl
          rcases (k3 l0 hl0 hr).2 with h | h
          · exact .inl h
          · refine .inr ?_
            show s.printAt + c.delay ≤ now
            omega
        · rcases h2 l hl hr with h | h
          · exact .inl h
          · exact .inr (by omega)
  exact (key es s hs ht).1

/-- C128: there are enough lines: if a byte count is reported during a transfer and no line was printed in the last 0.1 s (1 s), then one is. -/
theorem C128_often_enough (c : Cfg) (hq : c.quiet = false) (x : Transfer) (s : State) (hd : During x s) (e : Nat × Event) (he : e ∈ x.reports) (ht : s.printAt + minGap c ≤ e.1) :
    ∃ l, (step c e.1 e.2 s).2 = [l] ∧ l.totalOf = some (totalProgress c.fl (step c e.1 e.2 s).1) := by
  rw [← delay_minGap] at ht
  have hone : ∀ s', During x s' → s'.printAt + c.delay ≤ e.1 → ∃ l, (updateOutput c e.1 false s').2 = [l] ∧ l.totalOf = some (totalProgress c.fl s') := by
    intro s' hd hlt
    have hph : s'.phase = .copy ∨ s'.phase = .diff ∨ s'.phase = .sig := by
      obtain ⟨-, h⟩ := hd
      cases x with
      | copy => exact .inl h
      | sync => exact .inr h
    have hn : ¬ e.1 - s'.printAt < c.delay := by omega
    unfold updateOutput
    cases c.onlyTotal with
    | true => rcases hph with h | h | h <;> simp [hq, h, hn] <;> rfl
    | false => rcases hph with h | h | h <;> simp [hq, h, hn] <;> rfl
  have hstep : ∃ s', step c e.1 e.2 s = updateOutput c e.1 false s' ∧ During x s' ∧ s'.printAt = s.printAt := by
    cases x with
    | copy path size t r t' =>
      obtain ⟨y, hy, rfl⟩ := List.mem_map.mp he
      exact ⟨_, rfl, hd, rfl⟩
    | sync path cs ss t r t' =>
      obtain ⟨y, hy, rfl⟩ := List.mem_map.mp he
      refine ⟨_, rfl, ⟨hd.1, ?_⟩, rfl⟩
      show (if y.2.1 > 0 then Phase.diff else if y.2.2 > 0 then .sig else s.phase) = .diff ∨ (if y.2.1 > 0 then Phase.diff else if y.2.2 > 0 then .sig else s.phase) = .sig
      split
      · exact .inl rfl
      · split
        · exact .inr rfl
        · exact hd.2
  obtain ⟨s', h1, h2, h3⟩ := hstep
  rw [h1, progress_counts, output_counts, ← progress_counts]
  exact hone s' h2 (by rw [h3]; exact ht)

/-- C128: with `-q` nothing is printed. -/
theorem C128_quiet (c : Cfg) (hq : c.quiet = true) (es : List (Nat × Event)) (s : State) : (run c es s).2 = [] := by
  have hu : ∀ now fin s, (updateOutput c now fin s).2 = [] := by
    intro now fin s
    unfold updateOutput
    rw [if_pos hq]
  induction es generalizing s with
  | nil => rfl
  | cons e es ih =>
    obtain ⟨now, e⟩ := e
    rw [run]
    dsimp only
    rw [ih]
    have : (step c now e s).2 = [] := by
      cases e <;> simp only [step]
      case stats => rw [if_pos hq]
      all_goals first
        | rfl
        | exact hu _ _ _
    rw [this]; rfl

/-! ### How it looks -/

theorem format_spec (n size : Nat) : (formatIntBytes n size).2 ≤ n ∧
    (formatIntBytes n size).1 * 1024 ^ (formatIntBytes n size).2 ≤ size ∧ size < ((formatIntBytes n size).1 + 1) * 1024 ^ (formatIntBytes n size).2 ∧
    (size < 9999 * 1024 ^ n → (formatIntBytes n size).1 ≤ 9999) ∧ ((formatIntBytes n size).2 ≠ 0 → 9999 < size / 1024 ^ ((formatIntBytes n size).2 - 1)) := by
  induction n generalizing size with
  | zero => simp [formatIntBytes]; omega
  | succ n ih =>
    rw [formatIntBytes]
    split
    · rename_i hgt
      obtain ⟨h1, h2, h3, h4, h5⟩ := ih (size / 1024)
      generalize formatIntBytes n (size / 1024) = r at *
      dsimp only
      refine ⟨by omega, ?_, ?_, ?_, ?_⟩
      · have := Nat.mul_le_of_le_div 1024 _ _ h2
        rw [Nat.pow_succ, ← Nat.mul_assoc]; exact this
      · have := (Nat.div_lt_iff_lt_mul (by decide)).mp h3
        rw [Nat.pow_succ, ← Nat.mul_assoc]; exact this
      · intro hlt
        refine h4 ?_
        rw [Nat.div_lt_iff_lt_mul (by decide), Nat.mul_assoc, ← Nat.pow_succ]; exact hlt
      · intro _
        rw [Nat.add_sub_cancel]
        by_cases hr : r.2 = 0
        · rw [hr]; omega
        · have h6 := h5 hr
          rw [Nat.div_div_eq_div_mul, Nat.mul_comm, ← Nat.pow_succ, show (r.2 - 1).succ = r.2 by omega] at h6
          exact h6
    · exact ⟨by omega, by simp, by simp, fun _ => by omega, fun h => absurd rfl h⟩

/-- C129: sizes of all files are shown with at most four digits, rounded down, and in the smallest unit possible. -/
theorem C129_sizes (size : Nat) (h : size < 2 ^ 64) (v u : Nat) (hr : formatIntBytes 7 size = (v, u)) :
    v ≤ 9999 ∧ u ≤ 7 ∧ v = size / 1024 ^ u ∧ ∀ u', u' < u → 9999 < size / 1024 ^ u' := by
  obtain ⟨h1, h2, h3, h4, h5⟩ := format_spec 7 size
  rw [hr] at h1 h2 h3 h4 h5
  dsimp only at *
  refine ⟨h4 (by omega), h1, ?_, fun u' hu' => ?_⟩
  · exact (Nat.div_eq_of_lt_le h2 h3).symm
  · refine Nat.lt_of_lt_of_le (h5 (by omega)) (Nat.div_le_div_left (Nat.pow_le_pow_right (by decide) ?_) (Nat.pow_pos (by decide)))
    omega

/-- C129: if the console is wide enough, the line for a file has exactly its width, and the end of the path is shown, all of it if there is room. -/
theorem C129_width (path txt : List UInt8) (width : Nat) (h : txt.length + 12 ≤ width) :
    (fileLine path txt width).length = width ∧ txt <:+ fileLine path txt width ∧
    (path.length + txt.length ≤ width → path <+: fileLine path txt width) ∧
    (width < path.length + txt.length → ([46, 46, 46] ++ path.drop (path.length + txt.length + 3 - width)) <+: fileLine path txt width) := by
  have hw : max 12 (width - txt.length) = width - txt.length := by omega
  unfold fileLine shortenFilePath paddRight
  rw [hw]
  split
  · rename_i hp
    refine ⟨?_, List.suffix_append .., fun h1 => by omega, fun _ => ?_⟩
    · simp only [List.length_append, List.length_drop, List.length_replicate, List.length_cons, List.length_nil]
      omega
    · rw [show path.length + txt.length + 3 - width = path.length - (width - txt.length) + 3 by omega, List.append_assoc _ (List.replicate _ _) txt]
      exact List.prefix_append ..
  · refine ⟨?_, List.suffix_append .., fun h1 => by rw [List.append_assoc]; exact List.prefix_append .., fun h1 => by omega⟩
    simp only [List.length_append, List.length_replicate]
    omega

/-! ### Examples -/

/-- Numbers that are multiples of 2^-60 satisfy what is assumed about `double`. -/
theorem rounding_example : Rounding fun x => (⌊x * 2 ^ 60⌋ : Rat) / 2 ^ 60 := by
  refine ⟨fun x y h => ?_, fun n _ => ?_, ?_, ?_⟩
  · refine div_le_div_of_nonneg_right ?_ (by norm_num)
    have : x * 2 ^ 60 ≤ y * 2 ^ 60 := by linarith
    exact_mod_cast Int.floor_le_floor this
  · have : ((n : Rat) * 2 ^ 60) = ((n * 2 ^ 60 : Int) : Rat) := by push_cast; ring
    rw [this, Int.floor_intCast]
    push_cast
    field_simp
    norm_num
  · norm_num
  · norm_num

/-- Two files, one copied in two steps, the other compared. -/
def exFirst : Transfer := .copy [97] 300 2000000000 [(2100000000, 100), (3200000000, 200)] 3300000000
def exSecond : Transfer := .sync [98] 50 4000 4000000000 [(4100000000, 0, 4000), (4200000000, 50, 0)] 5400000000
def exCfg : Cfg := ⟨false, false, true, false, fun x => x⟩

theorem exRounding : Rounding exCfg.fl := ⟨fun _ _ h => h, fun _ _ => rfl, by norm_num [exCfg], by norm_num [exCfg]⟩

/-- C125, C126 and C127 for this example. -/
theorem C126_example : (∀ e ∈ ([] : List (Nat × Event)), e.2.isStats = false) ∧ (∀ e ∈ exFirst.events, e.2.isStats = false) ∧
    sumCopied ([] ++ exFirst.events ++ exSecond.events) = 300 ∧ sumDiffed ([] ++ exFirst.events ++ exSecond.events) = 50 ∧ sumSig ([] ++ exFirst.events ++ exSecond.events) = 4000 ∧
    0 < 300 + 50 + 4000 / 40 ∧ 300 + 50 + 4000 / 40 < 2 ^ 53 := by
  refine ⟨by simp, ?_, ?_, ?_, ?_, ?_, ?_⟩ <;> decide

end Verif.Progress
