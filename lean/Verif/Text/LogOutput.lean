/-! # Logging the output of a child process (C162)

common/process_win.cc, `LogOutput` and `GuessLogLevel`: output is cut into lines, each of which is logged with a level. -/
namespace Verif.Text.LogOutput

abbrev Bytes := List UInt8

/-! ### Model -/

/-- common/log.h:29. -/
inductive Level where
  | verbose
  | debug
  | info
  | warning
  | error
  deriving DecidableEq, Repr

def str (s : String) : Bytes := s.toList.map (·.toNat.toUInt8)

/-- `GuessLogLevel`, process_win.cc:549-559. `strncmp` of a zero-terminated string with the whole of a literal is a test for a prefix. -/
def guess (s : Bytes) : Level :=
  if (str "ERROR").isPrefixOf s then .error
  else if (str "WARNING").isPrefixOf s then .warning
  else if (str "DEBUG").isPrefixOf s then .debug
  else if (str "VERBOSE").isPrefixOf s then .verbose
  else .info

def isBreak (b : UInt8) : Bool := b == 13 || b == 10

/-- The loop of `LogOutput`, 554-572, on the characters before the terminating zero: `strpbrk` finds the next line break. The level is guessed from all that follows (`data`), not from the line. -/
def logLoop (level : Option Level) (s : Bytes) : List (Level × Bytes) :=
  match h : s.dropWhile (fun b => !isBreak b) with
  | [] => if s = [] then [] else [(level.getD (guess s), s)]
  | _ :: r => (if s.takeWhile (fun b => !isBreak b) = [] then [] else [(level.getD (guess s), s.takeWhile fun b => !isBreak b)]) ++ logLoop level r
termination_by s.length
decreasing_by
  have := List.takeWhile_append_dropWhile (p := fun b => !isBreak b) (l := s)
  rw [h] at this
  have := congrArg List.length this
  simp only [List.length_append, List.length_cons] at this
  omega

/-- `LogOutput`, 554-575: |data| is zero-terminated, |size| is not used. -/
def logOutput (level : Option Level) (data : Bytes) : List (Level × Bytes) := logLoop level (data.takeWhile (· != 0))

/-! ### Specification -/

/-- The lines of a text that are not empty. -/
inductive Lines : Bytes → List Bytes → Prop where
  | nil (s : Bytes) : (∀ b ∈ s, isBreak b = true) → Lines s []
  | cons (seps t rest : Bytes) (ts : List Bytes) : (∀ b ∈ seps, isBreak b = true) → t ≠ [] → (∀ b ∈ t, isBreak b = false) → (rest = [] ∨ ∃ b r, rest = b :: r ∧ isBreak b = true) →
      Lines rest ts → Lines (seps ++ t ++ rest) (t :: ts)

/-! ### Proofs -/

theorem Lines.sep {b : UInt8} (hb : isBreak b = true) {s : Bytes} {ts : List Bytes} (h : Lines s ts) : Lines (b :: s) ts := by
  cases h with
  | nil _ h => exact .nil _ fun c hc => (List.mem_cons.mp hc).elim (fun e => e ▸ hb) (h c)
  | cons seps t rest ts h1 h2 h3 h4 h5 =>
    exact .cons (b :: seps) t rest ts (fun c hc => (List.mem_cons.mp hc).elim (fun e => e ▸ hb) (h1 c)) h2 h3 h4 h5

theorem takeWhile_noBreak (s : Bytes) : ∀ b ∈ s.takeWhile (fun b => !isBreak b), isBreak b = false := by
  intro b hb
  have := List.all_takeWhile (p := fun b => !isBreak b) (l := s)
  rw [List.all_eq_true] at this
  simpa using this b hb

theorem logLoop_lines (level : Option Level) (s : Bytes) : Lines s ((logLoop level s).map Prod.snd) := by
  fun_induction logLoop level s with
  | case1 h => exact .nil _ (by simp)
  | case2 s h hs =>
    have he : s.takeWhile (fun b => !isBreak b) = s := by
      have := List.takeWhile_append_dropWhile (p := fun b => !isBreak b) (l := s)
      rw [h, List.append_nil] at this; exact this
    have := Lines.cons [] s [] [] (by simp) hs (by rw [← he]; exact takeWhile_noBreak s) (.inl rfl) (.nil _ (by simp))
    simpa using this
  | case3 s c r h ih =>
    have hc : isBreak c = true := by
      have := List.head?_dropWhile_not (p := fun b => !isBreak b) s
      rw [h] at this
      simpa using this
    have hcat := List.takeWhile_append_dropWhile (p := fun b => !isBreak b) (l := s)
    rw [h] at hcat
    rw [List.map_append]
    by_cases ht : s.takeWhile (fun b => !isBreak b) = []
    · rw [if_pos ht]
      rw [ht] at hcat
      rw [← hcat]
      exact ih.sep hc
    · rw [if_neg ht]
      have := Lines.cons [] _ (c :: r) _ (by simp) ht (takeWhile_noBreak s) (.inr ⟨c, r, rfl, hc⟩) (ih.sep hc)
      rw [List.nil_append, hcat] at this
      exact this

theorem prefix_line {p s t rest : Bytes} (hs : s = t ++ rest) (hp : ∀ b ∈ p, isBreak b = false) (hr : rest = [] ∨ ∃ b r, rest = b :: r ∧ isBreak b = true) :
    p.isPrefixOf s = p.isPrefixOf t := by
  rw [Bool.eq_iff_iff, List.isPrefixOf_iff_prefix, List.isPrefixOf_iff_prefix]
  subst hs
  constructor
  · intro h
    rcases List.prefix_or_prefix_of_prefix h (List.prefix_append t rest) with h' | ⟨u, hu⟩
    · exact h'
    · rw [← hu, List.prefix_append_right_inj] at h
      cases u with
      | nil => rw [← hu, List.append_nil]; exact List.prefix_rfl
      | cons x u =>
        have hx := hp x (by rw [← hu]; simp)
        rcases hr with hr | ⟨b, r, hr, hb⟩
        · rw [hr] at h; exact absurd (List.prefix_nil.mp h) (by simp)
        · rw [hr] at h
          have := (List.cons_prefix_cons.mp h).1
          rw [this, hb] at hx; cases hx
  · intro h; exact h.trans (List.prefix_append _ _)

theorem guess_line {s t rest : Bytes} (hs : s = t ++ rest) (hr : rest = [] ∨ ∃ b r, rest = b :: r ∧ isBreak b = true) : guess s = guess t := by
  unfold guess
  rw [prefix_line hs (by decide) hr, prefix_line hs (by decide) hr, prefix_line hs (by decide) hr, prefix_line hs (by decide) hr]

theorem logLoop_level (level : Option Level) (s : Bytes) : ∀ e ∈ logLoop level s, e.1 = level.getD (guess e.2) := by
  fun_induction logLoop level s with
  | case1 => simp
  | case2 s h hs => intro e he; rw [List.mem_singleton.mp he]
  | case3 s c r h ih =>
    have hc : isBreak c = true := by
      have := List.head?_dropWhile_not (p := fun b => !isBreak b) s
      rw [h] at this
      simpa using this
    have hcat := List.takeWhile_append_dropWhile (p := fun b => !isBreak b) (l := s)
    rw [h] at hcat
    intro e he
    rcases List.mem_append.mp he with he | he
    · by_cases ht : s.takeWhile (fun b => !isBreak b) = []
      · rw [if_pos ht] at he; cases he
      · rw [if_neg ht] at he
        rw [List.mem_singleton.mp he]
        show level.getD (guess s) = level.getD (guess _)
        rw [guess_line hcat.symm (.inr ⟨c, r, rfl, hc⟩)]
    · exact ih e he

theorem Lines.flatten {s : Bytes} {ts : List Bytes} (h : Lines s ts) : ts.flatten = s.filter fun b => !isBreak b := by
  induction h with
  | nil s h =>
    symm
    simpa using h
  | cons seps t rest ts h1 h2 h3 h4 h5 ih =>
    have e1 : seps.filter (fun b => !isBreak b) = [] := by simpa using h1
    have e2 : t.filter (fun b => !isBreak b) = t := by simpa using h3
    rw [List.filter_append, List.filter_append, e1, e2, List.flatten_cons, ih, List.nil_append]

theorem takeWhile_all {data : Bytes} (h : (0 : UInt8) ∉ data) : data.takeWhile (· != 0) = data := by
  induction data with
  | nil => rfl
  | cons a l ih =>
    rw [List.takeWhile_cons_of_pos, ih (fun h' => h (List.mem_cons_of_mem _ h'))]
    have : a ≠ 0 := fun e => h (by simp [e])
    simpa using this

/-- C162: output without zeros is logged line by line: exactly the lines that are not empty, in order. -/
theorem C162_lines_partial (level : Option Level) (data : Bytes) (h : (0 : UInt8) ∉ data) : Lines data ((logOutput level data).map Prod.snd) := by
  unfold logOutput
  rw [takeWhile_all h]
  exact logLoop_lines level data

/-- C162: each line has the level that was asked for, or the one its own beginning says. -/
theorem C162_level (level : Option Level) (data : Bytes) : ∀ e ∈ logOutput level data, e.1 = level.getD (guess e.2) := logLoop_level level _

/-- C162: which levels lines ask for, if no level is given: the one the line begins with, else "info". -/
theorem C162_own_level (data : Bytes) (l : Level) (t : Bytes) (h : (l, t) ∈ logOutput none data) :
    (l = .error ↔ str "ERROR" <+: t) ∧ (l = .warning ↔ str "WARNING" <+: t) ∧ (l = .debug ↔ str "DEBUG" <+: t) ∧
    (l = .verbose ↔ str "VERBOSE" <+: t) := by
  have h := C162_level none data _ h
  have h : l = guess t := h
  have no : ∀ {a b : UInt8} {p q t : Bytes}, a ≠ b → (a :: p) <+: t → ¬ (b :: q) <+: t := by
    rintro a b p q t hab ⟨u, rfl⟩ hq
    exact hab (List.cons_prefix_cons.mp hq).1.symm
  have e1 : str "ERROR" = [69, 82, 82, 79, 82] := by decide +kernel
  have e2 : str "WARNING" = [87, 65, 82, 78, 73, 78, 71] := by decide +kernel
  have e3 : str "DEBUG" = [68, 69, 66, 85, 71] := by decide +kernel
  have e4 : str "VERBOSE" = [86, 69, 82, 66, 79, 83, 69] := by decide +kernel
  unfold guess at h
  simp only [List.isPrefixOf_iff_prefix] at h
  rw [e1, e2, e3, e4] at *
  split at h
  · rename_i hp
    have n2 := no (b := 87) (q := [65, 82, 78, 73, 78, 71]) (by decide) hp
    have n3 := no (b := 68) (q := [69, 66, 85, 71]) (by decide) hp
    have n4 := no (b := 86) (q := [69, 82, 66, 79, 83, 69]) (by decide) hp
    simp [h, hp, n2, n3, n4]
  · rename_i n1
    split at h
    · rename_i hp
      have n3 := no (b := 68) (q := [69, 66, 85, 71]) (by decide) hp
      have n4 := no (b := 86) (q := [69, 82, 66, 79, 83, 69]) (by decide) hp
      simp [h, hp, n1, n3, n4]
    · rename_i n2
      split at h
      · rename_i hp
        have n4 := no (b := 86) (q := [69, 82, 66, 79, 83, 69]) (by decide) hp
        simp [h, hp, n1, n2, n4]
      · rename_i n3
        split at h
        · rename_i hp; simp [h, hp, n1, n2, n3]
        · rename_i n4; simp [h, n1, n2, n3, n4]

/-- C162: whatever pieces the output is read in, nothing but line breaks is missing in the log and nothing is added. -/
theorem C162_nothing_lost_partial (level : Option Level) (calls : List Bytes) (h : (0 : UInt8) ∉ calls.flatten) :
    (calls.flatMap fun d => (logOutput level d).map Prod.snd).flatten = calls.flatten.filter fun b => !isBreak b := by
  induction calls with
  | nil => rfl
  | cons d calls ih =>
    rw [List.flatten_cons] at h
    rw [List.flatMap_cons, List.flatten_append, ih (fun h' => h (List.mem_append_right _ h')), List.flatten_cons, List.filter_append,
      (C162_lines_partial level d (fun h' => h (List.mem_append_left _ h'))).flatten]

/-- C162, exactly, for one piece of output: what is logged are the lines of its part before the first zero. -/
theorem C162_exactly (level : Option Level) (data : Bytes) : Lines (data.takeWhile (· != 0)) ((logOutput level data).map Prod.snd) :=
  logLoop_lines level _

/-- C162, exactly: every byte that is not a line break is logged if and only if the output has no zero. -/
theorem C162_lost_exactly (level : Option Level) (data : Bytes) :
    ((logOutput level data).map Prod.snd).flatten = data.filter (fun b => !isBreak b) ↔ (0 : UInt8) ∉ data := by
  constructor
  · intro h hz
    rw [(C162_exactly level data).flatten] at h
    have hm : (0 : UInt8) ∈ data.filter (fun b => !isBreak b) := List.mem_filter.2 ⟨hz, by decide⟩
    rw [← h] at hm
    have := List.all_eq_true.1 List.all_takeWhile _ (List.mem_filter.1 hm).1
    exact absurd this (by decide)
  · exact fun h => (C162_lines_partial level data h).flatten

/-- C162 does not hold with zeros: the rest of what was read with it is lost. -/
theorem C162_zero_violated (level : Option Level) (a b : Bytes) : logOutput level (a ++ 0 :: b) = logOutput level a := by
  unfold logOutput
  congr 1
  induction a with
  | nil => rfl
  | cons x a ih =>
    by_cases hx : x = 0
    · subst hx; rfl
    · rw [List.cons_append, List.takeWhile_cons_of_pos (by simpa using hx), List.takeWhile_cons_of_pos (by simpa using hx), ih]

/-- C162: a line that is read in two pieces is logged as two lines, and the second one with another level. -/
theorem C162_cut_line_violated : ([str "ERROR: dis", str "k full\n"].flatMap (logOutput none)) = [(.error, str "ERROR: dis"), (.info, str "k full")] ∧
    logOutput none (str "ERROR: disk full\n") = [(.error, str "ERROR: disk full")] := by
  constructor <;> decide +kernel

example : logOutput none (str "ERROR a\r\n\nDEBUG\nERR") = [(.error, str "ERROR a"), (.debug, str "DEBUG"), (.info, str "ERR")] := by
  decide +kernel

/-! ### What the console log of the other side writes -/

/-- `GetLogLevelString`, log.cc:29-43. -/
def levelName : Level → Bytes
  | .verbose => str "VERBOSE"
  | .debug => str "DEBUG"
  | .info => str "INFO"
  | .warning => str "WARNING"
  | .error => str "ERROR"

/-- `ConsoleLog::WriteLogMessage` on Linux, log.cc:124-149: `"%-7s "`, then, at the levels "verbose" and "debug", time and place
(`place`), then the message and a line break. -/
def consoleLine (l : Level) (place message : Bytes) : Bytes :=
  levelName l ++ List.replicate (7 - (levelName l).length) 32 ++ [32] ++ place ++ message ++ [10]


theorem guess_console (l : Level) (rest : Bytes) : guess (levelName l ++ List.replicate (7 - (levelName l).length) 32 ++ [32] ++ rest) = l := by
  have e1 : str "ERROR" = [69, 82, 82, 79, 82] := by decide +kernel
  have e2 : str "WARNING" = [87, 65, 82, 78, 73, 78, 71] := by decide +kernel
  have e3 : str "DEBUG" = [68, 69, 66, 85, 71] := by decide +kernel
  have e4 : str "VERBOSE" = [86, 69, 82, 66, 79, 83, 69] := by decide +kernel
  have e5 : str "INFO" = [73, 78, 70, 79] := by decide +kernel
  unfold guess
  cases l <;> simp [levelName, e1, e2, e3, e4, e5, List.isPrefixOf]

theorem logLoop_line (level : Option Level) (t rest : Bytes) (hne : t ≠ []) (ht : ∀ b ∈ t, isBreak b = false) :
    logLoop level (t ++ 10 :: rest) = (level.getD (guess (t ++ 10 :: rest)), t) :: logLoop level rest := by
  have h1 : (t ++ 10 :: rest).takeWhile (fun b => !isBreak b) = t := by
    rw [List.takeWhile_append_of_pos (by simpa using ht), List.takeWhile_cons_of_neg (by decide), List.append_nil]
  have h2 : (t ++ 10 :: rest).dropWhile (fun b => !isBreak b) = 10 :: rest := by
    rw [List.dropWhile_append_of_pos (by simpa using ht), List.dropWhile_cons_of_neg (by decide)]
  rw [logLoop]
  split
  · rename_i h; rw [h2] at h; cases h
  · rename_i c r h
    rw [h2] at h
    cases h
    rw [h1, if_neg hne]
    rfl

/-- C181: what the other side logs to its console, one message or many, is logged here message by message with the same levels. -/
theorem C181_levels_partial (ms : List (Level × Bytes × Bytes)) (h : ∀ m ∈ ms, ∀ b ∈ m.2.1 ++ m.2.2, b ≠ 0 ∧ b ≠ 10 ∧ b ≠ 13) :
    (logOutput none (ms.flatMap fun m => consoleLine m.1 m.2.1 m.2.2)).map Prod.fst = ms.map Prod.fst ∧
    ∀ e ∈ (logOutput none (ms.flatMap fun m => consoleLine m.1 m.2.1 m.2.2)).zip ms, (e.2.2.1 ++ e.2.2.2) <:+ e.1.2 := by
  have hn : ∀ l : Level, ∀ b ∈ levelName l ++ List.replicate (7 - (levelName l).length) 32 ++ [32], b ≠ 0 ∧ isBreak b = false := by
    intro l; cases l <;> decide +kernel
  have hz : (0 : UInt8) ∉ ms.flatMap fun m => consoleLine m.1 m.2.1 m.2.2 := by
    intro h0
    obtain ⟨m, hm, hb⟩ := List.mem_flatMap.1 h0
    unfold consoleLine at hb
    rw [List.append_assoc _ m.2.1 m.2.2] at hb
    rcases List.mem_append.1 hb with hb | hb
    · rcases List.mem_append.1 hb with hb | hb
      · exact (hn _ 0 hb).1 rfl
      · exact (h m hm 0 hb).1 rfl
    · simp at hb
  unfold logOutput
  rw [takeWhile_all hz]
  clear hz
  induction ms with
  | nil => 
    have : logLoop none ([] : Bytes) = [] := by rw [logLoop]; simp
    simp [this]
  | cons m ms ih =>
    obtain ⟨l, p, t⟩ := m
    have ih := ih (fun m hm => h m (List.mem_cons_of_mem _ hm))
    have h0 := h _ (List.mem_cons_self ..)
    rw [List.flatMap_cons]
    generalize ms.flatMap (fun m => consoleLine m.1 m.2.1 m.2.2) = rest at ih ⊢
    have e : consoleLine l p t ++ rest = (levelName l ++ List.replicate (7 - (levelName l).length) 32 ++ [32] ++ (p ++ t)) ++ 10 :: rest := by
      simp [consoleLine]
    have hg := guess_console l (p ++ t ++ 10 :: rest)
    rw [← List.append_assoc] at hg
    show (logLoop none (consoleLine l p t ++ rest)).map Prod.fst = _ ∧ _
    have hl := logLoop_line none (levelName l ++ List.replicate (7 - (levelName l).length) 32 ++ [32] ++ (p ++ t)) rest (by simp) (by
      intro b hb
      rcases List.mem_append.1 hb with hb | hb
      · exact (hn l b hb).2
      · have := h0 b hb
        simp [isBreak, this.2.1, this.2.2])
    rw [hg] at hl
    rw [← e] at hl
    constructor
    · rw [hl, List.map_cons, ih.1]; rfl
    · show ∀ e ∈ (logLoop none (consoleLine l p t ++ rest)).zip ((l, p, t) :: ms), _
      rw [hl, List.zip_cons_cons]
      intro e he
      rcases List.mem_cons.1 he with rfl | he
      · exact List.suffix_append _ _
      · exact ih.2 e he

/-- C181 does not hold for messages with more than one line: the second line of an error has the level "info". -/
theorem C181_two_lines_violated : logOutput none (consoleLine .error [] (str "disk\nfull")) = [(.error, str "ERROR   disk"), (.info, str "full")] := by
  decide +kernel

example : logOutput none (consoleLine .warning [] (str "a") ++ consoleLine .debug (str "1.5 x.cc(3): f(): ") (str "ERROR")) =
    [(.warning, str "WARNING a"), (.debug, str "DEBUG   1.5 x.cc(3): f(): ERROR")] := by decide +kernel

end Verif.Text.LogOutput
