/-! # C45: quoting command line arguments (common/remote_util.cc: `QuoteForWindows`, `QuoteForSsh`) -/
namespace Verif.Text.Quote

abbrev Str := List UInt8

/-- `\`, `"`, `~`, `/`, `$`, backtick. -/
def bsl : UInt8 := 92
def dq : UInt8 := 34
def tilde : UInt8 := 126
def slash : UInt8 := 47
def dollar : UInt8 := 36
def btick : UInt8 := 96

def bsls (n : Nat) : Str := List.replicate n bsl

/-! ## Model -/

/-- `regex_replace(argument, R"(\\*(?="|$))", "$&$&")`, common/remote_util.cc:242-243: every maximal run of backslashes
that is followed by a double quote or the end of the string is doubled. `n` is the length of the run read so far.
(`$` is the end of the string only; the argument has no line breaks, after which some libraries also match `$`.) -/
def doubleRuns (n : Nat) : Str → Str
  | [] => bsls (2 * n)
  | c :: s =>
    if c = bsl then doubleRuns (n + 1) s
    else if c = dq then bsls (2 * n) ++ dq :: doubleRuns 0 s
    else bsls n ++ c :: doubleRuns 0 s

/-- `regex_replace(s, R"(")", R"(\")")`, common/remote_util.cc:244, 254. -/
def escDq : Str → Str
  | [] => []
  | c :: s => if c = dq then bsl :: dq :: escDq s else c :: escDq s

/-- `regex_replace(argument, R"(\\)", R"(\\)")`, common/remote_util.cc:252-253: a backslash is not special in the
replacement, so each backslash becomes two. -/
def escBsl : Str → Str
  | [] => []
  | c :: s => if c = bsl then bsl :: bsl :: escBsl s else c :: escBsl s

/-- `QuoteForWindows`, common/remote_util.cc:239-247. -/
def quoteForWindows (argument : Str) : Str := dq :: escDq (doubleRuns 0 argument) ++ [dq]

/-- `[a-z]` and `[-a-z0-9]`. -/
def isLower (c : UInt8) : Bool := 97 ≤ c && c ≤ 122
def isUserChar (c : UInt8) : Bool := c = 45 || isLower c || (48 ≤ c && c ≤ 57)

/-- `regex_match(s, "^[a-z][-a-z0-9]*")`, common/remote_util.cc:273-274. -/
def userNameOk : Str → Bool
  | [] => false
  | c :: s => isLower c && s.all isUserChar

/-- `QuoteForSsh`, common/remote_util.cc:249-285. `findIdx?` is `escaped.find('/')`. -/
def quoteForSsh (argument : Str) : Str :=
  let escaped := escDq (escBsl argument)
  if escaped.head? ≠ some tilde then quoteForWindows (dq :: escaped ++ [dq])
  else if escaped = [tilde] ∨ escaped = [tilde, slash] then quoteForWindows escaped
  else
    let slashPos := escaped.findIdx? (· = slash)
    let userEnd := slashPos.getD escaped.length
    if userEnd > 1 ∧ ¬ userNameOk ((escaped.drop 1).take (userEnd - 1)) then
      quoteForWindows (dq :: escaped ++ [dq])
    else match slashPos with
      | none => quoteForWindows escaped
      | some p => quoteForWindows (escaped.take (p + 1) ++ dq :: escaped.drop (p + 1) ++ [dq])

/-! ## Specification 1: how a Microsoft program splits its command line

The documented rules: an argument ends at a space or tab outside quotes; 2n backslashes before a quote give n backslashes
and the quote opens or closes a quoted part (two quotes in a row inside a quoted part give one quote); 2n + 1 backslashes
before a quote give n backslashes and a literal quote; other backslashes are literal. -/

/-- Reads one argument. `q`: inside a quoted part; `n`: backslashes read but not yet used; result: argument and rest of
the command line. -/
def msArg (q : Bool) (n : Nat) (acc : Str) : Str → Str × Str
  | [] => (acc ++ bsls n, [])
  | c :: s =>
    if c = bsl then msArg q (n + 1) acc s
    else if c = dq then
      if n % 2 = 1 then msArg q 0 (acc ++ bsls (n / 2) ++ [dq]) s
      else if q then
        match s with
        | d :: t => if d = dq then msArg q 0 (acc ++ bsls (n / 2) ++ [dq]) t else msArg false 0 (acc ++ bsls (n / 2)) (d :: t)
        | [] => (acc ++ bsls (n / 2), [])
      else msArg true 0 (acc ++ bsls (n / 2)) s
    else if (c = 32 ∨ c = 9) ∧ q = false then (acc ++ bsls n, c :: s)
    else msArg q 0 (acc ++ bsls n ++ [c]) s

/-- The first argument of a command line. -/
def firstArg (cmd : Str) : Str × Str := msArg false 0 [] cmd

/-! ## Specification 2: how a POSIX shell reads one word -/

/-- Characters that stand for themselves outside of quotes: letters, digits and `-`, `/`, `.`, `_`. (Only a lower bound
is needed.) -/
def plain (c : UInt8) : Bool :=
  isUserChar c || (65 ≤ c && c ≤ 90) || c = slash || c = 46 || c = 95

/-- The literal value of a word. Inside double quotes a backslash quotes `$`, backtick, `"`, `\` and a newline (which
vanishes) and is literal before anything else. `none`: the word is not literal (an expansion, an operator, an open
quote). -/
def shWord (q : Bool) : Str → Option Str
  | [] => if q then none else some []
  | c :: s =>
    if c = dq then shWord (!q) s
    else if q then
      if c = bsl then
        match s with
        | [] => none
        | d :: t =>
          if d = dollar ∨ d = btick ∨ d = dq ∨ d = bsl then (shWord q t).map (d :: ·)
          else if d = 10 then shWord q t
          else (shWord q (d :: t)).map (c :: ·)
      else if c = dollar ∨ c = btick then none
      else (shWord q s).map (c :: ·)
    else if plain c then (shWord q s).map (c :: ·) else none

/-- A word with tilde expansion: an unquoted `~`, followed by unquoted characters up to the first `/` or the end, stands
for the home directory of that user (`home []` is the own one). -/
def shTilde (home : Str → Str) (w : Str) : Option Str :=
  match w with
  | [] => some []
  | c :: s =>
    if c = tilde then
      let user := s.takeWhile (· ≠ slash)
      if user.all plain then (shWord false (s.drop user.length)).map (home user ++ ·) else none
    else shWord false w

/-- What the argument is meant to denote (common/remote_util.h:140-152): `~` and `~user`, at the beginning and followed
by the end or a slash, are home directories; all other characters stand for themselves. -/
def meaning (home : Str → Str) (arg : Str) : Str :=
  match arg with
  | [] => []
  | c :: s =>
    let user := s.takeWhile (· ≠ slash)
    if c = tilde ∧ (user = [] ∨ userNameOk user) then home user ++ s.drop user.length else arg

/-! ## Windows -/

theorem bsls_succ (n : Nat) : bsls (n + 1) = bsl :: bsls n := rfl
theorem bsls_succ' (n : Nat) : bsls (n + 1) = bsls n ++ [bsl] := by
  unfold bsls; rw [List.replicate_succ']

theorem escDq_bsls (n : Nat) (s : Str) : escDq (bsls n ++ s) = bsls n ++ escDq s := by
  induction n with
  | zero => rfl
  | succ n ih =>
    rw [bsls_succ, List.cons_append, List.cons_append, escDq, if_neg (by decide), ih]

theorem msArg_bsl (q : Bool) (n : Nat) (acc s : Str) : msArg q n acc (bsl :: s) = msArg q (n + 1) acc s := by
  rw [msArg.eq_def]; simp

theorem msArg_odd (q : Bool) (n : Nat) (acc s : Str) (h : n % 2 = 1) :
    msArg q n acc (dq :: s) = msArg q 0 (acc ++ bsls (n / 2) ++ [dq]) s := by
  rw [msArg.eq_def]; simp only
  rw [if_neg (by decide), if_pos trivial, if_pos h]

theorem msArg_open (n : Nat) (acc s : Str) (h : n % 2 = 0) :
    msArg false n acc (dq :: s) = msArg true 0 (acc ++ bsls (n / 2)) s := by
  rw [msArg.eq_def]; simp only
  rw [if_neg (by decide), if_pos trivial, if_neg (by omega), if_neg (by simp)]

theorem msArg_close (n : Nat) (acc s : Str) (h : n % 2 = 0) (hs : s.head? ≠ some dq) :
    msArg true n acc (dq :: s) = msArg false 0 (acc ++ bsls (n / 2)) s := by
  rw [msArg.eq_def]; simp only
  rw [if_neg (by decide), if_pos trivial, if_neg (by omega), if_pos trivial]
  cases s with
  | nil => rw [msArg.eq_def]; simp [bsls]
  | cons d t =>
    have : d ≠ dq := by simpa using hs
    simp only [if_neg this]

theorem msArg_other (n : Nat) (acc s : Str) (c : UInt8) (h1 : c ≠ bsl) (h2 : c ≠ dq) :
    msArg true n acc (c :: s) = msArg true 0 (acc ++ bsls n ++ [c]) s := by
  rw [msArg.eq_def]; simp only
  rw [if_neg h1, if_neg h2, if_neg (by simp)]

theorem msArg_nil (q : Bool) (n : Nat) (acc : Str) : msArg q n acc [] = (acc ++ bsls n, []) := by
  rw [msArg.eq_def]

theorem msArg_space (n : Nat) (acc s : Str) : msArg false n acc (32 :: s) = (acc ++ bsls n, 32 :: s) := by
  rw [msArg.eq_def]; simp only
  rw [if_neg (by decide), if_neg (by decide), if_pos (by simp)]

theorem shWord_nil (q : Bool) : shWord q [] = if q then none else some [] := by rw [shWord.eq_def]

theorem shWord_dq (q : Bool) (s : Str) : shWord q (dq :: s) = shWord (!q) s := by
  rw [shWord.eq_def]; simp

theorem shWord_escaped (d : UInt8) (t : Str) (h : d = dollar ∨ d = btick ∨ d = dq ∨ d = bsl) :
    shWord true (bsl :: d :: t) = (shWord true t).map (d :: ·) := by
  rw [shWord.eq_def]; simp only
  rw [if_neg (by decide), if_pos trivial, if_pos trivial, if_pos h]

theorem shWord_lit (c : UInt8) (s : Str) (h1 : c ≠ dq) (h2 : c ≠ bsl) (h3 : ¬ (c = dollar ∨ c = btick)) :
    shWord true (c :: s) = (shWord true s).map (c :: ·) := by
  rw [shWord.eq_def]; simp only
  rw [if_neg h1, if_pos trivial, if_neg h2, if_neg h3]

theorem shWord_exp (c : UInt8) (s : Str) (h3 : c = dollar ∨ c = btick) : shWord true (c :: s) = none := by
  rw [shWord.eq_def]; simp only
  rw [if_neg (by rcases h3 with rfl | rfl <;> decide), if_pos trivial,
    if_neg (by rcases h3 with rfl | rfl <;> decide), if_pos h3]

theorem shWord_plain (c : UInt8) (s : Str) (h1 : c ≠ dq) (h : plain c = true) :
    shWord false (c :: s) = (shWord false s).map (c :: ·) := by
  rw [shWord.eq_def]; simp only
  rw [if_neg h1, if_neg (by simp), if_pos h]

theorem msArg_bsls (q : Bool) (m n : Nat) (acc s : Str) : msArg q n acc (bsls m ++ s) = msArg q (n + m) acc s := by
  induction m generalizing n with
  | zero => rfl
  | succ m ih =>
    rw [bsls_succ, List.cons_append, msArg_bsl, ih]
    congr 1; omega

theorem msArg_quoted (s : Str) : ∀ (n : Nat) (acc rest : Str), rest.head? ≠ some dq →
    msArg true 0 acc (escDq (doubleRuns n s) ++ dq :: rest) = msArg false 0 (acc ++ bsls n ++ s) rest := by
  induction s with
  | nil =>
    intro n acc rest hr
    have : escDq (doubleRuns n []) = bsls (2 * n) := by
      have := escDq_bsls (2 * n) []
      simpa [doubleRuns, escDq] using this
    rw [this, msArg_bsls, msArg_close _ _ _ (by omega) hr, show (0 + 2 * n) / 2 = n by omega, List.append_nil]
  | cons c s ih =>
    intro n acc rest hr
    simp only [doubleRuns]
    by_cases h1 : c = bsl
    · rw [if_pos h1, ih (n + 1) acc rest hr, h1, bsls_succ']
      simp
    · rw [if_neg h1]
      by_cases h2 : c = dq
      · rw [if_pos h2, escDq_bsls, escDq, if_pos rfl]
        have e : bsls (2 * n) ++ bsl :: dq :: escDq (doubleRuns 0 s) ++ dq :: rest =
            bsls (2 * n + 1) ++ (dq :: (escDq (doubleRuns 0 s) ++ dq :: rest)) := by
          rw [bsls_succ']; simp
        rw [e, msArg_bsls, msArg_odd _ _ _ _ (by omega), ih 0 _ rest hr, h2]
        rw [show (0 + (2 * n + 1)) / 2 = n by omega]
        simp [bsls]
      · rw [if_neg h2, escDq_bsls, escDq, if_neg h2, List.append_assoc, msArg_bsls, List.cons_append,
          msArg_other _ _ _ _ h1 h2, ih 0 _ rest hr]
        simp [bsls]

theorem firstArg_quoted (a rest : Str) (hr : rest.head? ≠ some dq) :
    firstArg (quoteForWindows a ++ rest) = msArg false 0 a rest := by
  unfold firstArg quoteForWindows
  rw [List.cons_append, List.cons_append, msArg_open _ _ _ rfl]
  have := msArg_quoted a 0 [] rest hr
  simpa [bsls] using this

/-! ## ssh -/

/-- Both escapes in one pass. -/
def esc : Str → Str
  | [] => []
  | c :: s => if c = bsl then bsl :: bsl :: esc s else if c = dq then bsl :: dq :: esc s else c :: esc s

theorem escDq_escBsl (s : Str) : escDq (escBsl s) = esc s := by
  induction s with
  | nil => rfl
  | cons c s ih =>
    simp only [escBsl, esc]
    by_cases h1 : c = bsl
    · rw [if_pos h1, if_pos h1, escDq, if_neg (by decide), escDq, if_neg (by decide), ih]
    · rw [if_neg h1, if_neg h1, escDq]
      by_cases h2 : c = dq
      · rw [if_pos h2, if_pos h2, ih]
      · rw [if_neg h2, if_neg h2, ih]

theorem esc_append (a b : Str) : esc (a ++ b) = esc a ++ esc b := by
  induction a with
  | nil => rfl
  | cons c a ih =>
    simp only [List.cons_append, esc]
    split
    · simp [ih]
    · split <;> simp [ih]

theorem esc_id (s : Str) (h : ∀ c ∈ s, c ≠ bsl ∧ c ≠ dq) : esc s = s := by
  induction s with
  | nil => rfl
  | cons c s ih =>
    have hc := h c (List.mem_cons_self ..)
    rw [esc, if_neg hc.1, if_neg hc.2, ih fun d hd => h d (List.mem_cons_of_mem _ hd)]

/-- No expansion character. -/
def NoExpansion (s : Str) : Prop := ∀ c ∈ s, c ≠ dollar ∧ c ≠ btick

theorem shWord_esc (s : Str) (h : NoExpansion s) (t : Str) :
    shWord true (esc s ++ t) = (shWord true t).map (s ++ ·) := by
  induction s with
  | nil => simp [esc]
  | cons c s ih =>
    have hc := h c (List.mem_cons_self ..)
    have ih := ih fun d hd => h d (List.mem_cons_of_mem _ hd)
    have e : ∀ (x : Option Str), Option.map (fun x => c :: x) (x.map (s ++ ·)) = x.map (fun x => c :: s ++ x) := by
      intro x; cases x <;> simp
    simp only [esc]
    by_cases h1 : c = bsl
    · rw [if_pos h1]
      simp only [List.cons_append]
      rw [shWord_escaped _ _ (by decide), ih, ← h1]
      exact e _
    · rw [if_neg h1]
      by_cases h2 : c = dq
      · rw [if_pos h2]
        simp only [List.cons_append]
        rw [shWord_escaped _ _ (by decide), ih, ← h2]
        exact e _
      · rw [if_neg h2]
        simp only [List.cons_append]
        rw [shWord_lit _ _ h2 h1 (fun h => h.elim hc.1 hc.2), ih]
        exact e _

theorem shWord_quoted (s : Str) (h : NoExpansion s) : shWord false (dq :: esc s ++ [dq]) = some s := by
  rw [List.cons_append, shWord_dq, Bool.not_false, shWord_esc s h, shWord_dq, shWord_nil]
  simp

theorem isUserChar_plain {c : UInt8} (h : isUserChar c = true) : plain c = true := by simp [plain, h]

theorem isLower_userChar {c : UInt8} (h : isLower c = true) : isUserChar c = true := by simp [isUserChar, h]

theorem userName_chars (u : Str) (h : userNameOk u = true) : ∀ c ∈ u, isUserChar c = true := by
  cases u with
  | nil => intro c hc; cases hc
  | cons d u =>
    simp only [userNameOk, Bool.and_eq_true, List.all_eq_true] at h
    intro c hc
    rcases List.mem_cons.1 hc with rfl | hc
    · exact isLower_userChar h.1
    · exact h.2 c hc

theorem userChar_ne {c : UInt8} (h : isUserChar c = true) : c ≠ bsl ∧ c ≠ dq ∧ c ≠ slash := by
  refine ⟨?_, ?_, ?_⟩ <;> (rintro rfl; revert h; decide)

theorem takeWhile_all {p : UInt8 → Bool} {a b : Str} (ha : ∀ c ∈ a, p c = true) (hb : ∀ c, b.head? = some c → p c = false) :
    (a ++ b).takeWhile p = a := by
  induction a with
  | nil =>
    cases b with
    | nil => rfl
    | cons c b => simp [List.takeWhile_cons, hb c rfl]
  | cons c a ih =>
    rw [List.cons_append, List.takeWhile_cons, if_pos (ha c (List.mem_cons_self ..)),
      ih fun d hd => ha d (List.mem_cons_of_mem _ hd)]

theorem findIdx_append {p : UInt8 → Bool} {a b : Str} {c : UInt8} (ha : ∀ d ∈ a, p d = false) (hc : p c = true) :
    (a ++ c :: b).findIdx? p = some a.length := by
  induction a with
  | nil => simp [List.findIdx?_cons, hc]
  | cons d a ih =>
    rw [List.cons_append, List.findIdx?_cons, ha d (List.mem_cons_self ..)]
    simp [ih fun e he => ha e (List.mem_cons_of_mem _ he)]

theorem findIdx_none {p : UInt8 → Bool} {a : Str} (ha : ∀ d ∈ a, p d = false) : a.findIdx? p = none := by
  induction a with
  | nil => rfl
  | cons d a ih =>
    rw [List.findIdx?_cons, ha d (List.mem_cons_self ..)]
    simp [ih fun e he => ha e (List.mem_cons_of_mem _ he)]

/-- A string is its part before the first slash and the rest. -/
theorem split_slash (s : Str) : ∃ u r, s = u ++ r ∧ (∀ c ∈ u, c ≠ slash) ∧ (r = [] ∨ ∃ t, r = slash :: t) ∧
    s.takeWhile (· ≠ slash) = u := by
  refine ⟨s.takeWhile (· ≠ slash), s.dropWhile (· ≠ slash), (List.takeWhile_append_dropWhile ..).symm, ?_, ?_, rfl⟩
  · intro c hc
    have : ∀ (s : Str), c ∈ s.takeWhile (· ≠ slash) → c ≠ slash := by
      intro s
      induction s with
      | nil => intro h; cases h
      | cons d s ih =>
        rw [List.takeWhile_cons]
        split
        · intro h
          rcases List.mem_cons.1 h with rfl | h
          · rename_i hd; simpa using hd
          · exact ih h
        · intro h; cases h
    exact this s hc
  · cases h : s.dropWhile (· ≠ slash) with
    | nil => exact .inl rfl
    | cons c t =>
      right
      have : ∀ (s : Str), s.dropWhile (· ≠ slash) = c :: t → c = slash := by
        intro s
        induction s with
        | nil => intro h; cases h
        | cons d s ih =>
          rw [List.dropWhile_cons]
          split
          · exact ih
          · rename_i hd
            intro h
            rw [← (List.cons.inj h).1]; simpa using hd
      exact ⟨t, by rw [this s h]⟩

theorem esc_no_slash (u : Str) (h : ∀ c ∈ u, c ≠ slash) : ∀ c ∈ esc u, c ≠ slash := by
  induction u with
  | nil => intro c hc; cases hc
  | cons d u ih =>
    intro c hc
    have ih := ih fun e he => h e (List.mem_cons_of_mem _ he)
    simp only [esc] at hc
    split at hc
    · simp only [List.mem_cons] at hc
      rcases hc with rfl | rfl | hc
      · decide
      · decide
      · exact ih c hc
    · split at hc
      · simp only [List.mem_cons] at hc
        rcases hc with rfl | rfl | hc
        · decide
        · decide
        · exact ih c hc
      · simp only [List.mem_cons] at hc
        rcases hc with rfl | hc
        · exact h c (List.mem_cons_self ..)
        · exact ih c hc

theorem userNameOk_esc (u : Str) : userNameOk (esc u) = true ↔ userNameOk u = true := by
  constructor
  · intro h
    have hch := userName_chars _ h
    have : ∀ c ∈ u, c ≠ bsl ∧ c ≠ dq := by
      clear h
      induction u with
      | nil => intro c hc; cases hc
      | cons d u ih =>
        simp only [esc] at hch
        by_cases h1 : d = bsl
        · rw [if_pos h1] at hch
          exact absurd rfl (userChar_ne (hch bsl (by simp))).1
        · rw [if_neg h1] at hch
          by_cases h2 : d = dq
          · rw [if_pos h2] at hch
            exact absurd rfl (userChar_ne (hch bsl (by simp))).1
          · rw [if_neg h2] at hch
            intro c hc
            rcases List.mem_cons.1 hc with rfl | hc
            · exact ⟨h1, h2⟩
            · exact ih (fun e he => hch e (List.mem_cons_of_mem _ he)) c hc
    rw [esc_id u this] at h; exact h
  · intro h
    rw [esc_id u fun c hc => ⟨(userChar_ne (userName_chars u h c hc)).1, (userChar_ne (userName_chars u h c hc)).2.1⟩]
    exact h

theorem esc_eq_nil (s : Str) : esc s = [] ↔ s = [] := by
  cases s with
  | nil => simp [esc]
  | cons c s =>
    simp only [esc]
    split
    · simp
    · split <;> simp

/-- The word handed to the shell, and what it stands for. -/
theorem quoteForSsh_word (home : Str → Str) (arg : Str) (h : NoExpansion arg) :
    ∃ w, quoteForSsh arg = quoteForWindows w ∧ shTilde home w = some (meaning home arg) := by
  unfold quoteForSsh
  simp only [escDq_escBsl]
  -- the fully quoted form stands for the argument
  have full : shTilde home (dq :: esc arg ++ [dq]) = some arg := by
    unfold shTilde
    simp only [List.cons_append]
    rw [if_neg (by decide)]
    exact shWord_quoted arg h
  cases arg with
  | nil =>
    exact ⟨_, by rw [if_pos (by simp [esc])], by rw [full]; rfl⟩
  | cons c s =>
    by_cases hc : c = tilde
    · subst hc
      have hs : NoExpansion s := fun d hd => h d (List.mem_cons_of_mem _ hd)
      have hesc : esc (tilde :: s) = tilde :: esc s := by rw [esc, if_neg (by decide), if_neg (by decide)]
      rw [hesc] at full ⊢
      rw [if_neg (by simp)]
      obtain ⟨u, r, hsr, hu, hr, htw⟩ := split_slash s
      have hmean : meaning home (tilde :: s) = if u = [] ∨ userNameOk u = true then home u ++ r else tilde :: s := by
        unfold meaning
        simp only [htw]
        by_cases hok : u = [] ∨ userNameOk u = true
        · rw [if_pos ⟨trivial, hok⟩, if_pos hok]
          rw [hsr, List.drop_left]
        · rw [if_neg (fun hh => hok hh.2), if_neg hok]
      have hescs : esc s = esc u ++ esc r := by rw [hsr, esc_append]
      have hru : ∀ d, r.head? = some d → d = slash := by
        intro d hd
        rcases hr with rfl | ⟨t, rfl⟩
        · cases hd
        · simp at hd; exact hd.symm
      -- evaluation of the shell on `~` user rest
      have shell : ∀ (rest : Str) (v : Str), (∀ c ∈ u, isUserChar c = true) → (∀ d, rest.head? = some d → d = slash) →
          shWord false rest = some v → shTilde home (tilde :: (u ++ rest)) = some (home u ++ v) := by
        intro rest v huc hrest hv
        unfold shTilde
        simp only
        rw [if_pos trivial]
        have e : (u ++ rest).takeWhile (· ≠ slash) = u :=
          takeWhile_all (fun c hc => by simpa using (userChar_ne (huc c hc)).2.2)
            (fun d hd => by simpa using hrest d hd)
        simp only [e]
        rw [if_pos (by rw [List.all_eq_true]; exact fun c hc => isUserChar_plain (huc c hc)), List.drop_left, hv]
        rfl
      by_cases hsimple : tilde :: esc s = [tilde] ∨ tilde :: esc s = [tilde, slash]
      · rw [if_pos hsimple]
        refine ⟨_, rfl, ?_⟩
        rw [hmean]
        rcases hsimple with hh | hh
        · have : s = [] := (esc_eq_nil s).1 (List.cons.inj hh).2
          subst this
          obtain ⟨hu0, hr0⟩ := List.append_eq_nil_iff.1 hsr.symm
          subst hu0; subst hr0
          have := shell [] [] (by simp) (by simp) rfl
          simpa [esc] using this
        · have hh := (List.cons.inj hh).2
          have : s = [slash] := by
            cases s with
            | nil => cases hh
            | cons d s =>
              simp only [esc] at hh
              split at hh
              · simp [bsl, slash] at hh
              · split at hh
                · simp [bsl, slash] at hh
                · obtain ⟨rfl, h2⟩ := List.cons.inj hh
                  rw [(esc_eq_nil s).1 h2]
          subst this
          have hu0 : u = [] := by
            rw [← htw]; decide
          subst hu0
          simp only [List.nil_append] at hsr
          subst hsr
          have := shell [slash] [slash] (by simp) (by simp) (by decide)
          rw [if_pos (.inl rfl)]
          simpa [esc, bsl, dq, slash] using this
      · rw [if_neg hsimple]
        have hslashPos : (tilde :: esc s).findIdx? (· = slash) =
            if r = [] then none else some ((esc u).length + 1) := by
          rw [hescs]
          rcases hr with rfl | ⟨t, rfl⟩
          · rw [if_pos rfl]
            apply findIdx_none
            intro d hd
            simp only [esc, List.append_nil, List.mem_cons] at hd
            rcases hd with rfl | hd
            · decide
            · simpa using esc_no_slash u hu d hd
          · rw [if_neg (by simp)]
            have e : esc (slash :: t) = slash :: esc t := by rw [esc, if_neg (by decide), if_neg (by decide)]
            rw [e]
            have := findIdx_append (p := fun c => decide (c = slash)) (a := tilde :: esc u) (b := esc t) (c := slash)
              (by
                intro d hd
                rcases List.mem_cons.1 hd with rfl | hd
                · decide
                · simpa using esc_no_slash u hu d hd) (by simp)
            simpa using this
        rw [hslashPos]
        have huserEnd : (if r = [] then none else some ((esc u).length + 1)).getD (tilde :: esc s).length =
            (esc u).length + 1 := by
          by_cases hr0 : r = []
          · rw [if_pos hr0, hescs, hr0]; simp [esc]
          · rw [if_neg hr0]; rfl
        simp only [huserEnd]
        have htake : ((tilde :: esc s).drop 1).take ((esc u).length + 1 - 1) = esc u := by
          simp only [List.drop_succ_cons, List.drop_zero, Nat.add_sub_cancel, hescs, List.take_left]
        rw [htake]
        have hgt : (esc u).length + 1 > 1 ↔ u ≠ [] := by
          rw [show u ≠ [] ↔ esc u ≠ [] from not_congr (esc_eq_nil u).symm]
          cases esc u <;> simp
        by_cases hbad : (esc u).length + 1 > 1 ∧ ¬ userNameOk (esc u) = true
        · rw [if_pos hbad]
          refine ⟨_, rfl, ?_⟩
          rw [hmean, if_neg]
          · exact full
          · rintro (h0 | h1)
            · exact hgt.1 hbad.1 h0
            · exact hbad.2 ((userNameOk_esc u).2 h1)
        · rw [if_neg hbad]
          have hok : u = [] ∨ userNameOk u = true := by
            by_cases h0 : u = []
            · exact .inl h0
            · right
              have : userNameOk (esc u) = true := by
                by_cases hh : userNameOk (esc u) = true
                · exact hh
                · exact absurd ⟨hgt.2 h0, hh⟩ hbad
              exact (userNameOk_esc u).1 this
          have huc : ∀ c ∈ u, isUserChar c = true := by
            rcases hok with rfl | hok
            · intro c hc; cases hc
            · exact userName_chars u hok
          have heu : esc u = u := esc_id u fun c hc => ⟨(userChar_ne (huc c hc)).1, (userChar_ne (huc c hc)).2.1⟩
          rw [hmean, if_pos hok]
          rcases hr with rfl | ⟨t, rfl⟩
          · rw [if_pos rfl]
            refine ⟨_, rfl, ?_⟩
            rw [hescs, heu]
            have := shell [] [] huc (by simp) rfl
            simpa [esc] using this
          · rw [if_neg (by simp)]
            simp only
            refine ⟨_, rfl, ?_⟩
            have e : esc (slash :: t) = slash :: esc t := by rw [esc, if_neg (by decide), if_neg (by decide)]
            have htn : NoExpansion t := fun d hd => hs d (by rw [hsr]; simp [hd])
            have e1 : (tilde :: esc s).take ((esc u).length + 1 + 1) = tilde :: (u ++ [slash]) := by
              rw [hescs, heu, e]
              rw [List.take_succ_cons, show u ++ slash :: esc t = (u ++ [slash]) ++ esc t by simp,
                show u.length + 1 = (u ++ [slash]).length by simp, List.take_left]
            have e2 : (tilde :: esc s).drop ((esc u).length + 1 + 1) = esc t := by
              rw [hescs, heu, e]
              rw [List.drop_succ_cons, show u ++ slash :: esc t = (u ++ [slash]) ++ esc t by simp,
                show u.length + 1 = (u ++ [slash]).length by simp, List.drop_left]
            rw [e1, e2]
            have hv : shWord false (slash :: (dq :: esc t ++ [dq])) = some (slash :: t) := by
              rw [shWord_plain _ _ (by decide) (by decide), shWord_quoted t htn]
              rfl
            have := shell (slash :: (dq :: esc t ++ [dq])) (slash :: t) huc (by simp) hv
            simpa using this
    · have hh : (esc (c :: s)).head? ≠ some tilde := by
        simp only [esc]
        split
        · simp [bsl, tilde]
        · split
          · simp [bsl, tilde]
          · simpa using hc
      refine ⟨_, by rw [if_pos hh], ?_⟩
      rw [full]
      simp only [meaning]
      rw [if_neg (fun h => hc h.1)]

theorem shWord_esc_none (s : Str) (h : ¬ NoExpansion s) (t : Str) : shWord true (esc s ++ t) = none := by
  induction s with
  | nil => exact absurd (fun c hc => by cases hc) h
  | cons c s ih =>
    simp only [esc]
    by_cases h1 : c = bsl
    · have hs : ¬ NoExpansion s := fun hs => h fun d hd => by
        rcases List.mem_cons.1 hd with rfl | hd
        · subst h1; exact ⟨by decide, by decide⟩
        · exact hs d hd
      rw [if_pos h1]
      simp only [List.cons_append]
      rw [shWord_escaped _ _ (by decide), ih hs]; rfl
    · rw [if_neg h1]
      by_cases h2 : c = dq
      · have hs : ¬ NoExpansion s := fun hs => h fun d hd => by
          rcases List.mem_cons.1 hd with rfl | hd
          · subst h2; exact ⟨by decide, by decide⟩
          · exact hs d hd
        rw [if_pos h2]
        simp only [List.cons_append]
        rw [shWord_escaped _ _ (by decide), ih hs]; rfl
      · rw [if_neg h2]
        simp only [List.cons_append]
        by_cases h3 : c = dollar ∨ c = btick
        · exact shWord_exp _ _ h3
        · have hs : ¬ NoExpansion s := fun hs => h fun d hd => by
            rcases List.mem_cons.1 hd with rfl | hd
            · exact ⟨fun e => h3 (.inl e), fun e => h3 (.inr e)⟩
            · exact hs d hd
          rw [shWord_lit _ _ h2 h1 h3, ih hs]; rfl

theorem userChar_noExpansion {u : Str} (h : ∀ c ∈ u, isUserChar c = true) : NoExpansion u := by
  intro c hc
  have := h c hc
  constructor <;> (rintro rfl; revert this; decide)

/-- If there is a `$` or a backtick, the word handed to the shell is no literal. -/
theorem quoteForSsh_expansion (arg : Str) (h : ¬ NoExpansion arg) :
    ∃ w, quoteForSsh arg = quoteForWindows w ∧ ∀ home, shTilde home w = none := by
  unfold quoteForSsh
  simp only [escDq_escBsl]
  have full : ∀ home, shTilde home (dq :: esc arg ++ [dq]) = none := by
    intro home
    unfold shTilde
    simp only [List.cons_append]
    rw [if_neg (by decide), shWord_dq, Bool.not_false, shWord_esc_none arg h]
  cases arg with
  | nil => exact absurd (fun c hc => by cases hc) h
  | cons c s =>
    by_cases hc : c = tilde
    · subst hc
      have hs : ¬ NoExpansion s := fun hs => h fun d hd => by
        rcases List.mem_cons.1 hd with rfl | hd
        · exact ⟨by decide, by decide⟩
        · exact hs d hd
      have hesc : esc (tilde :: s) = tilde :: esc s := by rw [esc, if_neg (by decide), if_neg (by decide)]
      rw [hesc] at full ⊢
      rw [if_neg (by simp)]
      obtain ⟨u, r, hsr, hu, hr, htw⟩ := split_slash s
      have hescs : esc s = esc u ++ esc r := by rw [hsr, esc_append]
      have hsimple : ¬ (tilde :: esc s = [tilde] ∨ tilde :: esc s = [tilde, slash]) := by
        rintro (hh | hh)
        · have : s = [] := (esc_eq_nil s).1 (List.cons.inj hh).2
          subst this
          exact hs fun c hc => by cases hc
        · have hh := (List.cons.inj hh).2
          have : s = [slash] := by
            cases s with
            | nil => cases hh
            | cons d s =>
              simp only [esc] at hh
              split at hh
              · simp [bsl, slash] at hh
              · split at hh
                · simp [bsl, slash] at hh
                · obtain ⟨rfl, h2⟩ := List.cons.inj hh
                  rw [(esc_eq_nil s).1 h2]
          subst this
          exact hs fun c hc => by
            rw [List.mem_singleton] at hc; subst hc; exact ⟨by decide, by decide⟩
      rw [if_neg hsimple]
      have hslashPos : (tilde :: esc s).findIdx? (· = slash) =
          if r = [] then none else some ((esc u).length + 1) := by
        rw [hescs]
        rcases hr with rfl | ⟨t, rfl⟩
        · rw [if_pos rfl]
          apply findIdx_none
          intro d hd
          simp only [esc, List.append_nil, List.mem_cons] at hd
          rcases hd with rfl | hd
          · decide
          · simpa using esc_no_slash u hu d hd
        · rw [if_neg (by simp)]
          have e : esc (slash :: t) = slash :: esc t := by rw [esc, if_neg (by decide), if_neg (by decide)]
          rw [e]
          have := findIdx_append (p := fun c => decide (c = slash)) (a := tilde :: esc u) (b := esc t) (c := slash)
            (by
              intro d hd
              rcases List.mem_cons.1 hd with rfl | hd
              · decide
              · simpa using esc_no_slash u hu d hd) (by simp)
          simpa using this
      rw [hslashPos]
      have huserEnd : (if r = [] then none else some ((esc u).length + 1)).getD (tilde :: esc s).length =
          (esc u).length + 1 := by
        by_cases hr0 : r = []
        · rw [if_pos hr0, hescs, hr0]; simp [esc]
        · rw [if_neg hr0]; rfl
      simp only [huserEnd]
      have htake : ((tilde :: esc s).drop 1).take ((esc u).length + 1 - 1) = esc u := by
        simp only [List.drop_succ_cons, List.drop_zero, Nat.add_sub_cancel, hescs, List.take_left]
      rw [htake]
      have hgt : (esc u).length + 1 > 1 ↔ u ≠ [] := by
        rw [show u ≠ [] ↔ esc u ≠ [] from not_congr (esc_eq_nil u).symm]
        cases esc u <;> simp
      by_cases hbad : (esc u).length + 1 > 1 ∧ ¬ userNameOk (esc u) = true
      · rw [if_pos hbad]
        exact ⟨_, rfl, full⟩
      · rw [if_neg hbad]
        have huc : ∀ c ∈ u, isUserChar c = true := by
          by_cases h0 : u = []
          · intro c hc; rw [h0] at hc; cases hc
          · have : userNameOk (esc u) = true := by
              by_cases hh : userNameOk (esc u) = true
              · exact hh
              · exact absurd ⟨hgt.2 h0, hh⟩ hbad
            exact userName_chars u ((userNameOk_esc u).1 this)
        have heu : esc u = u := esc_id u fun c hc => ⟨(userChar_ne (huc c hc)).1, (userChar_ne (huc c hc)).2.1⟩
        have hun : NoExpansion u := userChar_noExpansion huc
        rcases hr with rfl | ⟨t, rfl⟩
        · exact absurd (by rw [hsr, List.append_nil]; exact hun) hs
        · rw [if_neg (by simp)]
          simp only
          refine ⟨_, rfl, ?_⟩
          intro home
          have e : esc (slash :: t) = slash :: esc t := by rw [esc, if_neg (by decide), if_neg (by decide)]
          have htn : ¬ NoExpansion t := fun ht => hs fun d hd => by
            rw [hsr] at hd
            rcases List.mem_append.1 hd with hd | hd
            · exact hun d hd
            · rcases List.mem_cons.1 hd with rfl | hd
              · exact ⟨by decide, by decide⟩
              · exact ht d hd
          have e1 : (tilde :: esc s).take ((esc u).length + 1 + 1) = tilde :: (u ++ [slash]) := by
            rw [hescs, heu, e]
            rw [List.take_succ_cons, show u ++ slash :: esc t = (u ++ [slash]) ++ esc t by simp,
              show u.length + 1 = (u ++ [slash]).length by simp, List.take_left]
          have e2 : (tilde :: esc s).drop ((esc u).length + 1 + 1) = esc t := by
            rw [hescs, heu, e]
            rw [List.drop_succ_cons, show u ++ slash :: esc t = (u ++ [slash]) ++ esc t by simp,
              show u.length + 1 = (u ++ [slash]).length by simp, List.drop_left]
          rw [e1, e2]
          have hv : shWord false (slash :: (dq :: esc t ++ [dq])) = none := by
            rw [shWord_plain _ _ (by decide) (by decide), List.cons_append, shWord_dq, Bool.not_false,
              shWord_esc_none t htn]
            rfl
          have e3 : tilde :: (u ++ [slash]) ++ dq :: esc t ++ [dq] = tilde :: (u ++ slash :: (dq :: esc t ++ [dq])) := by
            simp
          rw [e3]
          unfold shTilde
          simp only
          rw [if_pos trivial]
          have e4 : (u ++ slash :: (dq :: esc t ++ [dq])).takeWhile (· ≠ slash) = u :=
            takeWhile_all (fun c hc => by simpa using (userChar_ne (huc c hc)).2.2)
              (fun d hd => by simp at hd; simp [hd])
          simp only [e4]
          rw [if_pos (by rw [List.all_eq_true]; exact fun c hc => isUserChar_plain (huc c hc)), List.drop_left, hv]
          rfl
    · have hh : (esc (c :: s)).head? ≠ some tilde := by
        simp only [esc]
        split
        · simp [bsl, tilde]
        · split
          · simp [bsl, tilde]
          · simpa using hc
      exact ⟨_, by rw [if_pos hh], full⟩

/-! ## Theorems -/

/-- C45: a program that follows the Microsoft rules gets back exactly the argument that was quoted, whether the command
line ends there or goes on with a space. -/
theorem C45_windows_roundtrip (argument rest : Str) (hr : rest = [] ∨ rest.head? = some 32) :
    firstArg (quoteForWindows argument ++ rest) = (argument, rest) := by
  rw [firstArg_quoted _ _ (by rcases hr with rfl | hr; · simp
                              · rw [hr]; decide)]
  rcases hr with rfl | hr
  · simp [msArg_nil, bsls]
  · cases rest with
    | nil => cases hr
    | cons c r =>
      simp only [List.head?_cons, Option.some.injEq] at hr
      subst hr
      rw [msArg_space]
      simp [bsls]

/-- C93: an argument without `$` and backtick, quoted for ssh, arrives at the remote program unchanged, up to the
documented home directories, after the Microsoft parser and the remote shell. (Missing: `$` and backtick,
`C93_expansion_violated`.) -/
theorem C93_ssh_roundtrip_partial (home : Str → Str) (argument rest : Str) (hr : rest = [] ∨ rest.head? = some 32)
    (h : NoExpansion argument) :
    ∃ w, firstArg (quoteForSsh argument ++ rest) = (w, rest) ∧ shTilde home w = some (meaning home argument) := by
  obtain ⟨w, h1, h2⟩ := quoteForSsh_word home argument h
  exact ⟨w, by rw [h1]; exact C45_windows_roundtrip w rest hr, h2⟩

/-- C93: arguments that do not begin with `~` mean themselves. -/
theorem C93_ssh_literal_partial (argument rest : Str) (hr : rest = [] ∨ rest.head? = some 32)
    (h : NoExpansion argument) (ht : argument.head? ≠ some tilde) :
    ∃ w, firstArg (quoteForSsh argument ++ rest) = (w, rest) ∧ ∀ home, shTilde home w = some argument := by
  obtain ⟨w, h1, h2⟩ := C93_ssh_roundtrip_partial (fun _ => []) argument rest hr h
  refine ⟨w, h1, ?_⟩
  intro home
  obtain ⟨w', h1', h2'⟩ := C93_ssh_roundtrip_partial home argument rest hr h
  have : w' = w := by rw [h1] at h1'; exact (Prod.mk.inj h1').1.symm
  rw [← this, h2']
  congr 1
  cases argument with
  | nil => rfl
  | cons c s =>
    simp only [meaning]
    rw [if_neg]
    rintro ⟨rfl, _⟩
    simp at ht

/-- C93, exactly: an argument quoted for ssh denotes what it should after the Microsoft parser and the remote shell if
and only if there is no `$` and no backtick in it; otherwise the shell reads the word as one with an expansion, wherever
in the argument the character is. -/
theorem C93_ssh_exactly (argument rest : Str) (hr : rest = [] ∨ rest.head? = some 32) :
    ∃ w, firstArg (quoteForSsh argument ++ rest) = (w, rest) ∧
      (∀ home, shTilde home w = some (meaning home argument) ↔ (dollar ∉ argument ∧ btick ∉ argument)) ∧
      (∀ home, shTilde home w = none ↔ (dollar ∈ argument ∨ btick ∈ argument)) := by
  have hd : NoExpansion argument ↔ (dollar ∉ argument ∧ btick ∉ argument) := by
    constructor
    · intro h; exact ⟨fun hm => (h _ hm).1 rfl, fun hm => (h _ hm).2 rfl⟩
    · rintro ⟨h1, h2⟩ c hc
      exact ⟨fun e => h1 (e ▸ hc), fun e => h2 (e ▸ hc)⟩
  have hd' : ¬ NoExpansion argument ↔ (dollar ∈ argument ∨ btick ∈ argument) := by
    rw [hd]
    by_cases h1 : dollar ∈ argument <;> by_cases h2 : btick ∈ argument <;> simp [h1, h2]
  by_cases h : NoExpansion argument
  · obtain ⟨w, h1, _⟩ := C93_ssh_roundtrip_partial (fun _ => []) argument rest hr h
    have hw : ∀ home, shTilde home w = some (meaning home argument) := by
      intro home
      obtain ⟨w', h1', h2'⟩ := C93_ssh_roundtrip_partial home argument rest hr h
      have : w' = w := by rw [h1] at h1'; exact (Prod.mk.inj h1').1.symm
      rw [← this, h2']
    refine ⟨w, h1, fun home => ⟨fun _ => hd.1 h, fun _ => hw home⟩, fun home => ⟨fun hn => ?_, fun hn => ?_⟩⟩
    · rw [hw home] at hn; cases hn
    · exact absurd h (hd'.2 hn)
  · obtain ⟨w, h1, h2⟩ := quoteForSsh_expansion argument h
    refine ⟨w, by rw [h1]; exact C45_windows_roundtrip w rest hr, fun home => ⟨fun hn => ?_, fun hn => ?_⟩,
      fun home => ⟨fun _ => hd'.1 h, fun _ => h2 home⟩⟩
    · rw [h2 home] at hn; cases hn
    · exact absurd (hd.2 hn) h

/-- Both cases occur: the argument `~user/a b`, and `~user/$x` with the `$` behind a home directory. -/
example : (dollar ∉ [tilde, 117, slash, 97, 32, 98] ∧ btick ∉ [tilde, 117, slash, 97, 32, 98]) ∧
    dollar ∈ [tilde, 117, slash, dollar, 120] := by decide

/-- C93 is violated for arguments with `$`: the remote shell sees an expansion. Every argument that begins with `$`, for
example `$HOME` or `$(reboot)`. -/
theorem C93_expansion_violated (s : Str) :
    ∃ w, firstArg (quoteForSsh (dollar :: s)) = (w, []) ∧ w.head? = some dq ∧ w.tail.head? = some dollar ∧
      ∀ home, shTilde home w = none := by
  refine ⟨dq :: esc (dollar :: s) ++ [dq], ?_, by simp, by simp [esc, dollar, bsl, dq], ?_⟩
  · have : quoteForSsh (dollar :: s) = quoteForWindows (dq :: esc (dollar :: s) ++ [dq]) := by
      unfold quoteForSsh
      simp only [escDq_escBsl]
      rw [if_pos (by simp [esc, dollar, bsl, dq, tilde])]
    rw [this]
    simpa using C45_windows_roundtrip (dq :: esc (dollar :: s) ++ [dq]) [] (.inl rfl)
  · intro home
    unfold shTilde
    simp only [List.cons_append]
    rw [if_neg (by decide), shWord_dq, Bool.not_false]
    have : esc (dollar :: s) = dollar :: esc s := by rw [esc, if_neg (by decide), if_neg (by decide)]
    rw [this, List.cons_append, shWord_exp _ _ (.inl rfl)]

/-- The examples of the documentation: foo\\"bar and ~user/foo (common/remote_util.h:138, 152). -/
theorem C45_example :
    quoteForWindows [102, 111, 111, 92, 92, 34, 98, 97, 114] =
      [34, 102, 111, 111, 92, 92, 92, 92, 92, 34, 98, 97, 114, 34] ∧
    quoteForSsh [126, 117, 115, 101, 114, 47, 102, 111, 111] =
      [34, 126, 117, 115, 101, 114, 47, 92, 34, 102, 111, 111, 92, 34, 34] ∧
    NoExpansion [126, 117, 115, 101, 114, 47, 102, 111, 111] := by
  refine ⟨by decide, by decide, ?_⟩
  intro c hc
  revert c
  decide

end Verif.Text.Quote
