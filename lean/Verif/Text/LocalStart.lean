import Verif.Text.CommandLine

/-!
# C217: a server on this machine gets the description of the client's files

For a sync without a host the client starts `cdc_rsync_server` beside its own program (cdc_rsync/cdc_rsync_client.cc:222-231),
with the description of the server it expects as arguments (common/gamelet_component.cc:76-85). The server goes on only if the
description is right (cdc_rsync_server/main.cc:62-86).
-/
namespace Verif.Text.LocalStart

open Verif.Text.Quote
open Verif.Text.Params (str)
open Verif.Text.CommandLine (Args blank Word)
open Verif.Text.Components (Component Good toArgs toArgs_cons wordsOf fromArgv one dec decInt stol upToDate get File)

/-! ## Model -/

/-- `start_info.command` of a local sync, cdc_rsync_client.cc:229-230 (`%s %s`): `exe` is the full path of the server, in the
directory of the client's program. -/
def localCommand (exe : Str) (cs : List Component) : Str := exe ++ 32 :: toArgs cs

/-- How `main` of the server begins, cdc_rsync_server/main.cc:62-86. -/
inductive Begin
  /-- `argc < 5`: help is printed, exit code `kServerExitCodeGenericStartup` -/
  | usage
  /-- `std::stol` throws and nobody catches it -/
  | terminated
  /-- `kServerExitCodeOutOfDate` -/
  | outOfDate
  | runs
deriving DecidableEq

/-- `main`, cdc_rsync_server/main.cc:62-86: `argv` with the name of the program, `L` the range of `long`, the version compiled into
the server and the files beside it. -/
def serverMain (L : Nat) (version : Str) (files : List (Str × Option File)) (argv : List Str) : Begin :=
  if argv.length < 5 then .usage
  else match fromArgv L (argv.drop 1) with
    | none => .terminated
    | some cs => if upToDate cs version files then .runs else .outOfDate

/-! ## Proof -/

theorem word_decInt (i : Int) : Word (decInt i) := by
  rw [decInt]
  split
  · refine ⟨by simp, fun c hc => ?_⟩
    rcases List.mem_cons.1 hc with rfl | hc
    · decide
    · exact (CommandLine.word_dec _).2 c hc
  · exact CommandLine.word_dec _

/-- A word and what follows it. -/
theorem word_then {w rest : Str} {ws : List Str} (h : Word w) (ha : Args rest ws) : Args (w ++ 32 :: rest) (w :: ws) :=
  h.args (.inr rfl) (ha.blank 32 (by decide))

theorem args_nil : Args [] [] := .none [] rfl

theorem one_args (c : Component) (hv : Word c.version) (hf : Word c.filename) {rest : Str} {ws : List Str}
    (hr : rest = [] ∨ rest.head? = some 32) (ha : Args rest ws) :
    Args (one c ++ rest) (c.version :: c.filename :: dec c.size :: decInt c.mtime :: ws) := by
  have := word_then hv (word_then hf (word_then (CommandLine.word_dec c.size) ((word_decInt c.mtime).args hr ha)))
  simpa [one] using this

theorem toArgs_args (cs : List Component) (h : ∀ c ∈ cs, Word c.version ∧ Word c.filename) : Args (toArgs cs) (wordsOf cs) := by
  induction cs with
  | nil => exact args_nil
  | cons c cs ih =>
    obtain ⟨hv, hf⟩ := h c (by simp)
    have ih := ih fun d hd => h d (by simp [hd])
    rw [toArgs_cons]
    by_cases hc : cs = []
    · subst hc
      have := one_args c hv hf (.inl rfl) args_nil
      simpa [wordsOf] using this
    · rw [if_neg hc]
      have := one_args c hv hf (rest := 32 :: toArgs cs) (.inr rfl) (ih.blank 32 (by decide))
      simpa [wordsOf] using this

theorem wordsOf_length (cs : List Component) : (wordsOf cs).length = 4 * cs.length := by
  induction cs with
  | nil => rfl
  | cons c cs ih =>
    have : wordsOf (c :: cs) = c.version :: c.filename :: dec c.size :: decInt c.mtime :: wordsOf cs := rfl
    rw [this]; simp [ih]; omega

/-! ## Theorems -/

/-- C217: if neither the path of the server nor the names and versions have blanks or quotes in them, then the server takes its
arguments for exactly the description the client has given, and it runs if and only if that is right. Missing: paths with blanks,
see `C217_blank_violated`. -/
theorem C217_description_partial (L : Nat) (hL : L ≤ 2 ^ 64) (exe : Str) (he : Word exe) (cs : List Component) (hne : cs ≠ [])
    (hw : ∀ c ∈ cs, Word c.version ∧ Word c.filename) (hr : ∀ c ∈ cs, c.size < L ∧ -(L : Int) ≤ c.mtime ∧ c.mtime < L)
    (version : Str) (files : List (Str × Option File)) (argv : List Str) (ha : Args (localCommand exe cs) argv) :
    argv.head? = some exe ∧ fromArgv L (argv.drop 1) = some cs ∧
    serverMain L version files argv = if upToDate cs version files then .runs else .outOfDate := by
  have h := word_then he (toArgs_args cs hw)
  have e : argv = exe :: wordsOf cs := ha.unique h
  subst e
  have hf := Components.fromArgv_wordsOf L hL cs hr
  have hl : 1 ≤ cs.length := by
    cases cs with
    | nil => exact absurd rfl hne
    | cons _ _ => simp
  refine ⟨rfl, hf, ?_⟩
  rw [serverMain, if_neg (by simp only [List.length_cons, wordsOf_length]; omega)]
  simp [hf]

/-- C217: a server of the client's own release, whose file is the one the client has looked at, runs. -/
theorem C217_own_server_partial (L : Nat) (hL : L ≤ 2 ^ 64) (exe name version : Str) (he : Word exe) (hn : Word name)
    (hv : Word version) (f : File) (hs : f.data.length < L) (ht : -(L : Int) ≤ f.mtime ∧ f.mtime < L) (cs : List Component)
    (hc : get version [(name, some f)] = some cs) (argv : List Str) (ha : Args (localCommand exe cs) argv) :
    serverMain L version [(name, some f)] argv = .runs := by
  simp only [Components.get, Option.map_some, Option.some.injEq] at hc
  subst hc
  have := (C217_description_partial L hL exe he [⟨version, name, f.data.length, f.mtime⟩] (by simp)
    (by intro c hc; simp only [List.mem_singleton] at hc; subst hc; exact ⟨hv, hn⟩)
    (by intro c hc; simp only [List.mem_singleton] at hc; subst hc; exact ⟨hs, ht⟩) version [(name, some f)] argv ha).2.2
  rw [this, if_pos]
  simp [upToDate, Components.get, Components.sameAll, Components.same]

/-- C217, violated: the path of the server is not quoted. If there is a space in it, as in `C:\Program Files\...`, then the server -
which Windows finds nevertheless - takes the second half of its own path for the version, the version for the name and the name for
the size; the name of the server is no number, so it ends by an exception, although its file is exactly the one the client has
described: no local sync works from such a directory. -/
theorem C217_blank_violated (L : Nat) (a b name version : Str) (ha : Word a) (hb : Word b) (hn : Word name) (hv : Word version)
    (hd : ∀ c, name.head? = some c → Flags.isDigit c = false ∧ Flags.isSpace c = false ∧ c ≠ 45 ∧ c ≠ 43)
    (f : File) (cs : List Component) (hc : get version [(name, some f)] = some cs) (argv : List Str)
    (h : Args (localCommand (a ++ 32 :: b) cs) argv) :
    argv = [a, b, version, name, dec f.data.length, decInt f.mtime] ∧
    serverMain L version [(name, some f)] argv = .terminated := by
  simp only [Components.get, Option.map_some, Option.some.injEq] at hc
  subst hc
  have h1 : Args (localCommand (a ++ 32 :: b) [⟨version, name, f.data.length, f.mtime⟩])
      [a, b, version, name, dec f.data.length, decInt f.mtime] := by
    have := word_then ha (word_then hb (toArgs_args [⟨version, name, f.data.length, f.mtime⟩] (by
      intro c hc; simp only [List.mem_singleton] at hc; subst hc; exact ⟨hv, hn⟩)))
    simpa [localCommand, wordsOf] using this
  have e := h.unique h1
  subst e
  refine ⟨rfl, ?_⟩
  have hs : stol L name = none := by
    cases name with
    | nil => exact absurd rfl hn.1
    | cons c t =>
      obtain ⟨h1, h2, h3, h4⟩ := hd c rfl
      have hsg : Components.sign (c :: t) = (false, c :: t) := by
        unfold Components.sign
        split
        · rename_i e; simp only [List.cons.injEq] at e; exact absurd e.1 h3
        · rename_i e; simp only [List.cons.injEq] at e; exact absurd e.1 h4
        · rfl
      simp only [stol, List.dropWhile_cons, h2, Bool.false_eq_true, if_false, hsg]
      simp [h1]
  simp [serverMain, fromArgv, hs]

/-- The hypotheses of `C217_description_partial` and `C217_own_server_partial` are met by a server in `C:\cdc`. -/
theorem C217_example : Word (str "C:\\cdc\\cdc_rsync_server.exe") ∧ Word (str "cdc_rsync_server.exe") ∧ Word (str "v1.2") ∧
    (∃ argv, Args (localCommand (str "C:\\cdc\\cdc_rsync_server.exe") [⟨str "v1.2", str "cdc_rsync_server.exe", 2, -3⟩]) argv) ∧
    serverMain (2 ^ 31) (str "v1.2") [(str "cdc_rsync_server.exe", some ⟨[1, 2], -3⟩)]
      [str "C:\\cdc\\cdc_rsync_server.exe", str "v1.2", str "cdc_rsync_server.exe", str "2", str "-3"] = .runs := by
  have h1 : Word (str "C:\\cdc\\cdc_rsync_server.exe") := CommandLine.word_of _ (by decide +kernel)
  have h2 : Word (str "cdc_rsync_server.exe") := CommandLine.word_of _ (by decide +kernel)
  have h3 : Word (str "v1.2") := CommandLine.word_of _ (by decide +kernel)
  refine ⟨h1, h2, h3, ⟨_, word_then h1 (toArgs_args _ ?_)⟩, by decide +kernel⟩
  intro c hc; simp only [List.mem_singleton] at hc; subst hc; exact ⟨h3, h2⟩

/-- The hypotheses of `C217_blank_violated` are met by `C:\Program Files`. -/
theorem C217_blank_example : Word (str "C:\\Program") ∧ Word (str "Files\\cdc_rsync_server.exe") ∧
    (∀ c, (str "cdc_rsync_server.exe").head? = some c →
      Flags.isDigit c = false ∧ Flags.isSpace c = false ∧ c ≠ 45 ∧ c ≠ 43) := by
  refine ⟨CommandLine.word_of _ (by decide +kernel), CommandLine.word_of _ (by decide +kernel), fun c hc => ?_⟩
  have : (str "cdc_rsync_server.exe").head? = some 99 := by decide +kernel
  rw [this] at hc
  simp only [Option.some.injEq] at hc
  subst hc
  decide

end Verif.Text.LocalStart
