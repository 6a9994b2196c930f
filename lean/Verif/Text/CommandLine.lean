import Verif.Text.Quote
import Verif.Text.Path
import Verif.Text.Components
import Verif.Text.Params

/-!
# C163-C166: the command lines of ssh, sftp and scp (common/remote_util.cc)

The programs are started by a command line, one string. What counts is the list of arguments the program gets when it
splits that string, and what it takes these arguments for.
-/
namespace Verif.Text.CommandLine

open Verif.Text.Quote
open Verif.Text.Params (str lower)
open Verif.Text.Components (dec dec_spec)
open Verif.Text.Flags (IsNumber isDigit)

/-! ## Specification: splitting a command line and reading the arguments -/

/-- A space or a tab. -/
def blank (c : UInt8) : Bool := c = 32 || c = 9

/-- The arguments of a command line: blanks are skipped, then one argument is read by the Microsoft rules (`firstArg`),
and so on up to the end. -/
inductive Args : Str → List Str → Prop
  | none (s : Str) : s.dropWhile blank = [] → Args s []
  | some (s : Str) (ws : List Str) : s.dropWhile blank ≠ [] → Args (firstArg (s.dropWhile blank)).2 ws →
      Args s ((firstArg (s.dropWhile blank)).1 :: ws)

/-- A command given by the user, such as `ssh` or `"C:\Program Files\ssh.exe" -F cfg`: it stands for the arguments `ws`,
whatever comes after it and a space. -/
def Whole (c : Str) (ws : List Str) : Prop := ∀ rest ws', Args rest ws' → Args (c ++ 32 :: rest) (ws ++ ws')

/-- The host an OpenSSH program connects to: the first argument that is not an option, that is, does not begin with `-`;
after `--` the next one, whatever it is. (None of the options used here takes its value from the next argument, except
`-b` of sftp.) -/
def destination : List Str → Option Str
  | [] => none
  | a :: as =>
    if a = str "--" then as.head?
    else if a = str "-b" then destination as.tail
    else if a.head? = some 45 then destination as
    else some a
termination_by l => l.length

/-- scp takes a file argument for a remote one if there is a colon in it, not at the beginning and before any slash. -/
def remoteFile (s : Str) : Bool :=
  s.head? ≠ some 58 && (s.dropWhile fun c => c ≠ 58 && c ≠ 47).head? = some 58

/-! ## Model -/

inductive Arch | windows | linux
deriving DecidableEq

/-- The members of `RemoteUtil` the commands depend on; `brief` is `quiet_ || verbosity_ < 2`. -/
structure Util where
  userHost : Str
  sshCommand : Str
  sftpCommand : Str
  scpCommand : Str
  brief : Bool

/-- `cond ? "-x" : ""`. -/
def opt (b : Bool) (w : Str) : Str := if b then w else []

/-- `GetPortForwardingArg`, remote_util.cc:30-35. -/
def forwardArg (localPort remotePort : Nat) (reverse : Bool) : Str :=
  if reverse then str "-R" ++ dec remotePort ++ str ":localhost:" ++ dec localPort ++ [32]
  else str "-L" ++ dec localPort ++ str ":localhost:" ++ dec remotePort ++ [32]

/-- `GetFlagsForArch`, remote_util.cc:37-51. -/
def archFlag : Arch → Str
  | .windows => str "-T"
  | .linux => str "-tt"

/-- `BuildProcessStartInfoForSshInternal`, remote_util.cc:222-237. -/
def sshInternal (u : Util) (fwd remote : Str) (arch : Arch) : Str :=
  u.sshCommand ++ 32 :: (archFlag arch ++ 32 :: (opt u.brief (str "-q") ++ 32 :: (fwd ++ 32 ::
    (str "-oServerAliveCountMax=6" ++ 32 :: (str "-oServerAliveInterval=5" ++ 32 ::
      (quoteForWindows u.userHost ++ 32 :: remote))))))

/-- `BuildProcessStartInfoForSsh`, remote_util.cc:194-198. -/
def ssh (u : Util) (command : Str) (arch : Arch) : Str := sshInternal u [] (str "-- " ++ command) arch

/-- `BuildProcessStartInfoForSshPortForward`, remote_util.cc:200-212. -/
def sshForward (u : Util) (localPort remotePort : Nat) (reverse : Bool) : Str :=
  sshInternal u (forwardArg localPort remotePort reverse ++ str "-n ") [] .linux

/-- `BuildProcessStartInfoForSshPortForwardAndCommand`, remote_util.cc:214-220. -/
def sshForwardAndCommand (u : Util) (localPort remotePort : Nat) (reverse : Bool) (command : Str) (arch : Arch) : Str :=
  sshInternal u (forwardArg localPort remotePort reverse) (str "-- " ++ command) arch

/-- The command of `Sftp`, remote_util.cc:133-136. -/
def sftp (u : Util) (compress : Bool) (cmdPath : Str) : Str :=
  u.sftpCommand ++ 32 :: (opt u.brief (str "-q") ++ 32 :: (opt compress (str "-C") ++ 32 :: (str "-p" ++ 32 ::
    (str "-b" ++ 32 :: (quoteForWindows cmdPath ++ 32 :: quoteForWindows u.userHost)))))

/-- One source of `Scp`, remote_util.cc:98-103. -/
def source (s : Str) : Str := if (Path.drivePrefix s).contains 58 then str "//./" ++ s else s

/-- The command of `Scp`, remote_util.cc:96-113. -/
def scp (u : Util) (compress : Bool) (sources : List Str) (dest : Str) : Str :=
  u.scpCommand ++ 32 :: (opt u.brief (str "-q") ++ 32 :: (opt compress (str "-C") ++ 32 :: (str "-p" ++ 32 ::
    (str "-T" ++ 32 :: ((sources.flatMap fun s => quoteForWindows (source s) ++ [32]) ++ 32 ::
      (quoteForWindows u.userHost ++ 58 :: quoteForWindows dest))))))

/-- The remote command of `Chmod`, remote_util.cc:151-153. -/
def chmodCommand (mode path : Str) (quiet : Bool) : Str :=
  str "chmod" ++ 32 :: (quoteForSsh mode ++ 32 :: (quoteForSsh path ++ 32 :: opt quiet (str "-f")))

/-- The search of `ScpToSftpCommand`, remote_util.cc:77-94: `rest` is the command from the current position on, `done`
what comes before it. `next_ch == 0` is the end of the string or a byte 0. -/
def scpToSftp (done : Str) : Str → Str
  | [] => []
  | c :: rest =>
    if ((c :: rest).map lower).take 3 = str "scp" ∧
        (rest.drop 2 = [] ∨ rest[2]? = some 0 ∨ rest[2]? = some 46 ∨ rest[2]? = some 32) then
      done ++ str "sftp" ++ rest.drop 2
    else scpToSftp (done ++ [c]) rest

/-! ## Splitting -/

theorem Args.unique {s : Str} {ws ws' : List Str} (h : Args s ws) (h' : Args s ws') : ws = ws' := by
  induction h generalizing ws' with
  | none s hs =>
    cases h' with
    | none => rfl
    | some _ _ hn => exact absurd hs hn
  | some s ws hn _ ih =>
    cases h' with
    | none _ hs => exact absurd hs hn
    | some _ ws2 _ h2 => rw [ih h2]

theorem Args.blank {s : Str} {ws : List Str} (c : UInt8) (hc : blank c = true) (h : Args s ws) : Args (c :: s) ws := by
  have e : (c :: s).dropWhile CommandLine.blank = s.dropWhile CommandLine.blank := by simp [List.dropWhile, hc]
  cases h with
  | none _ hs => exact .none _ (by rw [e]; exact hs)
  | some _ ws hn ht =>
    have := Args.some (c :: s) ws (by rw [e]; exact hn) (by rw [e]; exact ht)
    rw [e] at this
    exact this

theorem Args.first {s rest a : Str} {ws : List Str} (h1 : s ≠ []) (h2 : ∀ c, s.head? = .some c → CommandLine.blank c = false)
    (h3 : firstArg s = (a, rest)) (h4 : Args rest ws) : Args s (a :: ws) := by
  have e : s.dropWhile CommandLine.blank = s := by
    cases s with
    | nil => rfl
    | cons c s => simp [List.dropWhile, h2 c rfl]
  have := Args.some s ws (by rw [e]; exact h1) (by rw [e, h3]; exact h4)
  rw [e, h3] at this
  exact this

/-- Nothing special in it. -/
def Word (w : Str) : Prop := w ≠ [] ∧ ∀ c ∈ w, blank c = false ∧ c ≠ dq

theorem msArg_word (w rest : Str) (h : ∀ c ∈ w, blank c = false ∧ c ≠ dq) : ∀ (n : Nat) (acc : Str),
    rest = [] ∨ rest.head? = some 32 → msArg false n acc (w ++ rest) = (acc ++ bsls n ++ w, rest) := by
  induction w with
  | nil =>
    intro n acc hr
    rcases hr with rfl | hr
    · simp [msArg_nil]
    · cases rest with
      | nil => cases hr
      | cons c r =>
        simp only [List.head?_cons, Option.some.injEq] at hr
        subst hr
        rw [List.nil_append, msArg_space]; simp
  | cons c w ih =>
    intro n acc hr
    have ih := ih fun d hd => h d (by simp [hd])
    obtain ⟨hb, hq⟩ := h c (by simp)
    rw [List.cons_append]
    by_cases hs : c = bsl
    · subst hs
      rw [msArg_bsl, ih _ _ hr, bsls_succ']; simp
    · rw [msArg.eq_def]
      dsimp only
      rw [if_neg hs, if_neg hq, if_neg (by simp [blank] at hb; simp [hb]), ih _ _ hr]
      simp [bsls]

theorem Word.args {w rest : Str} {ws : List Str} (h : Word w) (hr : rest = [] ∨ rest.head? = some 32) (ha : Args rest ws) :
    Args (w ++ rest) (w :: ws) := by
  refine .first ?_ ?_ (a := w) (rest := rest) ?_ ha
  · simp [h.1]
  · intro c hc
    cases w with
    | nil => exact absurd rfl h.1
    | cons d w => simp at hc; subst hc; exact (h.2 _ (by simp)).1
  · have := msArg_word w rest h.2 0 [] hr
    simpa [firstArg, bsls] using this

theorem quoted_args {a rest : Str} {ws : List Str} (hr : rest = [] ∨ rest.head? = some 32) (ha : Args rest ws) :
    Args (quoteForWindows a ++ rest) (a :: ws) := by
  refine .first ?_ ?_ (C45_windows_roundtrip a rest hr) ha
  · simp [quoteForWindows]
  · intro c hc
    simp [quoteForWindows] at hc
    subst hc; decide

theorem whole_nil : Whole [] [] := fun _ _ h => h.blank 32 (by decide)
theorem whole_word {w : Str} (h : Word w) : Whole w [w] := fun _ _ ha => h.args (.inr rfl) (ha.blank 32 (by decide))
theorem whole_quoted (a : Str) : Whole (quoteForWindows a) [a] := fun _ _ ha => quoted_args (.inr rfl) (ha.blank 32 (by decide))

theorem Whole.snoc {c c' : Str} {ws ws' : List Str} (h : Whole c ws) (h' : Whole c' ws') :
    Whole (c ++ 32 :: c') (ws ++ ws') := fun rest r ha => by
  have := h _ _ (h' _ _ ha)
  simpa using this

theorem Whole.space {c : Str} {ws : List Str} (h : Whole c ws) : Whole (c ++ [32]) ws := fun rest r ha => by
  have := h _ _ (ha.blank 32 (by decide))
  simpa using this

theorem whole_opt (b : Bool) {w : Str} (h : Word w) : Whole (opt b w) (if b then [w] else []) := by
  cases b
  · exact whole_nil
  · exact whole_word h

theorem word_of (w : Str) (h : (w ≠ [] ∧ w.all fun c => !blank c && c != dq) = true) : Word w := by
  simp only [eq_iff_iff, iff_true] at h
  refine ⟨h.1, fun c hc => ?_⟩
  have := List.all_eq_true.1 h.2 c hc
  simpa using this

theorem word_append {a b : Str} (ha : Word a) (hb : Word b) : Word (a ++ b) :=
  ⟨by simp [ha.1], fun c hc => (List.mem_append.1 hc).elim (ha.2 c) (hb.2 c)⟩

theorem word_dec (n : Nat) : Word (dec n) := by
  obtain ⟨⟨h1, h2⟩, -⟩ := dec_spec n
  refine ⟨h1, fun c hc => ?_⟩
  have key : ∀ x : Fin 256, isDigit (UInt8.ofNat x.1) = true → blank (UInt8.ofNat x.1) = false ∧ UInt8.ofNat x.1 ≠ dq := by
    decide +kernel
  have := key ⟨c.toNat, UInt8.toNat_lt c⟩
  simp only [UInt8.ofNat_toNat] at this
  exact this (h2 c hc)

theorem whole_arch (a : Arch) : Whole (archFlag a) [archFlag a] := by
  cases a <;> exact whole_word (word_of _ (by decide +kernel))

/-! ## ssh -/

/-- The argument that forwards a port. -/
def forwardWord (localPort remotePort : Nat) (reverse : Bool) : Str :=
  if reverse then str "-R" ++ dec remotePort ++ str ":localhost:" ++ dec localPort
  else str "-L" ++ dec localPort ++ str ":localhost:" ++ dec remotePort

theorem word_forward (l r : Nat) (b : Bool) : Word (forwardWord l r b) := by
  cases b
  · exact word_append (word_append (word_append (word_of _ (by decide +kernel)) (word_dec _))
      (word_of _ (by decide +kernel))) (word_dec _)
  · exact word_append (word_append (word_append (word_of _ (by decide +kernel)) (word_dec _))
      (word_of _ (by decide +kernel))) (word_dec _)

theorem forwardArg_eq (l r : Nat) (b : Bool) : forwardArg l r b = forwardWord l r b ++ [32] := by
  cases b <;> simp [forwardArg, forwardWord]

/-- The options of ssh before the host: no terminal for Windows, a forced one for Linux. -/
def sshOptions (u : Util) (arch : Arch) (fwd : List Str) : List Str :=
  [if arch = .windows then str "-T" else str "-tt"] ++ (if u.brief then [str "-q"] else []) ++ fwd ++
    [str "-oServerAliveCountMax=6", str "-oServerAliveInterval=5"]

theorem sshInternal_args {u : Util} {fwd remote : Str} {arch : Arch} {cs fs rs : List Str}
    (hc : Whole u.sshCommand cs) (hf : Whole fwd fs) (hr : Args remote rs) :
    Args (sshInternal u fwd remote arch) (cs ++ (sshOptions u arch fs ++ (u.userHost :: rs))) := by
  have h := hc _ _ (whole_arch arch _ _ (whole_opt u.brief (w := str "-q") (word_of _ (by decide +kernel)) _ _ (hf _ _
    (whole_word (w := str "-oServerAliveCountMax=6") (word_of _ (by decide +kernel)) _ _
      (whole_word (w := str "-oServerAliveInterval=5") (word_of _ (by decide +kernel)) _ _
        (whole_quoted u.userHost _ _ hr))))))
  have ea : archFlag arch = if arch = .windows then str "-T" else str "-tt" := by cases arch <;> rfl
  rw [ea] at h
  rw [sshInternal, ea]
  simpa [sshOptions] using h

theorem dashes_args {command : Str} {rs : List Str} (h : Args command rs) : Args (str "-- " ++ command) (str "--" :: rs) := by
  have := whole_word (w := str "--") (word_of _ (by decide +kernel)) _ _ h
  have e : str "-- " = str "--" ++ [32] := by decide +kernel
  rw [e]; simpa using this

/-- C163: ssh gets the options of the code, then the host, exactly as given, as one argument, then `--` and the words of
the remote command, whatever the host contains (spaces, quotes, backslashes). -/
theorem C163_ssh_arguments (u : Util) (command : Str) (arch : Arch) (cs rs : List Str) (hc : Whole u.sshCommand cs)
    (hr : Args command rs) :
    Args (ssh u command arch) (cs ++ sshOptions u arch [] ++ [u.userHost, str "--"] ++ rs) := by
  have := sshInternal_args (arch := arch) hc whole_nil (dashes_args hr)
  simpa [ssh] using this

/-- C163: the same with a forwarded port. -/
theorem C163_forward_arguments (u : Util) (localPort remotePort : Nat) (reverse : Bool) (cs : List Str)
    (hc : Whole u.sshCommand cs) :
    Args (sshForward u localPort remotePort reverse)
      (cs ++ sshOptions u .linux [forwardWord localPort remotePort reverse, str "-n"] ++ [u.userHost]) := by
  have hf : Whole (forwardArg localPort remotePort reverse ++ str "-n ") [forwardWord localPort remotePort reverse, str "-n"] := by
    have h := ((whole_word (word_forward localPort remotePort reverse)).snoc
      (whole_word (w := str "-n") (word_of _ (by decide +kernel)))).space
    have e : str "-n " = str "-n" ++ [32] := by decide +kernel
    rw [forwardArg_eq, e]; simpa using h
  have := sshInternal_args (arch := .linux) hc hf (.none [] rfl)
  simpa [sshForward] using this

/-- C163: and with a forwarded port and a command. -/
theorem C163_forward_command_arguments (u : Util) (localPort remotePort : Nat) (reverse : Bool) (command : Str)
    (arch : Arch) (cs rs : List Str) (hc : Whole u.sshCommand cs) (hr : Args command rs) :
    Args (sshForwardAndCommand u localPort remotePort reverse command arch)
      (cs ++ sshOptions u arch [forwardWord localPort remotePort reverse] ++ [u.userHost, str "--"] ++ rs) := by
  have hf : Whole (forwardArg localPort remotePort reverse) [forwardWord localPort remotePort reverse] := by
    rw [forwardArg_eq]; exact (whole_word (word_forward localPort remotePort reverse)).space
  have := sshInternal_args (arch := arch) hc hf (dashes_args hr)
  simpa [sshForwardAndCommand] using this

/-- C163: sftp gets its options, the batch file and the host. -/
theorem C163_sftp_arguments (u : Util) (compress : Bool) (cmdPath : Str) (cs : List Str) (hc : Whole u.sftpCommand cs) :
    Args (sftp u compress cmdPath) (cs ++ (if u.brief then [str "-q"] else []) ++ (if compress then [str "-C"] else []) ++
      [str "-p", str "-b", cmdPath, u.userHost]) := by
  have h0 : Args (quoteForWindows u.userHost) [u.userHost] := by
    have := quoted_args (a := u.userHost) (rest := []) (.inl rfl) (.none [] rfl)
    simpa using this
  have h := hc _ _ (whole_opt u.brief (w := str "-q") (word_of _ (by decide +kernel)) _ _
    (whole_opt compress (w := str "-C") (word_of _ (by decide +kernel)) _ _
      (whole_word (w := str "-p") (word_of _ (by decide +kernel)) _ _
        (whole_word (w := str "-b") (word_of _ (by decide +kernel)) _ _ (whole_quoted cmdPath _ _ h0)))))
  simpa [sftp] using h

theorem destination_options (l : List Str) (rest : List Str)
    (h : ∀ a ∈ l, a ≠ str "--" ∧ a ≠ str "-b" ∧ a.head? = some 45) : destination (l ++ rest) = destination rest := by
  induction l with
  | nil => rfl
  | cons a l ih =>
    obtain ⟨h1, h2, h3⟩ := h a (by simp)
    rw [List.cons_append, destination, if_neg h1, if_neg h2, if_pos h3]
    exact ih fun x hx => h x (by simp [hx])

theorem destination_host (a : Str) (as : List Str) (h : a.head? ≠ some 45) : destination (a :: as) = some a := by
  have hd : (str "--").head? = some 45 := by decide +kernel
  have hb : (str "-b").head? = some 45 := by decide +kernel
  rw [destination, if_neg (by rintro rfl; exact h hd), if_neg (by rintro rfl; exact h hb), if_neg h]

theorem forwardWord_head (l r : Nat) (b : Bool) : (forwardWord l r b).take 1 = [45] ∧
    forwardWord l r b ≠ str "--" ∧ forwardWord l r b ≠ str "-b" := by
  have e1 : str "-R" = [45, 82] := by decide +kernel
  have e2 : str "-L" = [45, 76] := by decide +kernel
  have e3 : str "--" = [45, 45] := by decide +kernel
  have e4 : str "-b" = [45, 98] := by decide +kernel
  cases b <;> simp [forwardWord, e1, e2, e3, e4]

theorem sshOptions_option (u : Util) (arch : Arch) (fwd : List Str)
    (hf : ∀ a ∈ fwd, a ≠ str "--" ∧ a ≠ str "-b" ∧ a.head? = some 45) :
    ∀ a ∈ sshOptions u arch fwd, a ≠ str "--" ∧ a ≠ str "-b" ∧ a.head? = some 45 := by
  have key : ∀ w ∈ [str "-T", str "-tt", str "-q", str "-oServerAliveCountMax=6", str "-oServerAliveInterval=5"],
      w ≠ str "--" ∧ w ≠ str "-b" ∧ w.head? = some 45 := by decide +kernel
  intro a ha
  simp only [sshOptions, List.mem_append, List.mem_singleton, List.mem_cons, List.not_mem_nil, or_false] at ha
  rcases ha with ((rfl | ha) | ha) | rfl | rfl
  · cases arch <;> exact key _ (by simp [archFlag])
  · cases hb : u.brief <;> rw [hb] at ha <;> simp at ha
    subst ha; exact key _ (by simp)
  · exact hf a ha
  · exact key _ (by simp)
  · exact key _ (by simp)

/-- C164: if the host does not begin with `-`, ssh connects to it, for commands and for forwarded ports. -/
theorem C164_host_partial (u : Util) (arch : Arch) (rs : List Str) (localPort remotePort : Nat) (reverse : Bool)
    (h : u.userHost.head? ≠ some 45) :
    destination (sshOptions u arch [] ++ [u.userHost, str "--"] ++ rs) = some u.userHost ∧
    destination (sshOptions u arch [forwardWord localPort remotePort reverse] ++ [u.userHost, str "--"] ++ rs) =
      some u.userHost ∧
    destination (sshOptions u .linux [forwardWord localPort remotePort reverse, str "-n"] ++ [u.userHost]) =
      some u.userHost ∧
    (∀ (compress : Bool) (cmdPath : Str), destination ((if u.brief then [str "-q"] else []) ++
      (if compress then [str "-C"] else []) ++ [str "-p", str "-b", cmdPath, u.userHost]) = some u.userHost) := by
  have hw : forwardWord localPort remotePort reverse ≠ str "--" ∧ forwardWord localPort remotePort reverse ≠ str "-b" ∧
      (forwardWord localPort remotePort reverse).head? = some 45 := by
    obtain ⟨h1, h2, h3⟩ := forwardWord_head localPort remotePort reverse
    refine ⟨h2, h3, ?_⟩
    cases hx : forwardWord localPort remotePort reverse with
    | nil => rw [hx] at h1; cases h1
    | cons c w => rw [hx] at h1; simpa using h1
  have hn : str "-n" ≠ str "--" ∧ str "-n" ≠ str "-b" ∧ (str "-n").head? = some 45 := by decide +kernel
  refine ⟨?_, ?_, ?_, ?_⟩
  · rw [List.append_assoc, destination_options _ _ (sshOptions_option u arch [] (by simp))]
    exact destination_host _ _ h
  · rw [List.append_assoc, destination_options _ _ (sshOptions_option u arch _ (by simpa using hw))]
    exact destination_host _ _ h
  · rw [destination_options _ _ (sshOptions_option u .linux _ (by
      intro a ha
      simp only [List.mem_cons, List.not_mem_nil, or_false] at ha
      rcases ha with rfl | rfl
      · exact hw
      · exact hn))]
    exact destination_host _ _ h
  · intro compress cmdPath
    have e : (if u.brief then [str "-q"] else []) ++ (if compress then [str "-C"] else []) ++
        [str "-p", str "-b", cmdPath, u.userHost] = ((if u.brief then [str "-q"] else []) ++
          (if compress then [str "-C"] else []) ++ [str "-p"]) ++ [str "-b", cmdPath, u.userHost] := by simp
    rw [e, destination_options]
    · rw [destination, if_neg (by decide +kernel), if_pos rfl]
      exact destination_host _ _ h
    · have key : ∀ w ∈ [str "-q", str "-C", str "-p"], w ≠ str "--" ∧ w ≠ str "-b" ∧ w.head? = some 45 := by decide +kernel
      intro a ha
      apply key
      simp only [List.mem_append] at ha
      rcases ha with (ha | ha) | ha
      · split at ha <;> simp at ha; simp [ha]
      · split at ha <;> simp at ha; simp [ha]
      · simp at ha; simp [ha]

/-- C164 is violated by a host that begins with `-`, for there is no `--` before it: ssh takes it for an option, and the
first word of the remote command for the host. -/
theorem C164_option_violated (u : Util) (arch : Arch) (w : Str) (rs : List Str)
    (h : u.userHost = str "-oProxyCommand=calc") :
    destination (sshOptions u arch [] ++ [u.userHost, str "--"] ++ w :: rs) = some w := by
  rw [List.append_assoc, destination_options _ _ (sshOptions_option u arch [] (by simp)), h]
  simp only [List.cons_append, List.nil_append]
  rw [destination, if_neg (by decide +kernel), if_neg (by decide +kernel), if_pos (by decide +kernel), destination,
    if_pos rfl]
  rfl

/-- C164, exactly, for a command that begins with a word that is no option: ssh connects to the given host if and only if
the host does not begin with `-` (or is `--` itself, when `--` is taken for the name of the host); otherwise it connects
to the first word of the remote command. -/
theorem C164_exactly (u : Util) (arch : Arch) (w : Str) (rs : List Str) (hw : w.head? ≠ some 45) :
    (destination (sshOptions u arch [] ++ [u.userHost, str "--"] ++ w :: rs) = some u.userHost ↔
      (u.userHost.head? ≠ some 45 ∨ u.userHost = str "--")) ∧
    (u.userHost.head? = some 45 → u.userHost ≠ str "--" →
      destination (sshOptions u arch [] ++ [u.userHost, str "--"] ++ w :: rs) = some w) := by
  have e3 : str "--" = [45, 45] := by decide +kernel
  have e4 : str "-b" = [45, 98] := by decide +kernel
  have hb : u.userHost.head? = some 45 → u.userHost ≠ str "--" →
      destination (sshOptions u arch [] ++ [u.userHost, str "--"] ++ w :: rs) = some w := by
    intro h1 h2
    rw [List.append_assoc, destination_options _ _ (sshOptions_option u arch [] (by simp))]
    simp only [List.cons_append, List.nil_append]
    rw [destination, if_neg h2]
    split
    · exact destination_host _ _ hw
    · rw [destination, if_pos rfl]; rfl
  refine ⟨⟨fun h => ?_, fun h => ?_⟩, hb⟩
  · by_cases h1 : u.userHost.head? = some 45
    · by_cases h2 : u.userHost = str "--"
      · exact .inr h2
      · rw [hb h1 h2] at h
        exact absurd (Option.some.inj h ▸ h1) hw
    · exact .inl h1
  · rcases h with h | h
    · exact (C164_host_partial u arch (w :: rs) 0 0 false h).1
    · rw [List.append_assoc, destination_options _ _ (sshOptions_option u arch [] (by simp)), h]
      simp only [List.cons_append, List.nil_append]
      rw [destination, if_pos rfl]
      rfl

/-- Hosts of all three kinds, and a command. -/
example : (str "user@host").head? ≠ some 45 ∧ ((str "-oProxyCommand=calc").head? = some 45 ∧
    str "-oProxyCommand=calc" ≠ str "--") ∧ (str "chmod").head? ≠ some 45 := by decide +kernel

/-! ## scp -/

theorem hostDest_args (host dest : Str) : Args (quoteForWindows host ++ 58 :: quoteForWindows dest) [host ++ 58 :: dest] := by
  refine .first ?_ ?_ (a := host ++ 58 :: dest) (rest := []) ?_ (.none [] rfl)
  · simp [quoteForWindows]
  · intro c hc
    simp [quoteForWindows] at hc
    subst hc; decide
  · rw [firstArg_quoted _ _ (by simp [dq]), msArg.eq_def]
    dsimp only
    rw [if_neg (by decide), if_neg (by decide), if_neg (by decide)]
    unfold quoteForWindows
    rw [List.cons_append, msArg_open _ _ _ rfl]
    have := msArg_quoted dest 0 (host ++ bsls 0 ++ [58] ++ bsls (0 / 2)) [] (by simp)
    rw [this, msArg_nil]
    simp [bsls]

theorem sources_args (f : Str → Str) (sources : List Str) {rest : Str} {ws : List Str} (h : Args rest ws) :
    Args ((sources.flatMap fun s => quoteForWindows (f s) ++ [32]) ++ 32 :: rest) (sources.map f ++ ws) := by
  induction sources with
  | nil => exact h.blank 32 (by decide)
  | cons s sources ih =>
    have := whole_quoted (f s) _ _ ih
    simpa using this

/-- C165: scp gets its options, one argument for each source, in order, and one for the target, `host:dest`, whatever
characters there are in the paths. -/
theorem C165_scp_arguments (u : Util) (compress : Bool) (sources : List Str) (dest : Str) (cs : List Str)
    (hc : Whole u.scpCommand cs) :
    Args (scp u compress sources dest) (cs ++ (if u.brief then [str "-q"] else []) ++
      (if compress then [str "-C"] else []) ++ [str "-p", str "-T"] ++ sources.map source ++
      [u.userHost ++ 58 :: dest]) := by
  have h := hc _ _ (whole_opt u.brief (w := str "-q") (word_of _ (by decide +kernel)) _ _
    (whole_opt compress (w := str "-C") (word_of _ (by decide +kernel)) _ _
      (whole_word (w := str "-p") (word_of _ (by decide +kernel)) _ _
        (whole_word (w := str "-T") (word_of _ (by decide +kernel)) _ _
          (sources_args source sources (hostDest_args u.userHost dest))))))
  simpa [scp] using h

/-- C165: a source with a drive letter, and one without any colon before its first slash, is taken for a local file, and
is the given path, after the prefix `//./` in the first case. (Missing: `C165_colon_violated`.) -/
theorem C165_local_partial (s : Str) (h : remoteFile s = false ∨ ∃ c t, c ≠ 92 ∧ c ≠ 58 ∧ s = c :: 58 :: t) :
    remoteFile (source s) = false ∧ (source s = s ∨ source s = str "//./" ++ s) := by
  have e : str "//./" = [47, 47, 46, 47] := by decide +kernel
  have hp : ∀ t : Str, remoteFile (str "//./" ++ t) = false := fun t => by
    rw [e]; simp [remoteFile]
  unfold source
  split
  · exact ⟨hp s, .inr rfl⟩
  · rename_i hn
    rcases h with h | ⟨c, t, h1, h2, rfl⟩
    · exact ⟨h, .inl rfl⟩
    · exfalso
      apply hn
      have : Path.drivePrefix (c :: 58 :: t) = [c, 58] := by
        unfold Path.drivePrefix
        dsimp only
        rw [if_pos h1, if_pos (by simp [Path.findFrom, List.findIdx?_cons, h2])]
        rfl
      rw [this]; simp

/-- C165 is violated by a local path with a colon at another place and no slash before it: it goes to scp as it is, and
scp takes it for a file on the host `ab`. -/
theorem C165_colon_violated : source (str "ab:c") = str "ab:c" ∧ remoteFile (source (str "ab:c")) = true := by
  decide +kernel

/-- C165, exactly, for paths that are not UNC paths: scp takes the source for a local file if and only if it has a drive
letter or no colon, but at its beginning, before the first slash; otherwise the path is handed over unchanged and scp
takes it for a file on another host. -/
theorem C165_exactly (s : Str) (hs : s.head? ≠ some 92) :
    (remoteFile (source s) = false ↔ (remoteFile s = false ∨ ∃ c t, c ≠ 58 ∧ s = c :: 58 :: t)) ∧
    (remoteFile s = true → (∀ c t, s ≠ c :: 58 :: t) → source s = s) := by
  have hsrc : (∀ c t, c ≠ 58 → s ≠ c :: 58 :: t) → source s = s := by
    intro h
    unfold source
    rw [if_neg]
    cases s with
    | nil => decide
    | cons c t =>
      have hc : c ≠ 92 := by simpa using hs
      unfold Path.drivePrefix
      dsimp only
      rw [if_pos hc]
      split
      · rename_i hf
        cases t with
        | nil => simp [Path.findFrom, List.findIdx?_cons] at hf
        | cons d t =>
          simp only [Path.findFrom, List.drop_zero, List.findIdx?_cons] at hf
          by_cases h1 : c = 58
          · simp [h1] at hf
          · by_cases h2 : d = 58
            · exact absurd (by rw [h2]) (h c t h1)
            · have h1' : (c == 58) = false := by simpa using h1
              have h2' : (d == 58) = false := by simpa using h2
              simp [h1, h2] at hf
      · simp
  refine ⟨⟨fun h => ?_, fun h => ?_⟩, fun _ h => hsrc fun c t _ => h c t⟩
  · by_cases hx : ∃ c t, c ≠ 58 ∧ s = c :: 58 :: t
    · exact .inr hx
    · left
      rw [hsrc fun c t hc e => hx ⟨c, t, hc, e⟩] at h
      exact h
  · refine (C165_local_partial s ?_).1
    rcases h with h | ⟨c, t, hc, rfl⟩
    · exact .inl h
    · exact .inr ⟨c, t, by simpa using hs, hc, rfl⟩

/-- Paths of the three kinds. -/
example : remoteFile (str "C:\\f") = true ∧ remoteFile (str "d/a:b") = false ∧ remoteFile (str "ab:c") = true ∧
    (str "ab:c").head? ≠ some 92 := by decide +kernel

/-- C163: the remote command of `Chmod` has the words `chmod`, then two words the remote shell reads as the mode and the
path. (Missing, as in C93: paths with `$` or backticks.) -/
theorem C163_chmod_partial (home : Str → Str) (mode path : Str) (quiet : Bool) (hm : NoExpansion mode)
    (hp : NoExpansion path) :
    ∃ m p, Args (chmodCommand mode path quiet) ([str "chmod", m, p] ++ if quiet then [str "-f"] else []) ∧
      shTilde home m = some (meaning home mode) ∧ shTilde home p = some (meaning home path) := by
  obtain ⟨m, em, h1⟩ := quoteForSsh_word home mode hm
  obtain ⟨p, ep, h2⟩ := quoteForSsh_word home path hp
  refine ⟨m, p, ?_, h1, h2⟩
  have h0 : Args (opt quiet (str "-f")) (if quiet then [str "-f"] else []) := by
    cases quiet
    · exact .none [] rfl
    · have := (word_of (str "-f") (by decide +kernel)).args (.inl rfl) (.none [] rfl)
      simpa [opt] using this
  have h := whole_word (w := str "chmod") (word_of _ (by decide +kernel)) _ _
    (whole_quoted m _ _ (whole_quoted p _ _ h0))
  simpa [chmodCommand, em, ep] using h

/-! ## The sftp command for a given scp command -/

/-- In `cmd` there is `scp`, in any case, with `pre` before it and `post` after it, and after it comes the end, a byte 0,
a dot or a space. -/
def ScpAt (cmd pre s post : Str) : Prop :=
  cmd = pre ++ s ++ post ∧ s.map lower = str "scp" ∧
    (post = [] ∨ post.head? = some 0 ∨ post.head? = some 46 ∨ post.head? = some 32)

theorem scpAt_cons (c : UInt8) (rest : Str) :
    (((c :: rest).map lower).take 3 = str "scp" ∧
      (rest.drop 2 = [] ∨ rest[2]? = some 0 ∨ rest[2]? = some 46 ∨ rest[2]? = some 32)) ↔
    ∃ s, ScpAt (c :: rest) [] s (rest.drop 2) := by
  have e : (str "scp").length = 3 := by decide +kernel
  constructor
  · rintro ⟨h1, h2⟩
    refine ⟨(c :: rest).take 3, ?_, by rw [List.map_take]; exact h1, ?_⟩
    · have := List.take_append_drop 3 (c :: rest)
      simpa using this.symm
    · rwa [List.head?_drop]
  · rintro ⟨s, h1, h2, h3⟩
    have hl : s.length = 3 := by rw [← e, ← h2]; simp
    refine ⟨?_, by rwa [List.head?_drop] at h3⟩
    rw [h1, List.nil_append, List.map_append, ← h2, List.take_left' (by simp [hl])]

theorem scpToSftp_first (done cmd pre s post : Str) (h : ScpAt cmd pre s post)
    (hf : ∀ pre' s' post', ScpAt cmd pre' s' post' → pre.length ≤ pre'.length) :
    scpToSftp done cmd = done ++ pre ++ str "sftp" ++ post := by
  have e : (str "scp").length = 3 := by decide +kernel
  induction cmd generalizing done pre with
  | nil =>
    obtain ⟨h1, h2, -⟩ := h
    have : s = [] := by
      have := congrArg List.length h1
      simp at this
      exact List.length_eq_zero_iff.1 (by omega)
    rw [this] at h2; exact absurd h2 (by decide +kernel)
  | cons c rest ih =>
    rw [scpToSftp]
    cases pre with
    | nil =>
      have hs : s.length = 3 := by rw [← e, ← h.2.1]; simp
      have hpost : post = rest.drop 2 := by
        have := congrArg (List.drop 3) h.1
        rw [List.nil_append, List.drop_left' hs] at this
        simpa using this.symm
      rw [if_pos ((scpAt_cons c rest).2 ⟨s, hpost ▸ h⟩), hpost]
      simp
    | cons d pre =>
      rw [if_neg]
      · have h1 := h.1
        simp only [List.cons_append, List.cons.injEq] at h1
        obtain ⟨rfl, h1⟩ := h1
        rw [ih (done ++ [c]) pre ⟨by simpa using h1, h.2⟩ fun pre' s' post' h' => by
          have := hf (c :: pre') s' post' ⟨by rw [h'.1]; simp, h'.2⟩
          simpa using this]
        simp
      · intro hn
        obtain ⟨s', hs'⟩ := (scpAt_cons c rest).1 hn
        have := hf [] s' _ hs'
        simp at this

/-- C166: the first `scp` in the command that is followed by the end, a dot or a space is replaced by `sftp`; all the
rest stays, as documented (remote_util.h:58-64). So if that one is the name of the program, the result is the command
with the program `sftp` instead of `scp`. -/
theorem C166_first (cmd pre s post : Str) (h : ScpAt cmd pre s post)
    (hf : ∀ pre' s' post', ScpAt cmd pre' s' post' → pre.length ≤ pre'.length) :
    scpToSftp [] cmd = pre ++ str "sftp" ++ post := by
  simpa using scpToSftp_first [] cmd pre s post h hf

/-- C166: if there is none, the result is empty. -/
theorem C166_none (cmd : Str) (h : ∀ pre s post, ¬ ScpAt cmd pre s post) (done : Str) : scpToSftp done cmd = [] := by
  induction cmd generalizing done with
  | nil => rfl
  | cons c rest ih =>
    rw [scpToSftp, if_neg]
    · exact ih (fun pre s post h' => h (c :: pre) s post ⟨by rw [h'.1]; simp, h'.2⟩) _
    · intro hn
      obtain ⟨s', hs'⟩ := (scpAt_cons c rest).1 hn
      exact h _ _ _ hs'

/-- The documented bad case: the name of a directory has `scp` at such a place, the directory is replaced and the
program stays scp. -/
theorem C166_directory_example :
    scpToSftp [] (str "C:\\scp.tools\\scp.exe -q") = str "C:\\sftp.tools\\scp.exe -q" := by decide +kernel

/-- Another one, not documented: for a quoted program without extension no command is found. -/
theorem C166_quoted_example : scpToSftp [] (str "\"C:\\my tools\\scp\" -q") = [] := by decide +kernel

/-! ## Examples -/

/-- A program with a space in its path, a host with a quote and a space: the hypotheses and what ssh gets. -/
def u0 : Util := ⟨str "me@a \"b", str "\"C:\\Program Files\\ssh.exe\" -F cfg", str "sftp", str "scp", true⟩

theorem whole0 : Whole u0.sshCommand [str "C:\\Program Files\\ssh.exe", str "-F", str "cfg"] := by
  have h := ((whole_quoted (str "C:\\Program Files\\ssh.exe")).snoc
    (whole_word (w := str "-F") (word_of _ (by decide +kernel)))).snoc (whole_word (w := str "cfg") (word_of _ (by decide +kernel)))
  have e : (quoteForWindows (str "C:\\Program Files\\ssh.exe") ++ 32 :: str "-F") ++ 32 :: str "cfg" = u0.sshCommand := by
    decide +kernel
  rw [e] at h; exact h

theorem ls0 : Args (str "ls -l") [str "ls", str "-l"] := by
  have := whole_word (w := str "ls") (word_of _ (by decide +kernel)) _ _
    ((word_of (str "-l") (by decide +kernel)).args (.inl rfl) (.none [] rfl))
  have e : str "ls" ++ 32 :: (str "-l" ++ []) = str "ls -l" := by decide +kernel
  rw [e] at this; exact this

theorem C163_example : Args (ssh u0 (str "ls -l") .linux)
    [str "C:\\Program Files\\ssh.exe", str "-F", str "cfg", str "-tt", str "-q", str "-oServerAliveCountMax=6",
     str "-oServerAliveInterval=5", str "me@a \"b", str "--", str "ls", str "-l"] :=
  C163_ssh_arguments u0 _ .linux _ _ whole0 ls0

theorem C164_example : u0.userHost.head? ≠ some 45 := by decide +kernel

theorem C165_example : source (str "C:\\a b") = str "//./C:\\a b" ∧ remoteFile (str "C:\\a b") = true ∧
    remoteFile (source (str "C:\\a b")) = false := by decide +kernel

theorem C166_example : ScpAt (str "C:\\scppath\\WinSCP.exe -q") (str "C:\\scppath\\Win") (str "SCP") (str ".exe -q") ∧
    scpToSftp [] (str "C:\\scppath\\WinSCP.exe -q") = str "C:\\scppath\\Winsftp.exe -q" := by
  unfold ScpAt; decide +kernel

end Verif.Text.CommandLine
