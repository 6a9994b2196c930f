import Verif.Text.Path
import Verif.Text.Filter
import Verif.Text.Flags
/-! # C105-C107: the command line of cdc_rsync (cdc_rsync/params.cc)

Arguments are byte strings without the program name. cdc_rsync is only built for Windows. What is printed is not modelled. -/
namespace Verif.Text.Params
open Path (Str isSep drivePrefix)
open Filter (Rule)
open Flags (isSpace atoi isDigit IsNumber value)

def str (s : String) : Str := s.toList.map (·.toNat.toUInt8)

/-! ## Model -/

/-- The file system and the environment as far as the parser looks at them. -/
structure World where
  /-- `path::ReadFile`: the contents of a file, `none` if it can't be read. -/
  file : Str → Option Str
  /-- `path::DirExists`. -/
  dirExists : Str → Bool
  /-- `path::GetEnv`, common/path.cc:237-259: empty if not set. -/
  sshEnv : Str
  scpEnv : Str
  sftpEnv : Str

/-- `CdcRsyncClient::Options`, cdc_rsync/cdc_rsync_client.h:40-67. -/
structure Options where
  delete : Bool := false
  recursive : Bool := false
  verbosity : Nat := 0
  quiet : Bool := false
  wholeFile : Bool := false
  relative : Bool := false
  compress : Bool := false
  checksum : Bool := false
  dryRun : Bool := false
  existing : Bool := false
  json : Bool := false
  copyDest : Str := []
  compressLevel : Int := 6
  contimeout : Int := 10
  ssh : Str := []
  sftp : Str := []
  sourcesDir : Str := []
  filter : List Rule := []
  scp : Str := []
deriving DecidableEq

/-- `Parameters`, cdc_rsync/params.h:29-35; `help` is the local variable of `Parse`, params.cc:426. -/
structure Parameters where
  options : Options := {}
  sources : List Str := []
  userHost : Str := []
  destination : Str := []
  filesFrom : Str := []
  help : Bool := false
deriving DecidableEq

/-- The options without a value. -/
inductive Flag
  | delete | recursive | verbose | quiet | wholeFile | relative | compress | help | checksum | dryRun | existing | json
deriving DecidableEq

/-- The options with a value. -/
inductive Valued
  | incl | inclFrom | excl | exclFrom | filesFrom | compressLevel | contimeout | copyDest | ssh | scp | sftp
deriving DecidableEq

inductive Opt
  | flag (f : Flag)
  | valued (v : Valued)
  | forwardPort
deriving DecidableEq

/-- The keys `HandleParameter` compares with, params.cc:174-314, in the order of the code. -/
def table : List (Str × Opt) :=
  [(str "delete", .flag .delete), (str "r", .flag .recursive), (str "recursive", .flag .recursive),
   (str "v", .flag .verbose), (str "verbosity", .flag .verbose), (str "q", .flag .quiet), (str "quiet", .flag .quiet),
   (str "W", .flag .wholeFile), (str "whole-file", .flag .wholeFile), (str "include", .valued .incl),
   (str "include-from", .valued .inclFrom), (str "exclude", .valued .excl), (str "exclude-from", .valued .exclFrom),
   (str "files-from", .valued .filesFrom), (str "R", .flag .relative), (str "relative", .flag .relative),
   (str "z", .flag .compress), (str "compress", .flag .compress), (str "compress-level", .valued .compressLevel),
   (str "contimeout", .valued .contimeout), (str "h", .flag .help), (str "help", .flag .help),
   (str "c", .flag .checksum), (str "checksum", .flag .checksum), (str "n", .flag .dryRun),
   (str "dry-run", .flag .dryRun), (str "existing", .flag .existing), (str "copy-dest", .valued .copyDest),
   (str "json", .flag .json), (str "ssh-command", .valued .ssh), (str "scp-command", .valued .scp),
   (str "sftp-command", .valued .sftp), (str "forward-port", .forwardPort)]

/-- The assignments of `HandleParameter` for an option without a value, params.cc:181-283. -/
def setFlag (p : Parameters) : Flag → Parameters
  | .delete => { p with options := { p.options with delete := true } }
  | .recursive => { p with options := { p.options with recursive := true } }
  | .verbose => { p with options := { p.options with verbosity := p.options.verbosity + 1 } }
  | .quiet => { p with options := { p.options with quiet := true } }
  | .wholeFile => { p with options := { p.options with wholeFile := true } }
  | .relative => { p with options := { p.options with relative := true } }
  | .compress => { p with options := { p.options with compress := true } }
  | .help => { p with help := true }
  | .checksum => { p with options := { p.options with checksum := true } }
  | .dryRun => { p with options := { p.options with dryRun := true } }
  | .existing => { p with options := { p.options with existing := true } }
  | .json => { p with options := { p.options with json := true } }

/-- `StrSplit` with `ByNewline`, common/path.cc:121-133: the line so far is `cur`. A `\r` before `\n` belongs to the
delimiter. -/
def splitLines (cur : Str) : Str → List Str
  | [] => [cur]
  | c :: s =>
    if c = 10 then (if cur.getLast? = some 13 then cur.dropLast else cur) :: splitLines [] s
    else splitLines (cur ++ [c]) s

/-- `absl::StripAsciiWhitespace`. -/
def strip (s : Str) : Str := ((s.dropWhile isSpace).reverse.dropWhile isSpace).reverse

/-- `ReadAllLines` with `kRemoveEmpty | kTrimWhitespace`, common/path.cc:894-921. -/
def readAllLines (w : World) (path : Str) : Option (List Str) :=
  (w.file path).map fun data => ((splitLines [] data).map strip).filter (· ≠ [])

/-- `HandleFilterRuleFile`, params.cc:110-128. -/
def handleFilterFile (w : World) (p : Parameters) (incl : Bool) (path : Str) : Option Parameters :=
  (readAllLines w path).map fun patterns =>
    { p with options := { p.options with filter := p.options.filter ++ patterns.map fun q => ⟨incl, q⟩ } }

/-- The assignments of `HandleParameter` for an option with a value, params.cc:204-297. -/
def setValue (w : World) (p : Parameters) : Valued → Str → Option Parameters
  | .incl, x => some { p with options := { p.options with filter := p.options.filter ++ [⟨true, x⟩] } }
  | .inclFrom, x => handleFilterFile w p true x
  | .excl, x => some { p with options := { p.options with filter := p.options.filter ++ [⟨false, x⟩] } }
  | .exclFrom, x => handleFilterFile w p false x
  | .filesFrom, x => some { p with options := { p.options with relative := true }, filesFrom := x }
  | .compressLevel, x => some { p with options := { p.options with compressLevel := atoi x } }
  | .contimeout, x => some { p with options := { p.options with contimeout := atoi x } }
  | .copyDest, x => some { p with options := { p.options with copyDest := x } }
  | .ssh, x => some { p with options := { p.options with ssh := x } }
  | .scp, x => some { p with options := { p.options with scp := x } }
  | .sftp, x => some { p with options := { p.options with sftp := x } }

/-- `HandleParameter` (params.cc:174-314) followed by `CheckOptionResult` (375-390): `none` if it fails; the flag says
whether the value was consumed. -/
def handle (w : World) (p : Parameters) (key : Str) (val : Option Str) : Option (Bool × Parameters) :=
  match table.lookup key with
  | none => none
  | some (.flag f) => some (false, setFlag p f)
  | some (.valued v) => match val with
    | none => none
    | some x => (setValue w p v x).map fun q => (true, q)
  | some .forwardPort => match val with
    | none => none
    | some _ => some (true, p)

/-- The loop over a group of one-letter options, params.cc:453-468. -/
def cluster (w : World) (p : Parameters) : Str → Option Parameters
  | [] => some p
  | c :: s => match handle w p [c] none with
    | none => none
    | some (_, q) => cluster w q s

/-- Before and after the first `=`, params.cc:432-439; `none` if there is none. -/
def splitEq : Str → Option (Str × Str)
  | [] => none
  | c :: s => if c = 61 then some ([], s) else (splitEq s).map fun (k, v) => (c :: k, v)

/-- An argument that is not an option, params.cc:470-475. -/
def addPositional (p : Parameters) (a : Str) : Parameters :=
  { p with sources := if p.destination = [] then p.sources else p.sources ++ [p.destination], destination := a }

/-- `argv[index + 1]` as a value, params.cc:441-442. -/
def nextValue : List Str → Option Str
  | [] => none
  | b :: _ => if b.head? = some 45 then none else some b

/-- The loop of `Parse`, params.cc:428-476. -/
def loop (w : World) (p : Parameters) : List Str → Option Parameters
  | [] => some p
  | (45 :: 45 :: key) :: rest => match splitEq key with
    | some (k, x) => match handle w p k (if x = [] then none else some x) with
      | none => none
      | some (_, q) => loop w q rest
    | none => match handle w p key (nextValue rest) with
      | none => none
      | some (false, q) => loop w q rest
      | some (true, q) => loop w q rest.tail
  | (45 :: letters) :: rest => match cluster w p letters with
    | none => none
    | some q => loop w q rest
  | a :: rest => loop w (addPositional p a) rest
termination_by args => args.length
decreasing_by all_goals simp_wf <;> omega

/-- `LoadFilesFrom`, params.cc:134-172. -/
def loadFilesFrom (w : World) (p : Parameters) : Option Parameters :=
  if p.filesFrom = [] then some p
  else if p.sources.length > 1 then none
  else if p.sources.length = 1 ∧ w.dirExists (p.sources.headD []) = false then none
  else
    let dir := p.sources.headD []
    let dir := if dir = [] then dir else if (dir.getLast?.map isSep) = some true then dir else dir ++ [92]
    (readAllLines w p.filesFrom).map fun lines =>
      { p with options := { p.options with sourcesDir := dir }, sources := lines }

/-- `PopUserHost`, params.cc:397-409. -/
def popUserHost (p : Parameters) : Parameters :=
  if drivePrefix p.destination ≠ [] then { p with userHost := [] }
  else match p.destination.findIdx? (· == 58) with
    | none => { p with userHost := [] }
    | some i => { p with userHost := p.destination.take i, destination := p.destination.drop (i + 1) }

/-- `tolower` in the "C" locale. -/
def lower (c : UInt8) : UInt8 := if 65 ≤ c ∧ c ≤ 90 then c + 32 else c

/-- `ScpToSftpCommand`, common/remote_util.cc:77-94. -/
def scpToSftp : Str → Str
  | [] => []
  | c :: s =>
    if (c :: s).take 3 |>.map lower |> (· = str "scp") then
      match s.drop 2 with
      | [] => str "sftp"
      | d :: rest => if lower d = 46 ∨ lower d = 32 then str "sftp" ++ d :: rest
        else match scpToSftp s with
          | [] => []
          | t => c :: t
    else match scpToSftp s with
      | [] => []
      | t => c :: t

/-- params.cc:491-507. -/
def convertScp (p : Parameters) : Parameters :=
  if p.options.sftp = [] ∧ p.options.scp ≠ [] then
    { p with options := { p.options with sftp := scpToSftp p.options.scp } }
  else p

/-- `ValidateParameters`, params.cc:316-374 (warnings are not modelled). -/
def validate (p : Parameters) : Bool :=
  !p.help && !(p.options.delete && !p.options.recursive) &&
  !(p.options.compressLevel < -5 || p.options.compressLevel > 22 || p.options.compressLevel == 0) &&
  p.destination != [] && p.sources != []

/-- `Parse`, params.cc:419-517, with `PopulateFromEnvVars`, 92-99. -/
def parse (w : World) (args : List Str) : Option Parameters :=
  if args = [] then none
  else match loop w { options := { ssh := w.sshEnv, scp := w.scpEnv, sftp := w.sftpEnv } } args with
    | none => none
    | some p => match loadFilesFrom w p with
      | none => none
      | some p =>
        let p := convertScp (popUserHost p)
        if validate p then some p else none

/-! ## Specification -/

/-- What a user writes on the command line. -/
inductive Item
  | flag (f : Flag)
  | value (v : Valued) (x : Str)
  | positional (s : Str)
deriving DecidableEq

/-- The letters of the options, as in the help text (params.cc:41-84). -/
def letter : Flag → Option Char
  | .recursive => 'r' | .verbose => 'v' | .quiet => 'q' | .wholeFile => 'W' | .relative => 'R' | .compress => 'z'
  | .help => 'h' | .checksum => 'c' | .dryRun => 'n' | .delete => none | .existing => none | .json => none

/-- The long names of the options. They are those of the help text except that the code has `--verbosity` instead of
`--verbose`, see C106. -/
def longName : Flag → String
  | .delete => "delete" | .recursive => "recursive" | .verbose => "verbosity" | .quiet => "quiet"
  | .wholeFile => "whole-file" | .relative => "relative" | .compress => "compress" | .help => "help"
  | .checksum => "checksum" | .dryRun => "dry-run" | .existing => "existing" | .json => "json"

def valueName : Valued → String
  | .incl => "include" | .inclFrom => "include-from" | .excl => "exclude" | .exclFrom => "exclude-from"
  | .filesFrom => "files-from" | .compressLevel => "compress-level" | .contimeout => "contimeout"
  | .copyDest => "copy-dest" | .ssh => "ssh-command" | .scp => "scp-command" | .sftp => "sftp-command"

/-- An integer: digits, possibly after a minus sign, that fits into 32 bits. -/
def IsInt (x : Str) : Prop :=
  (IsNumber x ∧ value x < 2 ^ 31) ∨ ∃ d, x = 45 :: d ∧ IsNumber d ∧ value d ≤ 2 ^ 31

def intValue : Str → Int
  | 45 :: d => -(value d : Int)
  | x => value x

/-- The text makes sense as the value of the option. -/
def Suits : Valued → Str → Prop
  | .compressLevel, x => IsInt x
  | .contimeout, x => IsInt x
  | .filesFrom, x => x ≠ []
  | _, _ => True

/-- `Written items args`: the arguments are a way of writing the items. -/
inductive Written : List Item → List Str → Prop
  | nil : Written [] []
  /-- `-rv` -/
  | letters (fs : List Flag) (cs : List Char) {is as} : fs ≠ [] → fs.map letter = cs.map some → Written is as →
      Written (fs.map .flag ++ is) ((str "-" ++ str (String.ofList cs)) :: as)
  /-- `--recursive` -/
  | long (f : Flag) {is as} : Written is as → Written (.flag f :: is) ((str "--" ++ str (longName f)) :: as)
  /-- `--r` -/
  | dashes (f : Flag) (c : Char) {is as} : letter f = some c → Written is as →
      Written (.flag f :: is) ((str "--" ++ str (String.ofList [c])) :: as)
  /-- `--exclude=*.txt` -/
  | equal (v : Valued) (x : Str) {is as} : x ≠ [] → Suits v x → Written is as →
      Written (.value v x :: is) ((str "--" ++ str (valueName v) ++ str "=" ++ x) :: as)
  /-- `--exclude *.txt` -/
  | separate (v : Valued) (x : Str) {is as} : x.head? ≠ some 45 → Suits v x → Written is as →
      Written (.value v x :: is) ((str "--" ++ str (valueName v)) :: x :: as)
  /-- `--forward-port=44450`, an option of earlier versions that has no effect any more -/
  | oldEqual (x : Str) {is as} : x ≠ [] → Written is as → Written is ((str "--forward-port=" ++ x) :: as)
  /-- `--forward-port 44450` -/
  | oldSeparate (x : Str) {is as} : x.head? ≠ some 45 → Written is as → Written is (str "--forward-port" :: x :: as)
  /-- a source or the destination -/
  | positional (s : Str) {is as} : s ≠ [] → s.head? ≠ some 45 → Written is as →
      Written (.positional s :: is) (s :: as)

/-- The lines of a file without white space around them, without the empty ones. -/
def linesOf (data : Str) : List Str := ((Flags.split 10 data).map strip).filter (· ≠ [])

/-- The rules an item adds. -/
def rulesOf (w : World) : Item → List Rule
  | .value .incl x => [⟨true, x⟩]
  | .value .excl x => [⟨false, x⟩]
  | .value .inclFrom x => (linesOf ((w.file x).getD [])).map fun q => ⟨true, q⟩
  | .value .exclFrom x => (linesOf ((w.file x).getD [])).map fun q => ⟨false, q⟩
  | _ => []

def given (items : List Item) (f : Flag) : Bool := decide (Item.flag f ∈ items)

/-- The values given for an option, in order. -/
def valuesOf (items : List Item) (v : Valued) : List Str :=
  items.filterMap fun i => match i with
    | .value u x => if u = v then some x else none
    | _ => none

/-- The last value given for an option. -/
def lastOf (items : List Item) (v : Valued) (default : Str) : Str := (valuesOf items v).getLast?.getD default

def lastInt (items : List Item) (v : Valued) (default : Int) : Int :=
  ((valuesOf items v).getLast?.map intValue).getD default

def positionals (items : List Item) : List Str :=
  items.filterMap fun i => match i with
    | .positional s => some s
    | _ => none

/-- Where the destination is split into host and path: nowhere if it begins with a drive or has no colon, otherwise at the
first colon. -/
def host (dest : Str) : Str := if drivePrefix dest ≠ [] ∨ 58 ∉ dest then [] else dest.takeWhile (· ≠ 58)
def hostPath (dest : Str) : Str := if drivePrefix dest ≠ [] ∨ 58 ∉ dest then dest else (dest.dropWhile (· ≠ 58)).tail

/-- A directory name with a separator at the end. -/
def withSep (dir : Str) : Str := if dir = [] ∨ dir.getLast?.any isSep then dir else dir ++ [92]

/-- `SftpFor scp sftp`: the first "scp" (in any case) that ends a word is replaced by "sftp". -/
inductive SftpFor : Str → Str → Prop
  | here (a scp b : Str) : scp.map lower = str "scp" → (b = [] ∨ b.head? = some 46 ∨ b.head? = some 32) →
      (∀ a' scp' b', a ++ scp ++ b = a' ++ scp' ++ b' → a'.length < a.length → scp'.map lower = str "scp" →
        ¬ (b' = [] ∨ b'.head? = some 46 ∨ b'.head? = some 32)) →
      SftpFor (a ++ scp ++ b) (a ++ str "sftp" ++ b)
  | nowhere (s : Str) : (∀ a' scp' b', s = a' ++ scp' ++ b' → scp'.map lower = str "scp" →
        ¬ (b' = [] ∨ b'.head? = some 46 ∨ b'.head? = some 32)) → SftpFor s []

/-- What the items of a command line mean. -/
structure Means (w : World) (items : List Item) (p : Parameters) : Prop where
  delete : p.options.delete = given items .delete
  recursive : p.options.recursive = given items .recursive
  verbosity : p.options.verbosity = items.count (.flag .verbose)
  quiet : p.options.quiet = given items .quiet
  wholeFile : p.options.wholeFile = given items .wholeFile
  relative : p.options.relative = (given items .relative || decide (valuesOf items .filesFrom ≠ []))
  compress : p.options.compress = given items .compress
  checksum : p.options.checksum = given items .checksum
  dryRun : p.options.dryRun = given items .dryRun
  existing : p.options.existing = given items .existing
  json : p.options.json = given items .json
  help : p.help = given items .help
  copyDest : p.options.copyDest = lastOf items .copyDest []
  compressLevel : p.options.compressLevel = lastInt items .compressLevel 6
  contimeout : p.options.contimeout = lastInt items .contimeout 10
  ssh : p.options.ssh = lastOf items .ssh w.sshEnv
  scp : p.options.scp = lastOf items .scp w.scpEnv
  sftp : if lastOf items .sftp w.sftpEnv = [] ∧ lastOf items .scp w.scpEnv ≠ []
    then SftpFor (lastOf items .scp w.scpEnv) p.options.sftp else p.options.sftp = lastOf items .sftp w.sftpEnv
  filter : p.options.filter = items.flatMap (rulesOf w)
  filesFrom : p.filesFrom = lastOf items .filesFrom []
  userHost : p.userHost = host ((positionals items).getLast?.getD [])
  destination : p.destination = hostPath ((positionals items).getLast?.getD [])
  sources : p.sources = if lastOf items .filesFrom [] = [] then (positionals items).dropLast
    else linesOf ((w.file (lastOf items .filesFrom [])).getD [])
  sourcesDir : p.options.sourcesDir = if lastOf items .filesFrom [] = [] then []
    else withSep ((positionals items).dropLast.headD [])

/-- The command line is rejected (or the help is shown) unless this holds. -/
structure Acceptable (w : World) (items : List Item) : Prop where
  noHelp : .flag .help ∉ items
  deleteNeedsRecursive : .flag .delete ∈ items → .flag .recursive ∈ items
  level : let l := lastInt items .compressLevel 6; -5 ≤ l ∧ l ≤ 22 ∧ l ≠ 0
  ruleFiles : ∀ x, (.value .inclFrom x ∈ items ∨ .value .exclFrom x ∈ items) → w.file x ≠ none
  destination : hostPath ((positionals items).getLast?.getD []) ≠ []
  /-- without `--files-from` there is a source -/
  sources : lastOf items .filesFrom [] = [] → 2 ≤ (positionals items).length
  /-- with `--files-from` there is at most one source, a directory, and the file can be read and lists something -/
  filesFrom : lastOf items .filesFrom [] ≠ [] → (positionals items).length ≤ 2 ∧
    (∀ d b, positionals items = [d, b] → w.dirExists d = true) ∧
    ∃ data, w.file (lastOf items .filesFrom []) = some data ∧ linesOf data ≠ []

/-! ## One argument after the other -/

/-- What one item does to the parameters. -/
def step (w : World) (p : Parameters) : Item → Option Parameters
  | .flag f => some (setFlag p f)
  | .value v x => setValue w p v x
  | .positional s => some (addPositional p s)

def steps (w : World) (p : Parameters) : List Item → Option Parameters
  | [] => some p
  | i :: is => match step w p i with
    | none => none
    | some q => steps w q is

theorem steps_append (w : World) (p : Parameters) (a b : List Item) :
    steps w p (a ++ b) = (steps w p a).bind fun q => steps w q b := by
  induction a generalizing p with
  | nil => rfl
  | cons i a ih =>
    simp only [List.cons_append, steps]
    cases step w p i with
    | none => rfl
    | some q => exact ih q

theorem lookup_long (f : Flag) : table.lookup (str (longName f)) = some (.flag f) := by cases f <;> decide +kernel

theorem lookup_value (v : Valued) : table.lookup (str (valueName v)) = some (.valued v) := by cases v <;> decide +kernel

theorem lookup_letter (f : Flag) (c : Char) (h : letter f = some c) : table.lookup [c.toNat.toUInt8] = some (.flag f) := by
  cases f <;> simp only [letter, Option.some.injEq, reduceCtorEq] at h <;> subst h <;> decide +kernel

theorem letter_plain (f : Flag) (c : Char) (h : letter f = some c) : c.toNat.toUInt8 ≠ 45 ∧ c.toNat.toUInt8 ≠ 61 := by
  cases f <;> simp only [letter, Option.some.injEq, reduceCtorEq] at h <;> subst h <;> decide +kernel

theorem long_plain (f : Flag) : 61 ∉ str (longName f) := by cases f <;> decide +kernel

theorem value_plain (v : Valued) : 61 ∉ str (valueName v) := by cases v <;> decide +kernel

theorem splitEq_none {s : Str} (h : 61 ∉ s) : splitEq s = none := by
  induction s with
  | nil => rfl
  | cons c s ih =>
    have hc : c ≠ 61 := fun e => h (by rw [e]; exact List.mem_cons_self ..)
    rw [splitEq, if_neg hc, ih fun hm => h (List.mem_cons_of_mem _ hm)]; rfl

theorem splitEq_some {k x : Str} (h : 61 ∉ k) : splitEq (k ++ 61 :: x) = some (k, x) := by
  induction k with
  | nil => rfl
  | cons c s ih =>
    have hc : c ≠ 61 := fun e => h (by rw [e]; exact List.mem_cons_self ..)
    rw [List.cons_append, splitEq, if_neg hc, ih fun hm => h (List.mem_cons_of_mem _ hm)]; rfl

theorem handle_flag (w : World) (p : Parameters) {key : Str} {f : Flag} (val : Option Str)
    (h : table.lookup key = some (.flag f)) : handle w p key val = some (false, setFlag p f) := by
  unfold handle; rw [h]

theorem handle_value (w : World) (p : Parameters) {key x : Str} {v : Valued}
    (h : table.lookup key = some (.valued v)) :
    handle w p key (some x) = (setValue w p v x).map fun q => (true, q) := by
  unfold handle; rw [h]

theorem cluster_letters (w : World) (fs : List Flag) (cs : List Char) (h : fs.map letter = cs.map some) (p : Parameters) :
    cluster w p (cs.map (·.toNat.toUInt8)) = steps w p (fs.map .flag) := by
  induction fs generalizing cs p with
  | nil =>
    cases cs with
    | nil => rfl
    | cons c cs => simp at h
  | cons f fs ih =>
    cases cs with
    | nil => simp at h
    | cons c cs =>
      simp only [List.map_cons, List.cons.injEq] at h
      rw [List.map_cons, cluster, handle_flag w p none (lookup_letter f c h.1)]
      rw [List.map_cons, steps]
      exact ih cs h.2 (setFlag p f)

theorem str_ofList (cs : List Char) : str (String.ofList cs) = cs.map (·.toNat.toUInt8) := by simp [str]

theorem loop_letters (w : World) (p : Parameters) (fs : List Flag) (cs : List Char) (hne : fs ≠ [])
    (h : fs.map letter = cs.map some) (as : List Str) :
    loop w p ((str "-" ++ str (String.ofList cs)) :: as) = (steps w p (fs.map .flag)).bind fun q => loop w q as := by
  rw [← cluster_letters w fs cs h p, str_ofList cs]
  cases fs with
  | nil => exact absurd rfl hne
  | cons f fs =>
    cases cs with
    | nil => simp at h
    | cons c cs =>
      simp only [List.map_cons, List.cons.injEq] at h
      have hc := (letter_plain f c h.1).1
      have e : str "-" ++ List.map (·.toNat.toUInt8) (c :: cs) = 45 :: c.toNat.toUInt8 :: cs.map (·.toNat.toUInt8) := rfl
      rw [e, loop]
      · rw [List.map_cons]; cases cluster w p (c.toNat.toUInt8 :: cs.map (·.toNat.toUInt8)) <;> rfl
      · intro k hk; exact hc (List.cons.inj hk).1

theorem loop_flag (w : World) (p : Parameters) (f : Flag) (key : Str) (hp : 61 ∉ key)
    (h : table.lookup key = some (.flag f)) (as : List Str) :
    loop w p ((str "--" ++ key) :: as) = loop w (setFlag p f) as := by
  have e : str "--" ++ key = 45 :: 45 :: key := rfl
  rw [e, loop, splitEq_none hp]
  simp only [handle_flag w p _ h]

theorem loop_equal (w : World) (p : Parameters) (v : Valued) (x : Str) (hx : x ≠ []) (as : List Str) :
    loop w p ((str "--" ++ str (valueName v) ++ str "=" ++ x) :: as) =
      (setValue w p v x).bind fun q => loop w q as := by
  have e : str "--" ++ str (valueName v) ++ str "=" ++ x = 45 :: 45 :: (str (valueName v) ++ 61 :: x) := by
    have : str "=" = [61] := rfl
    rw [List.append_assoc, List.append_assoc, this]; rfl
  rw [e, loop, splitEq_some (value_plain v)]
  simp only [if_neg hx, handle_value w p (lookup_value v)]
  cases setValue w p v x <;> rfl

theorem loop_separate (w : World) (p : Parameters) (v : Valued) (x : Str) (hx : x.head? ≠ some 45) (as : List Str) :
    loop w p ((str "--" ++ str (valueName v)) :: x :: as) = (setValue w p v x).bind fun q => loop w q as := by
  have e : str "--" ++ str (valueName v) = 45 :: 45 :: str (valueName v) := rfl
  rw [e, loop, splitEq_none (value_plain v)]
  simp only [nextValue, if_neg hx, handle_value w p (lookup_value v)]
  cases setValue w p v x <;> rfl

theorem loop_positional (w : World) (p : Parameters) (s : Str) (hs : s.head? ≠ some 45) (as : List Str) :
    loop w p (s :: as) = loop w (addPositional p s) as := by
  rw [loop]
  · rintro k rfl; exact hs rfl
  · rintro k rfl; exact hs rfl

theorem loop_old_equal (w : World) (p : Parameters) (x : Str) (hx : x ≠ []) (as : List Str) :
    loop w p ((str "--forward-port=" ++ x) :: as) = loop w p as := by
  have e : str "--forward-port=" ++ x = 45 :: 45 :: (str "forward-port" ++ 61 :: x) := by
    have e2 : str "--forward-port=" = 45 :: 45 :: (str "forward-port" ++ [61]) := by decide +kernel
    rw [e2]; simp
  have hl : table.lookup (str "forward-port") = some .forwardPort := by decide +kernel
  rw [e, loop, splitEq_some (by decide +kernel)]
  simp only [if_neg hx, handle, hl]

theorem loop_old_separate (w : World) (p : Parameters) (x : Str) (hx : x.head? ≠ some 45) (as : List Str) :
    loop w p (str "--forward-port" :: x :: as) = loop w p as := by
  have e : str "--forward-port" = 45 :: 45 :: str "forward-port" := rfl
  have hl : table.lookup (str "forward-port") = some .forwardPort := by decide +kernel
  rw [e, loop, splitEq_none (by decide +kernel)]
  simp only [nextValue, if_neg hx, handle, hl, List.tail_cons]

theorem loop_written (w : World) {items : List Item} {args : List Str} (h : Written items args) (p : Parameters) :
    loop w p args = steps w p items := by
  induction h generalizing p with
  | nil => rw [loop]; rfl
  | letters fs cs hne hc _ ih =>
    rw [loop_letters w p fs cs hne hc, steps_append]
    congr 1; funext q; exact ih q
  | long f _ ih => rw [loop_flag w p f _ (long_plain f) (lookup_long f)]; exact ih _
  | dashes f c hc _ ih =>
    rw [loop_flag w p f _ ?_ ?_]
    · exact ih _
    · rw [str_ofList]; intro hm; exact (letter_plain f c hc).2 (List.mem_singleton.1 hm).symm
    · rw [str_ofList]; exact lookup_letter f c hc
  | equal v x hx _ _ ih =>
    rw [loop_equal w p v x hx, steps, step]
    cases setValue w p v x with
    | none => rfl
    | some q => exact ih q
  | separate v x hx _ _ ih =>
    rw [loop_separate w p v x hx, steps, step]
    cases setValue w p v x with
    | none => rfl
    | some q => exact ih q
  | oldEqual x hx _ ih => rw [loop_old_equal w p x hx]; exact ih p
  | oldSeparate x hx _ ih => rw [loop_old_separate w p x hx]; exact ih p
  | positional s _ hs _ ih => rw [loop_positional w p s hs]; exact ih _

/-! ## What all items do together -/

theorem strip_space (l : Str) (c : UInt8) (h : isSpace c = true) : strip (l ++ [c]) = strip l := by
  unfold strip
  rw [List.dropWhile_append]
  split
  · rename_i he
    rw [List.isEmpty_iff] at he
    rw [he]
    simp [List.dropWhile_cons, h]
  · rw [List.reverse_append]
    simp [List.dropWhile_cons, h]

theorem split_ne_nil (s : Str) : Flags.split 10 s ≠ [] := by
  induction s with
  | nil => simp [Flags.split]
  | cons c s ih =>
    rw [Flags.split]; split
    · simp
    · split <;> simp

theorem splitLines_strip (s cur : Str) : (splitLines cur s).map strip =
    strip (cur ++ (Flags.split 10 s).headD []) :: ((Flags.split 10 s).tail).map strip := by
  induction s generalizing cur with
  | nil => simp [splitLines, Flags.split]
  | cons c s ih =>
    rw [splitLines, Flags.split]
    by_cases hc : c = 10
    · rw [if_pos hc, if_pos hc, List.map_cons, ih]
      have hne := split_ne_nil s
      cases hs : Flags.split 10 s with
      | nil => exact absurd hs hne
      | cons a as =>
        have : strip (if cur.getLast? = some 13 then cur.dropLast else cur) = strip cur := by
          split
          · rename_i hl
            obtain ⟨l, rfl⟩ := List.getLast?_eq_some_iff.1 hl
            rw [List.dropLast_concat, strip_space _ _ (by decide)]
          · rfl
        simp [this]
    · rw [if_neg hc, if_neg hc, ih]
      have hne := split_ne_nil s
      cases hs : Flags.split 10 s with
      | nil => exact absurd hs hne
      | cons a as => simp

theorem readAllLines_eq (w : World) (path : Str) : readAllLines w path = (w.file path).map linesOf := by
  unfold readAllLines linesOf
  congr 1; funext data
  rw [splitLines_strip]
  have hne := split_ne_nil data
  cases hs : Flags.split 10 data with
  | nil => exact absurd hs hne
  | cons a as => rfl

theorem atoi_int (x : Str) (h : IsInt x) : atoi x = intValue x := by
  rcases h with ⟨h, hv⟩ | ⟨d, rfl, h, hv⟩
  · rw [Flags.atoi_number x h hv]
    obtain ⟨hne, hd⟩ := h
    cases x with
    | nil => rfl
    | cons c x =>
      have hc : c ≠ 45 := Flags.digit_not (hd c (List.mem_cons_self ..)) (by decide)
      unfold intValue
      split
      · rename_i he; exact absurd (List.cons.inj he).1 hc
      · rfl
  · have hval : Flags.digitsVal 0 d = value d := Flags.digitsVal_eq _ h.2 0
    show _ = -(value d : Int)
    unfold atoi
    have hdw : (45 :: d : Str).dropWhile isSpace = 45 :: d := by rw [List.dropWhile_cons, if_neg (by decide)]
    rw [hdw]
    simp only [if_true, hval]
    have e : max (-(value d : Int)) (-2 ^ 63) = -(value d : Int) := by omega
    rw [e, BitVec.toInt_ofInt]
    unfold Int.bmod
    show (if _ < _ then _ else _) = _
    split <;> omega

/-- The arguments so far that are not options. -/
def allPos (p : Parameters) : List Str := p.sources ++ if p.destination = [] then [] else [p.destination]

/-- The effect of the items on the parameters. -/
structure Effect (w : World) (p : Parameters) (items : List Item) (q : Parameters) : Prop where
  delete : q.options.delete = (p.options.delete || given items .delete)
  recursive : q.options.recursive = (p.options.recursive || given items .recursive)
  verbosity : q.options.verbosity = p.options.verbosity + items.count (.flag .verbose)
  quiet : q.options.quiet = (p.options.quiet || given items .quiet)
  wholeFile : q.options.wholeFile = (p.options.wholeFile || given items .wholeFile)
  relative : q.options.relative = (p.options.relative || (given items .relative || decide (valuesOf items .filesFrom ≠ [])))
  compress : q.options.compress = (p.options.compress || given items .compress)
  checksum : q.options.checksum = (p.options.checksum || given items .checksum)
  dryRun : q.options.dryRun = (p.options.dryRun || given items .dryRun)
  existing : q.options.existing = (p.options.existing || given items .existing)
  json : q.options.json = (p.options.json || given items .json)
  help : q.help = (p.help || given items .help)
  copyDest : q.options.copyDest = lastOf items .copyDest p.options.copyDest
  compressLevel : q.options.compressLevel = lastInt items .compressLevel p.options.compressLevel
  contimeout : q.options.contimeout = lastInt items .contimeout p.options.contimeout
  ssh : q.options.ssh = lastOf items .ssh p.options.ssh
  scp : q.options.scp = lastOf items .scp p.options.scp
  sftp : q.options.sftp = lastOf items .sftp p.options.sftp
  filter : q.options.filter = p.options.filter ++ items.flatMap (rulesOf w)
  filesFrom : q.filesFrom = lastOf items .filesFrom p.filesFrom
  pos : allPos q = allPos p ++ positionals items
  destination : positionals items ≠ [] → q.destination ≠ []
  destination' : positionals items = [] → q.destination = p.destination
  sourcesDir : q.options.sourcesDir = p.options.sourcesDir

theorem given_flag (f g : Flag) (is : List Item) : given (.flag g :: is) f = (decide (g = f) || given is f) := by
  simp only [given, List.mem_cons, Item.flag.injEq, eq_comm (a := f)]; simp

theorem given_value (f : Flag) (v : Valued) (x : Str) (is : List Item) : given (.value v x :: is) f = given is f := by
  simp [given]

theorem given_pos (f : Flag) (x : Str) (is : List Item) : given (.positional x :: is) f = given is f := by simp [given]

theorem valuesOf_value (u v : Valued) (x : Str) (is : List Item) :
    valuesOf (.value u x :: is) v = if u = v then x :: valuesOf is v else valuesOf is v := by
  unfold valuesOf; rw [List.filterMap_cons]
  split <;> rename_i h
  · simp only [ite_eq_right_iff, reduceCtorEq, imp_false] at h; rw [if_neg h]
  · simp only [Option.ite_none_right_eq_some, Option.some.injEq] at h; rw [if_pos h.1, h.2]

theorem valuesOf_flag (v : Valued) (f : Flag) (is : List Item) : valuesOf (.flag f :: is) v = valuesOf is v := rfl
theorem valuesOf_pos (v : Valued) (f : Str) (is : List Item) : valuesOf (.positional f :: is) v = valuesOf is v := rfl

theorem lastOf_value (u v : Valued) (x d : Str) (is : List Item) :
    lastOf (.value u x :: is) v d = lastOf is v (if u = v then x else d) := by
  unfold lastOf; rw [valuesOf_value]; split
  · cases valuesOf is v with
    | nil => rfl
    | cons a as => rw [List.getLast?_cons_cons]; simp [List.getLast?_cons]
  · rfl

theorem lastInt_value (u v : Valued) (x : Str) (d : Int) (is : List Item) :
    lastInt (.value u x :: is) v d = lastInt is v (if u = v then intValue x else d) := by
  unfold lastInt; rw [valuesOf_value]; split
  · cases valuesOf is v with
    | nil => rfl
    | cons a as => rw [List.getLast?_cons_cons]; simp [List.getLast?_cons]
  · rfl

theorem effect_nil (w : World) (p : Parameters) : Effect w p [] p := by
  constructor <;> simp [given, lastOf, lastInt, valuesOf, positionals]

theorem effect_flag (w : World) (p q : Parameters) (f : Flag) (is : List Item) (h : Effect w (setFlag p f) is q) :
    Effect w p (.flag f :: is) q where
  delete := by rw [h.delete, given_flag]; cases f <;> simp [setFlag]
  recursive := by rw [h.recursive, given_flag]; cases f <;> simp [setFlag]
  verbosity := by rw [h.verbosity, List.count_cons]; cases f <;> simp [setFlag]; omega
  quiet := by rw [h.quiet, given_flag]; cases f <;> simp [setFlag]
  wholeFile := by rw [h.wholeFile, given_flag]; cases f <;> simp [setFlag]
  relative := by rw [h.relative, given_flag, valuesOf_flag]; cases f <;> simp [setFlag]
  compress := by rw [h.compress, given_flag]; cases f <;> simp [setFlag]
  checksum := by rw [h.checksum, given_flag]; cases f <;> simp [setFlag]
  dryRun := by rw [h.dryRun, given_flag]; cases f <;> simp [setFlag]
  existing := by rw [h.existing, given_flag]; cases f <;> simp [setFlag]
  json := by rw [h.json, given_flag]; cases f <;> simp [setFlag]
  help := by rw [h.help, given_flag]; cases f <;> simp [setFlag]
  copyDest := by rw [h.copyDest]; cases f <;> rfl
  compressLevel := by rw [h.compressLevel]; cases f <;> rfl
  contimeout := by rw [h.contimeout]; cases f <;> rfl
  ssh := by rw [h.ssh]; cases f <;> rfl
  scp := by rw [h.scp]; cases f <;> rfl
  sftp := by rw [h.sftp]; cases f <;> rfl
  filter := by rw [h.filter]; cases f <;> rfl
  filesFrom := by rw [h.filesFrom]; cases f <;> rfl
  pos := by rw [h.pos]; cases f <;> rfl
  destination := h.destination
  destination' := fun e => by rw [h.destination' e]; cases f <;> rfl
  sourcesDir := by rw [h.sourcesDir]; cases f <;> rfl

theorem effect_positional (w : World) (p q : Parameters) (s : Str) (hs : s ≠ []) (is : List Item)
    (h : Effect w (addPositional p s) is q) : Effect w p (.positional s :: is) q where
  delete := by rw [h.delete, given_pos]; rfl
  recursive := by rw [h.recursive, given_pos]; rfl
  verbosity := by rw [h.verbosity, List.count_cons]; simp [addPositional]
  quiet := by rw [h.quiet, given_pos]; rfl
  wholeFile := by rw [h.wholeFile, given_pos]; rfl
  relative := by rw [h.relative, given_pos, valuesOf_pos]; rfl
  compress := by rw [h.compress, given_pos]; rfl
  checksum := by rw [h.checksum, given_pos]; rfl
  dryRun := by rw [h.dryRun, given_pos]; rfl
  existing := by rw [h.existing, given_pos]; rfl
  json := by rw [h.json, given_pos]; rfl
  help := by rw [h.help, given_pos]; rfl
  copyDest := h.copyDest
  compressLevel := h.compressLevel
  contimeout := h.contimeout
  ssh := h.ssh
  scp := h.scp
  sftp := h.sftp
  filter := h.filter
  filesFrom := h.filesFrom
  pos := by
    rw [h.pos]
    have : positionals (.positional s :: is) = s :: positionals is := rfl
    rw [this]
    unfold allPos
    rw [if_neg (show (addPositional p s).destination ≠ [] from hs)]
    show (if p.destination = [] then p.sources else p.sources ++ [p.destination]) ++ [s] ++ _ = _
    split <;> simp
  destination := fun _ => by
    by_cases e : positionals is = []
    · rw [h.destination' e]; exact hs
    · exact h.destination e
  destination' := fun e => by cases e
  sourcesDir := h.sourcesDir

/-- The files with rules an item names. -/
def readable (w : World) : Item → Prop
  | .value .inclFrom x => w.file x ≠ none
  | .value .exclFrom x => w.file x ≠ none
  | _ => True

instance (w : World) (i : Item) : Decidable (readable w i) := by
  unfold readable; split <;> infer_instance

theorem setValue_none (w : World) (p : Parameters) (v : Valued) (x : Str) :
    setValue w p v x = none ↔ ¬ readable w (.value v x) := by
  cases v <;> simp [setValue, readable, handleFilterFile, readAllLines]

/-- What setting a value changes. -/
structure Sets (w : World) (p : Parameters) (v : Valued) (x : Str) (q : Parameters) : Prop where
  delete : q.options.delete = p.options.delete
  recursive : q.options.recursive = p.options.recursive
  verbosity : q.options.verbosity = p.options.verbosity
  quiet : q.options.quiet = p.options.quiet
  wholeFile : q.options.wholeFile = p.options.wholeFile
  relative : q.options.relative = (p.options.relative || decide (v = .filesFrom))
  compress : q.options.compress = p.options.compress
  checksum : q.options.checksum = p.options.checksum
  dryRun : q.options.dryRun = p.options.dryRun
  existing : q.options.existing = p.options.existing
  json : q.options.json = p.options.json
  help : q.help = p.help
  copyDest : q.options.copyDest = if v = .copyDest then x else p.options.copyDest
  compressLevel : q.options.compressLevel = if v = .compressLevel then intValue x else p.options.compressLevel
  contimeout : q.options.contimeout = if v = .contimeout then intValue x else p.options.contimeout
  ssh : q.options.ssh = if v = .ssh then x else p.options.ssh
  scp : q.options.scp = if v = .scp then x else p.options.scp
  sftp : q.options.sftp = if v = .sftp then x else p.options.sftp
  filter : q.options.filter = p.options.filter ++ rulesOf w (.value v x)
  filesFrom : q.filesFrom = if v = .filesFrom then x else p.filesFrom
  sources : q.sources = p.sources
  destination : q.destination = p.destination
  sourcesDir : q.options.sourcesDir = p.options.sourcesDir

theorem sets (w : World) (p q : Parameters) (v : Valued) (x : Str) (hx : Suits v x)
    (hp : setValue w p v x = some q) : Sets w p v x q := by
  cases v <;>
    simp only [setValue, handleFilterFile, readAllLines_eq, Option.some.injEq, Option.map_map, Option.map_eq_some_iff] at hp
  case inclFrom =>
    obtain ⟨data, hd, rfl⟩ := hp
    constructor <;> simp [rulesOf, hd]
  case exclFrom =>
    obtain ⟨data, hd, rfl⟩ := hp
    constructor <;> simp [rulesOf, hd]
  case compressLevel =>
    subst hp
    constructor <;> simp [rulesOf, atoi_int x hx]
  case contimeout =>
    subst hp
    constructor <;> simp [rulesOf, atoi_int x hx]
  all_goals
    subst hp
    constructor <;> simp [rulesOf]

theorem effect_value (w : World) (p p' q : Parameters) (v : Valued) (x : Str) (hx : Suits v x) (is : List Item)
    (hp : setValue w p v x = some p') (h : Effect w p' is q) : Effect w p (.value v x :: is) q :=
  have s := sets w p p' v x hx hp
  { delete := by rw [h.delete, s.delete, given_value]
    recursive := by rw [h.recursive, s.recursive, given_value]
    verbosity := by rw [h.verbosity, s.verbosity, List.count_cons]; simp
    quiet := by rw [h.quiet, s.quiet, given_value]
    wholeFile := by rw [h.wholeFile, s.wholeFile, given_value]
    relative := by
      rw [h.relative, s.relative, given_value, valuesOf_value]
      by_cases e : v = .filesFrom
      · rw [if_pos e]; simp [e]
      · rw [if_neg e]; simp [e]
    compress := by rw [h.compress, s.compress, given_value]
    checksum := by rw [h.checksum, s.checksum, given_value]
    dryRun := by rw [h.dryRun, s.dryRun, given_value]
    existing := by rw [h.existing, s.existing, given_value]
    json := by rw [h.json, s.json, given_value]
    help := by rw [h.help, s.help, given_value]
    copyDest := by rw [h.copyDest, s.copyDest, lastOf_value]
    compressLevel := by rw [h.compressLevel, s.compressLevel, lastInt_value]
    contimeout := by rw [h.contimeout, s.contimeout, lastInt_value]
    ssh := by rw [h.ssh, s.ssh, lastOf_value]
    scp := by rw [h.scp, s.scp, lastOf_value]
    sftp := by rw [h.sftp, s.sftp, lastOf_value]
    filter := by rw [h.filter, s.filter, List.flatMap_cons, List.append_assoc]
    filesFrom := by rw [h.filesFrom, s.filesFrom, lastOf_value]
    pos := by
      rw [h.pos]
      have : positionals (.value v x :: is) = positionals is := rfl
      rw [this]; simp only [allPos, s.sources, s.destination]
    destination := h.destination
    destination' := fun e => by rw [h.destination' e, s.destination]
    sourcesDir := by rw [h.sourcesDir, s.sourcesDir] }

/-- Items as they can be written. -/
def Sound : Item → Prop
  | .value v x => Suits v x
  | .positional s => s ≠ []
  | .flag _ => True

theorem sound_cons {i : Item} {is : List Item} (h : Sound i) (ih : ∀ j ∈ is, Sound j) : ∀ j ∈ i :: is, Sound j := by
  intro j hj
  rcases List.mem_cons.1 hj with rfl | hj
  · exact h
  · exact ih j hj

theorem written_sound {items : List Item} {args : List Str} (h : Written items args) : ∀ i ∈ items, Sound i := by
  induction h with
  | nil => intro i hi; cases hi
  | letters fs cs _ _ _ ih =>
    intro i hi
    rcases List.mem_append.1 hi with hi | hi
    · obtain ⟨f, _, rfl⟩ := List.mem_map.1 hi; exact trivial
    · exact ih i hi
  | long f _ ih => exact sound_cons trivial ih
  | dashes f c _ _ ih => exact sound_cons trivial ih
  | equal v x _ hs _ ih => exact sound_cons hs ih
  | separate v x _ hs _ ih => exact sound_cons hs ih
  | oldEqual _ _ _ ih => exact ih
  | oldSeparate _ _ _ ih => exact ih
  | positional s hs _ _ ih => exact sound_cons hs ih

theorem steps_effect (w : World) (items : List Item) (hs : ∀ i ∈ items, Sound i) (p q : Parameters)
    (h : steps w p items = some q) : Effect w p items q := by
  induction items generalizing p with
  | nil => cases h; exact effect_nil w _
  | cons i is ih =>
    have hi := hs i (List.mem_cons_self ..)
    have ih := ih fun j hj => hs j (List.mem_cons_of_mem _ hj)
    cases i with
    | flag f => exact effect_flag w p q f is (ih _ h)
    | positional s => exact effect_positional w p q s hi is (ih _ h)
    | value v x =>
      rw [steps, step] at h
      cases hv : setValue w p v x with
      | none => rw [hv] at h; cases h
      | some p' =>
        rw [hv] at h
        exact effect_value w p p' q v x hi is hv (ih _ h)

theorem steps_none (w : World) (items : List Item) (p : Parameters) :
    steps w p items = none ↔ ∃ i ∈ items, ¬ readable w i := by
  induction items generalizing p with
  | nil => simp [steps]
  | cons i is ih =>
    rw [steps]
    have e : step w p i = none ↔ ¬ readable w i := by
      cases i with
      | flag f => simp [step, readable]
      | positional s => simp [step, readable]
      | value v x => exact setValue_none w p v x
    cases hs : step w p i with
    | none => simp only [true_iff]; exact ⟨i, List.mem_cons_self .., e.1 hs⟩
    | some q =>
      simp only
      rw [ih]
      have hr : readable w i := by
        have := mt e.2 (by rw [hs]; exact fun h => by cases h)
        exact Decidable.not_not.1 this
      constructor
      · rintro ⟨j, hj, hn⟩; exact ⟨j, List.mem_cons_of_mem _ hj, hn⟩
      · rintro ⟨j, hj, hn⟩
        rcases List.mem_cons.1 hj with rfl | hj
        · exact absurd hr hn
        · exact ⟨j, hj, hn⟩

/-! ## The end of `Parse` -/

theorem takeWhile_dropWhile_58 (d : Str) (i : Nat) (h : d.findIdx? (· == 58) = some i) :
    58 ∈ d ∧ d.take i = d.takeWhile (· ≠ 58) ∧ d.drop (i + 1) = (d.dropWhile (· ≠ 58)).tail := by
  induction d generalizing i with
  | nil => simp at h
  | cons c d ih =>
    rw [List.findIdx?_cons] at h
    by_cases hc : c = 58
    · subst hc
      simp only [BEq.rfl, if_true, Option.some.injEq] at h
      subst h
      simp
    · have hb : (c == (58 : UInt8)) = false := by simp [hc]
      rw [hb] at h
      simp only [Bool.false_eq_true, if_false, Option.map_eq_some_iff] at h
      obtain ⟨j, hj, rfl⟩ := h
      obtain ⟨a, b, e⟩ := ih j hj
      refine ⟨List.mem_cons_of_mem _ a, ?_, ?_⟩
      · rw [List.take_succ_cons, List.takeWhile_cons, if_pos (by simp [hc]), b]
      · rw [List.drop_succ_cons, List.dropWhile_cons, if_pos (by simp [hc]), e]

theorem popUserHost_eq (p : Parameters) :
    popUserHost p = { p with userHost := host p.destination, destination := hostPath p.destination } := by
  unfold popUserHost host hostPath
  by_cases hd : drivePrefix p.destination ≠ []
  · rw [if_pos hd, if_pos (Or.inl hd), if_pos (Or.inl hd)]
  · rw [if_neg hd]
    cases hi : p.destination.findIdx? (· == 58) with
    | none =>
      have hn : 58 ∉ p.destination := by
        intro hm
        have := List.findIdx?_eq_none_iff.1 hi 58 hm
        simp at this
      simp only
      rw [if_pos (Or.inr hn), if_pos (Or.inr hn)]
    | some i =>
      obtain ⟨a, b, c⟩ := takeWhile_dropWhile_58 _ _ hi
      have hn : ¬ (drivePrefix p.destination ≠ [] ∨ 58 ∉ p.destination) := by
        rintro (h | h)
        · exact hd h
        · exact h a
      simp only
      rw [if_neg hn, if_neg hn, b, c]

/-- The end of a word. -/
def Ends (b : Str) : Prop := b = [] ∨ b.head? = some 46 ∨ b.head? = some 32

theorem lower_dot (d : UInt8) : lower d = 46 ↔ d = 46 := by
  have : ∀ n : Fin 256, lower (UInt8.ofNat n) = 46 ↔ UInt8.ofNat n = 46 := by decide +kernel
  have h := this ⟨d.toNat, d.toNat_lt⟩
  rwa [show UInt8.ofNat (⟨d.toNat, d.toNat_lt⟩ : Fin 256).val = d from UInt8.ofNat_toNat] at h

theorem lower_space (d : UInt8) : lower d = 32 ↔ d = 32 := by
  have : ∀ n : Fin 256, lower (UInt8.ofNat n) = 32 ↔ UInt8.ofNat n = 32 := by decide +kernel
  have h := this ⟨d.toNat, d.toNat_lt⟩
  rwa [show UInt8.ofNat (⟨d.toNat, d.toNat_lt⟩ : Fin 256).val = d from UInt8.ofNat_toNat] at h

/-- "scp" at the end of a word begins here. -/
def At (s : Str) : Prop := (s.take 3).map lower = str "scp" ∧ Ends (s.drop 3)

theorem at_iff (s : Str) : At s ↔ ∃ scp b, s = scp ++ b ∧ scp.map lower = str "scp" ∧ Ends b := by
  constructor
  · rintro ⟨a, b⟩; exact ⟨_, _, (List.take_append_drop 3 s).symm, a, b⟩
  · rintro ⟨scp, b, rfl, h1, h2⟩
    have hl : scp.length = 3 := by have := congrArg List.length h1; rw [List.length_map] at this; exact this
    unfold At
    rw [← hl, List.take_left', List.drop_left'] <;> first | exact ⟨h1, h2⟩ | rfl

theorem scpToSftp_at (c : UInt8) (s : Str) (h : At (c :: s)) : scpToSftp (c :: s) = str "sftp" ++ s.drop 2 := by
  rw [scpToSftp, if_pos (by simpa using h.1)]
  have he : Ends (s.drop 2) := h.2
  cases hs : s.drop 2 with
  | nil => rfl
  | cons d rest =>
    simp only
    rw [hs] at he
    rw [if_pos]
    rcases he with e | e | e
    · cases e
    · exact Or.inl ((lower_dot d).2 (by simpa using e))
    · exact Or.inr ((lower_space d).2 (by simpa using e))

theorem scpToSftp_not (c : UInt8) (s : Str) (h : ¬ At (c :: s)) :
    scpToSftp (c :: s) = if scpToSftp s = [] then [] else c :: scpToSftp s := by
  have em : (match scpToSftp s with
      | [] => []
      | t => c :: t) = if scpToSftp s = [] then [] else c :: scpToSftp s := by
    cases scpToSftp s <;> rfl
  rw [scpToSftp]
  by_cases ht : ((c :: s).take 3).map lower = str "scp"
  · rw [if_pos (by simpa using ht)]
    have he : ¬ Ends (s.drop 2) := fun e => h ⟨ht, e⟩
    cases hs : s.drop 2 with
    | nil => rw [hs] at he; exact absurd (Or.inl rfl) he
    | cons d rest =>
      rw [hs] at he
      simp only
      rw [if_neg, em]
      rintro (e | e)
      · exact he (Or.inr (Or.inl (by rw [(lower_dot d).1 e]; rfl)))
      · exact he (Or.inr (Or.inr (by rw [(lower_space d).1 e]; rfl)))
  · rw [if_neg (by simpa using ht), em]

theorem scpToSftp_cases (s : Str) :
    ((∀ a t, s = a ++ t → ¬ At t) ∧ scpToSftp s = []) ∨
    ∃ a t, s = a ++ t ∧ At t ∧ (∀ a' t', s = a' ++ t' → a'.length < a.length → ¬ At t') ∧
      scpToSftp s = a ++ str "sftp" ++ t.drop 3 := by
  induction s with
  | nil =>
    refine Or.inl ⟨?_, rfl⟩
    intro a t h
    have := List.append_eq_nil_iff.1 h.symm
    rw [this.2]
    rintro ⟨h, _⟩
    revert h; decide +kernel
  | cons c s ih =>
    by_cases h : At (c :: s)
    · refine Or.inr ⟨[], c :: s, rfl, h, fun a' t' _ hl => absurd hl (Nat.not_lt_zero _), ?_⟩
      rw [scpToSftp_at c s h]; rfl
    · rw [scpToSftp_not c s h]
      have later : ∀ a t, c :: s = a ++ t → (a = [] ∧ t = c :: s) ∨ ∃ a1, a = c :: a1 ∧ s = a1 ++ t := by
        intro a t e
        cases a with
        | nil => exact Or.inl ⟨rfl, e.symm⟩
        | cons x a => simp only [List.cons_append, List.cons.injEq] at e; exact Or.inr ⟨a, by rw [e.1], e.2⟩
      rcases ih with ⟨hn, he⟩ | ⟨a, t, hs, ha, hf, he⟩
      · refine Or.inl ⟨?_, by rw [if_pos he]⟩
        intro a t e
        rcases later a t e with ⟨_, rfl⟩ | ⟨a1, _, e1⟩
        · exact h
        · exact hn a1 t e1
      · refine Or.inr ⟨c :: a, t, by rw [hs]; rfl, ha, ?_, ?_⟩
        · intro a' t' e hl
          rcases later a' t' e with ⟨_, rfl⟩ | ⟨a1, rfl, e1⟩
          · exact h
          · exact hf a1 t' e1 (Nat.lt_of_succ_lt_succ hl)
        · rw [if_neg, he]
          · rfl
          · rw [he]; intro e
            have := (List.append_eq_nil_iff.1 (List.append_eq_nil_iff.1 e).1).2
            revert this; decide +kernel

theorem sftpFor (s : Str) : SftpFor s (scpToSftp s) := by
  rcases scpToSftp_cases s with ⟨hn, he⟩ | ⟨a, t, hs, ha, hf, he⟩
  · rw [he]
    refine .nowhere s fun a' scp' b' e h1 h2 => ?_
    rw [List.append_assoc] at e
    exact hn a' _ e ((at_iff _).2 ⟨scp', b', rfl, h1, h2⟩)
  · rw [he]
    have e : s = a ++ t.take 3 ++ t.drop 3 := by rw [List.append_assoc, List.take_append_drop]; exact hs
    rw [e]
    rw [e] at hf
    refine .here a _ _ ha.1 ha.2 fun a' scp' b' e2 hl h1 h2 => ?_
    exact hf a' (scp' ++ b') (by rw [e2, List.append_assoc]) hl ((at_iff _).2 ⟨scp', b', rfl, h1, h2⟩)

theorem pos_split (w : World) (items : List Item) (q : Parameters) (p : Parameters) (hp : p.destination = [])
    (hp2 : p.sources = []) (h : Effect w p items q) :
    q.sources = (positionals items).dropLast ∧ q.destination = (positionals items).getLast?.getD [] := by
  have h1 := h.pos
  have h0 : allPos p = [] := by unfold allPos; rw [if_pos hp, hp2]; rfl
  rw [h0, List.nil_append] at h1
  by_cases hn : positionals items = []
  · have hd := h.destination' hn
    rw [hp] at hd
    unfold allPos at h1
    rw [if_pos hd, hn] at h1
    rw [hn, hd]
    exact ⟨by simpa using h1, rfl⟩
  · have hd := h.destination hn
    unfold allPos at h1
    rw [if_neg hd] at h1
    rw [← h1]
    simp

/-- The state before the first argument. -/
def start (w : World) : Parameters := { options := { ssh := w.sshEnv, scp := w.scpEnv, sftp := w.sftpEnv } }

/-- The rest of `Parse` after the loop. -/
def finish (w : World) (p : Parameters) : Option Parameters := match loadFilesFrom w p with
  | none => none
  | some p =>
    let p := convertScp (popUserHost p)
    if validate p then some p else none

theorem parse_eq (w : World) (args : List Str) (h : args ≠ []) : parse w args = (loop w (start w) args).bind (finish w) := by
  unfold parse finish
  rw [if_neg h]
  show (match loop w (start w) args with
    | none => none
    | some p => _) = _
  cases loop w (start w) args <;> rfl

theorem validate_iff (p : Parameters) : validate p = true ↔ p.help = false ∧
    (p.options.delete = true → p.options.recursive = true) ∧
    (-5 ≤ p.options.compressLevel ∧ p.options.compressLevel ≤ 22 ∧ p.options.compressLevel ≠ 0) ∧
    p.destination ≠ [] ∧ p.sources ≠ [] := by
  unfold validate
  simp only [Bool.and_eq_true, Bool.not_eq_true', Bool.and_eq_false_iff, Bool.or_eq_false_iff, bne_iff_ne, ne_eq,
    decide_eq_false_iff_not, beq_eq_false_iff_ne, Int.not_lt, Bool.not_eq_false']
  constructor
  · rintro ⟨⟨⟨⟨h1, h2⟩, ⟨h3, h4⟩, h5⟩, h6⟩, h7⟩
    refine ⟨h1, fun hd => ?_, ⟨h3, by omega, h5⟩, h6, h7⟩
    rcases h2 with h2 | h2
    · rw [hd] at h2; cases h2
    · exact h2
  · rintro ⟨h1, h2, ⟨h3, h4, h5⟩, h6, h7⟩
    refine ⟨⟨⟨⟨h1, ?_⟩, ⟨h3, by omega⟩, h5⟩, h6⟩, h7⟩
    cases hd : p.options.delete with
    | false => exact Or.inl rfl
    | true => exact Or.inr (h2 hd)

/-- What is left of the result after the steps that follow the loop. -/
theorem finish_means (w : World) (items : List Item) (q p : Parameters) (h : Effect w (start w) items q)
    (hl : loadFilesFrom w q = some p) : Means w items (convertScp (popUserHost p)) := by
  obtain ⟨hs, hd⟩ := pos_split w items q (start w) rfl rfl h
  have hff : q.filesFrom = lastOf items .filesFrom [] := h.filesFrom
  have hp : p = { q with options := { q.options with sourcesDir := p.options.sourcesDir }, sources := p.sources } ∧
      (p.sources = if lastOf items .filesFrom [] = [] then (positionals items).dropLast
        else linesOf ((w.file (lastOf items .filesFrom [])).getD [])) ∧
      (p.options.sourcesDir = if lastOf items .filesFrom [] = [] then []
        else withSep ((positionals items).dropLast.headD [])) := by
    rw [← hff, ← hs]
    unfold loadFilesFrom at hl
    by_cases he : q.filesFrom = []
    · rw [if_pos he] at hl; cases hl
      rw [if_pos he, if_pos he]
      exact ⟨rfl, rfl, h.sourcesDir⟩
    · rw [if_neg he] at hl
      rw [if_neg he, if_neg he]
      split at hl
      · cases hl
      split at hl
      · cases hl
      rw [readAllLines_eq, Option.map_map] at hl
      obtain ⟨data, hdata, rfl⟩ := Option.map_eq_some_iff.1 hl
      refine ⟨rfl, by rw [hdata]; rfl, ?_⟩
      show (if _ then _ else if _ then _ else _) = _
      unfold withSep
      generalize q.sources.headD [] = dir
      by_cases h0 : dir = []
      · rw [if_pos h0, if_pos (Or.inl h0)]
      · rw [if_neg h0]
        cases hg : dir.getLast? with
        | none => exact absurd (List.getLast?_eq_none_iff.1 hg) h0
        | some c =>
          simp only [Option.map_some, Option.any_some, Option.some.injEq]
          by_cases hc : isSep c = true
          · rw [if_pos hc, if_pos (Or.inr hc)]
          · rw [if_neg hc, if_neg (fun e => e.elim h0 hc)]
  obtain ⟨hp, hsrc, hdir⟩ := hp
  have opt : ∀ r : Parameters, (convertScp r).options = { r.options with sftp := (convertScp r).options.sftp } := by
    intro r; unfold convertScp; split <;> rfl
  have rest : ∀ r : Parameters, convertScp r = { r with options := (convertScp r).options } := by
    intro r; unfold convertScp; split <;> rfl
  have o : (convertScp (popUserHost p)).options = { q.options with
      sourcesDir := p.options.sourcesDir, sftp := (convertScp (popUserHost p)).options.sftp } := by
    rw [opt, popUserHost_eq]
    have := congrArg (fun r => ({ r.options with sftp := (convertScp (popUserHost p)).options.sftp } : Options)) hp
    rw [popUserHost_eq] at this
    exact this
  have pd : p.destination = q.destination := (congrArg Parameters.destination hp :)
  have u : (convertScp (popUserHost p)).userHost = host q.destination := by
    rw [rest, popUserHost_eq, pd]
  have d : (convertScp (popUserHost p)).destination = hostPath q.destination := by
    rw [rest, popUserHost_eq, pd]
  have sc : (convertScp (popUserHost p)).sources = p.sources := by rw [rest, popUserHost_eq]
  have f : (convertScp (popUserHost p)).filesFrom = q.filesFrom := by
    rw [rest, popUserHost_eq]; exact (congrArg Parameters.filesFrom hp :)
  have hh : (convertScp (popUserHost p)).help = q.help := by
    rw [rest, popUserHost_eq]; exact (congrArg Parameters.help hp :)
  have sf : (convertScp (popUserHost p)).options.sftp =
      if q.options.sftp = [] ∧ q.options.scp ≠ [] then scpToSftp q.options.scp else q.options.sftp := by
    have e1 : (popUserHost p).options.sftp = q.options.sftp := by
      rw [popUserHost_eq]; exact (congrArg (fun r : Parameters => r.options.sftp) hp :)
    have e2 : (popUserHost p).options.scp = q.options.scp := by
      rw [popUserHost_eq]; exact (congrArg (fun r : Parameters => r.options.scp) hp :)
    unfold convertScp
    rw [e1, e2]
    split
    · rfl
    · exact e1
  constructor
  case delete => rw [o]; exact h.delete
  case recursive => rw [o]; exact h.recursive
  case verbosity => rw [o]; exact h.verbosity.trans (Nat.zero_add _)
  case quiet => rw [o]; exact h.quiet
  case wholeFile => rw [o]; exact h.wholeFile
  case relative => rw [o]; exact h.relative
  case compress => rw [o]; exact h.compress
  case checksum => rw [o]; exact h.checksum
  case dryRun => rw [o]; exact h.dryRun
  case existing => rw [o]; exact h.existing
  case json => rw [o]; exact h.json
  case help => rw [hh]; exact h.help
  case copyDest => rw [o]; exact h.copyDest
  case compressLevel => rw [o]; exact h.compressLevel
  case contimeout => rw [o]; exact h.contimeout
  case ssh => rw [o]; exact h.ssh
  case scp => rw [o]; exact h.scp
  case sftp =>
    have e1 : q.options.sftp = lastOf items .sftp w.sftpEnv := h.sftp
    have e2 : q.options.scp = lastOf items .scp w.scpEnv := h.scp
    rw [sf, ← e1, ← e2]
    split
    · exact sftpFor _
    · rfl
  case filter => rw [o]; exact h.filter
  case filesFrom => rw [f]; exact hff
  case userHost => rw [u, hd]
  case destination => rw [d, hd]
  case sources => rw [sc]; exact hsrc
  case sourcesDir => rw [o]; exact hdir

theorem loadFilesFrom_some (w : World) (items : List Item) (q : Parameters) (h : Effect w (start w) items q)
    (ha : lastOf items .filesFrom [] ≠ [] → (positionals items).length ≤ 2 ∧
      (∀ d b, positionals items = [d, b] → w.dirExists d = true) ∧
      ∃ data, w.file (lastOf items .filesFrom []) = some data) : loadFilesFrom w q ≠ none := by
  obtain ⟨hs, hd⟩ := pos_split w items q (start w) rfl rfl h
  have hff : q.filesFrom = lastOf items .filesFrom [] := h.filesFrom
  unfold loadFilesFrom
  by_cases he : q.filesFrom = []
  · rw [if_pos he]; simp
  · rw [if_neg he]
    obtain ⟨h1, h2, data, h3⟩ := ha (hff ▸ he)
    rw [if_neg (by rw [hs, List.length_dropLast]; omega)]
    rw [if_neg]
    · rw [readAllLines_eq, hff, h3]; simp
    · rintro ⟨e1, e2⟩
      rw [hs, List.length_dropLast] at e1
      match hp : positionals items with
      | [] => rw [hp] at e1; simp at e1
      | [_] => rw [hp] at e1; simp at e1
      | [d, b] =>
        rw [hs, hp] at e2
        have : w.dirExists d = false := e2
        rw [h2 d b hp] at this; cases this
      | _ :: _ :: _ :: _ => rw [hp] at h1; simp at h1

theorem loadFilesFrom_acceptable (w : World) (items : List Item) (q p : Parameters) (h : Effect w (start w) items q)
    (hl : loadFilesFrom w q = some p) :
    lastOf items .filesFrom [] ≠ [] → (positionals items).length ≤ 2 ∧
      (∀ d b, positionals items = [d, b] → w.dirExists d = true) ∧
      ∃ data, w.file (lastOf items .filesFrom []) = some data := by
  obtain ⟨hs, hd⟩ := pos_split w items q (start w) rfl rfl h
  have hff : q.filesFrom = lastOf items .filesFrom [] := h.filesFrom
  intro hne
  rw [← hff] at hne
  unfold loadFilesFrom at hl
  rw [if_neg hne] at hl
  split at hl
  · cases hl
  split at hl
  · cases hl
  rename_i h1 h2
  rw [readAllLines_eq, Option.map_map] at hl
  obtain ⟨data, hdata, _⟩ := Option.map_eq_some_iff.1 hl
  rw [hs, List.length_dropLast] at h1 h2
  refine ⟨by omega, ?_, data, by rw [← hff]; exact hdata⟩
  intro d b e
  cases hx : w.dirExists d with
  | true => rfl
  | false =>
    refine absurd ⟨by rw [e]; rfl, ?_⟩ h2
    rw [e]; exact hx

/-! ## Theorems -/

/-- C105: every command line that follows the grammar is parsed as it is meant: if it is acceptable, the parser succeeds
and the result says exactly what the items mean; otherwise it is rejected. -/
theorem C105_command_line (w : World) (items : List Item) (args : List Str) (h : Written items args) (hne : args ≠ []) :
    (Acceptable w items → ∃ p, parse w args = some p ∧ Means w items p) ∧
    (¬ Acceptable w items → parse w args = none) := by
  rw [parse_eq w args hne, loop_written w h]
  have key : ∀ p, (steps w (start w) items).bind (finish w) = some p → Acceptable w items ∧ Means w items p := by
    intro p hp
    obtain ⟨q, hq, hf⟩ := Option.bind_eq_some_iff.1 hp
    have he := steps_effect w items (written_sound h) _ _ hq
    unfold finish at hf
    cases hl : loadFilesFrom w q with
    | none => rw [hl] at hf; cases hf
    | some r =>
      rw [hl] at hf
      simp only [Option.ite_none_right_eq_some, Option.some.injEq] at hf
      obtain ⟨hv, rfl⟩ := hf
      have hm := finish_means w items q r he hl
      refine ⟨?_, hm⟩
      obtain ⟨v1, v2, v3, v4, v5⟩ := (validate_iff _).1 hv
      rw [hm.help] at v1
      rw [hm.delete, hm.recursive] at v2
      rw [hm.compressLevel] at v3
      rw [hm.destination] at v4
      rw [hm.sources] at v5
      refine ⟨?_, ?_, v3, ?_, v4, ?_, ?_⟩
      · exact of_decide_eq_false v1
      · intro hd; exact of_decide_eq_true (v2 (decide_eq_true hd))
      · intro x hx hn
        have : steps w (start w) items = none := by
          rw [steps_none]
          rcases hx with hx | hx
          · exact ⟨_, hx, fun hr => hr hn⟩
          · exact ⟨_, hx, fun hr => hr hn⟩
        rw [this] at hq; cases hq
      · intro e
        rw [if_pos e] at v5
        have : (positionals items).dropLast.length ≠ 0 := fun e => v5 (List.eq_nil_of_length_eq_zero e)
        rw [List.length_dropLast] at this
        omega
      · intro e
        obtain ⟨a, b, data, c⟩ := loadFilesFrom_acceptable w items q r he hl e
        rw [if_neg e, c] at v5
        exact ⟨a, b, data, c, v5⟩
  constructor
  · intro ha
    cases hq : steps w (start w) items with
    | none =>
      obtain ⟨i, hi, hn⟩ := (steps_none w items _).1 hq
      exfalso
      match i, hn with
      | .value .inclFrom x, hn => exact hn (ha.ruleFiles x (Or.inl hi))
      | .value .exclFrom x, hn => exact hn (ha.ruleFiles x (Or.inr hi))
      | .flag _, hn => exact hn trivial
      | .positional _, hn => exact hn trivial
      | .value .incl _, hn => exact hn trivial
      | .value .excl _, hn => exact hn trivial
      | .value .filesFrom _, hn => exact hn trivial
      | .value .compressLevel _, hn => exact hn trivial
      | .value .contimeout _, hn => exact hn trivial
      | .value .copyDest _, hn => exact hn trivial
      | .value .ssh _, hn => exact hn trivial
      | .value .scp _, hn => exact hn trivial
      | .value .sftp _, hn => exact hn trivial
    | some q =>
      have he := steps_effect w items (written_sound h) _ _ hq
      have hl := loadFilesFrom_some w items q he fun e => by
        obtain ⟨a, b, data, c, _⟩ := ha.filesFrom e
        exact ⟨a, b, data, c⟩
      cases hr : loadFilesFrom w q with
      | none => exact absurd hr hl
      | some r =>
        have hm := finish_means w items q r he hr
        refine ⟨_, ?_, hm⟩
        show finish w q = _
        unfold finish
        rw [hr]
        simp only
        rw [if_pos]
        rw [validate_iff, hm.help, hm.delete, hm.recursive, hm.compressLevel, hm.destination, hm.sources]
        refine ⟨decide_eq_false ha.noHelp, ?_, ha.level, ha.destination, ?_⟩
        · intro hd; exact decide_eq_true (ha.deleteNeedsRecursive (of_decide_eq_true hd))
        · split
          · rename_i e
            have := ha.sources e
            intro e2
            have := congrArg List.length e2
            rw [List.length_dropLast, List.length_nil] at this
            omega
          · rename_i e
            obtain ⟨_, _, data, c, e2⟩ := ha.filesFrom e
            rw [c]; exact e2
  · intro hn
    cases hp : (steps w (start w) items).bind (finish w) with
    | none => rfl
    | some p => exact absurd (key p hp).1 hn

/-- C105: a destination "user@host:path" is split at its first colon unless it begins with a drive. A host of one letter
is taken for a drive, and a path with a colon behind the second character for a remote one. -/
theorem C105_remote_destination (h p : Str) (hc : 58 ∉ h) (h2 : 2 ≤ h.length) (hb : h.head? ≠ some 92) :
    host (h ++ 58 :: p) = h ∧ hostPath (h ++ 58 :: p) = p := by
  have hf : ∀ t : Str, 58 ∉ t → (t ++ 58 :: p).findIdx? (· == 58) = some t.length := by
    intro t ht
    induction t with
    | nil => rfl
    | cons c t ih =>
      have hcne : (c == (58 : UInt8)) = false := by
        rw [beq_eq_false_iff_ne]; rintro rfl; exact ht (List.mem_cons_self ..)
      rw [List.cons_append, List.findIdx?_cons, hcne, ih fun hm => ht (List.mem_cons_of_mem _ hm)]
      rfl
  have hd : drivePrefix (h ++ 58 :: p) = [] := by
    cases h with
    | nil => simp at h2
    | cons c h' =>
      have hc92 : c ≠ 92 := fun e => hb (by rw [e]; rfl)
      show (if c ≠ 92 then _ else _) = _
      rw [if_pos hc92, if_neg]
      have : Path.findFrom 58 ((c :: h') ++ 58 :: p) 0 = some (c :: h').length := by
        unfold Path.findFrom
        rw [List.drop_zero, hf _ hc]; rfl
      rw [this]
      intro e
      have := Option.some.inj e
      omega
  have hn : ¬ (drivePrefix (h ++ 58 :: p) ≠ [] ∨ 58 ∉ h ++ 58 :: p) := by
    rintro (e | e)
    · exact e hd
    · exact e (by simp)
  have hall : ∀ x ∈ h, (decide (x ≠ 58)) = true := by
    intro x hx; rw [decide_eq_true_eq]; rintro rfl; exact hc hx
  unfold host hostPath
  rw [if_neg hn, if_neg hn, List.takeWhile_append_of_pos hall, List.dropWhile_append_of_pos hall]
  simp

theorem C105_local_destination (dest : Str) (h : 58 ∉ dest ∨ ∃ c p, dest = c :: 58 :: p ∧ c ≠ 92 ∧ c ≠ 58) :
    host dest = [] ∧ hostPath dest = dest := by
  have h : drivePrefix dest ≠ [] ∨ 58 ∉ dest := by
    rcases h with h | ⟨c, p, rfl, hc, hc2⟩
    · exact Or.inr h
    · left
      show (if c ≠ 92 then _ else _) ≠ _
      rw [if_pos hc, if_pos]
      · simp
      · have : (c == (58 : UInt8)) = false := by simp [hc2]
        simp [Path.findFrom, List.findIdx?_cons, this]
  unfold host hostPath
  rw [if_pos h, if_pos h]
  exact ⟨rfl, rfl⟩

/-- A file system with a file of exclude rules and a list of sources. -/
def demo : World where
  file := fun p =>
    if p = str "rules" then some (str "  *.tmp \r\n\n*.log") else if p = str "list" then some (str "a\nb\n") else none
  dirExists := fun p => p = str "C:\\src"
  sshEnv := str "ssh -p 1"
  scpEnv := str "C:\\bin\\SCP.exe -P 1"
  sftpEnv := []

/-- A command line with all kinds of items meets the hypotheses: rules keep their order, `--files-from` replaces the
sources, the scp command is converted. -/
theorem C105_example :
    (∃ items, Written items [str "-rvv", str "--include", str "*.txt", str "--exclude-from=rules", str "--delete",
        str "C:\\src", str "--files-from", str "list", str "--compress-level=-5", str "me@pc:/dst"] ∧
      Acceptable demo items) ∧
    (parse demo [str "-rvv", str "--include", str "*.txt", str "--exclude-from=rules", str "--delete",
      str "C:\\src", str "--files-from", str "list", str "--compress-level=-5", str "me@pc:/dst"]) =
    some { options := { delete := true, recursive := true, verbosity := 2, relative := true, compressLevel := -5,
                        ssh := str "ssh -p 1", sftp := str "C:\\bin\\sftp.exe -P 1", sourcesDir := str "C:\\src\\",
                        scp := str "C:\\bin\\SCP.exe -P 1",
                        filter := [⟨true, str "*.txt"⟩, ⟨false, str "*.tmp"⟩, ⟨false, str "*.log"⟩] },
           sources := [str "a", str "b"], userHost := str "me@pc", destination := str "/dst",
           filesFrom := str "list" } := by
  have hp : (parse demo [str "-rvv", str "--include", str "*.txt", str "--exclude-from=rules", str "--delete",
      str "C:\\src", str "--files-from", str "list", str "--compress-level=-5", str "me@pc:/dst"]) =
    some { options := { delete := true, recursive := true, verbosity := 2, relative := true, compressLevel := -5,
                        ssh := str "ssh -p 1", sftp := str "C:\\bin\\sftp.exe -P 1", sourcesDir := str "C:\\src\\",
                        scp := str "C:\\bin\\SCP.exe -P 1",
                        filter := [⟨true, str "*.txt"⟩, ⟨false, str "*.tmp"⟩, ⟨false, str "*.log"⟩] },
           sources := [str "a", str "b"], userHost := str "me@pc", destination := str "/dst",
           filesFrom := str "list" } := by
    decide +kernel
  refine ⟨?_, hp⟩
  have hw : Written [.flag .recursive, .flag .verbose, .flag .verbose, .value .incl (str "*.txt"),
      .value .exclFrom (str "rules"), .flag .delete, .positional (str "C:\\src"), .value .filesFrom (str "list"),
      .value .compressLevel (str "-5"), .positional (str "me@pc:/dst")]
      [str "-rvv", str "--include", str "*.txt", str "--exclude-from=rules", str "--delete",
        str "C:\\src", str "--files-from", str "list", str "--compress-level=-5", str "me@pc:/dst"] := by
    refine Written.letters [.recursive, .verbose, .verbose] ['r', 'v', 'v'] (by decide) (by decide) ?_
    refine Written.separate .incl (str "*.txt") (by decide +kernel) trivial ?_
    refine Written.equal .exclFrom (str "rules") (by decide +kernel) trivial ?_
    refine Written.long .delete ?_
    refine Written.positional _ (by decide +kernel) (by decide +kernel) ?_
    refine Written.separate .filesFrom (str "list") (by decide +kernel) (by show _ ≠ _; decide +kernel) ?_
    refine Written.equal .compressLevel (str "-5") (by decide +kernel)
      (Or.inr ⟨str "5", rfl, ⟨by decide +kernel, by decide +kernel⟩, by decide +kernel⟩) ?_
    exact Written.positional _ (by decide +kernel) (by decide +kernel) .nil
  refine ⟨_, hw, ?_⟩
  refine Decidable.byContradiction (p := _) (dec := Classical.propDecidable _) fun hn => ?_
  rw [(C105_command_line demo _ _ hw (by simp)).2 hn] at hp
  cases hp

/-! ## C106: the options of the help text -/

/-- An option in the help text, params.cc:56-83. -/
structure Doc where
  letter : Option Char
  name : String
  value : Bool
deriving DecidableEq

def documented : List Doc :=
  [⟨none, "contimeout", true⟩, ⟨'q', "quiet", false⟩, ⟨'v', "verbose", false⟩, ⟨none, "json", false⟩,
   ⟨'n', "dry-run", false⟩, ⟨'r', "recursive", false⟩, ⟨none, "delete", false⟩, ⟨'z', "compress", false⟩,
   ⟨none, "compress-level", true⟩, ⟨'c', "checksum", false⟩, ⟨'W', "whole-file", false⟩, ⟨none, "exclude", true⟩,
   ⟨none, "exclude-from", true⟩, ⟨none, "include", true⟩, ⟨none, "include-from", true⟩, ⟨none, "files-from", true⟩,
   ⟨'R', "relative", false⟩, ⟨none, "existing", false⟩, ⟨none, "copy-dest", true⟩, ⟨none, "ssh-command", true⟩,
   ⟨none, "sftp-command", true⟩, ⟨'h', "help", false⟩]

def allFlags : List Flag :=
  [.delete, .recursive, .verbose, .quiet, .wholeFile, .relative, .compress, .help, .checksum, .dryRun, .existing, .json]

def allValued : List Valued :=
  [.incl, .inclFrom, .excl, .exclFrom, .filesFrom, .compressLevel, .contimeout, .copyDest, .ssh, .scp, .sftp]

/-- C106: every option of the help text but `--verbose` is understood, in front of any well-formed command line: as a
long option, as a letter if the help text gives one, and with `=` or with a separate argument if it has a value.
(Missing: `--verbose`, `C106_verbose_violated`.) -/
theorem C106_documented_partial (d : Doc) (hd : d ∈ documented) (hv : d.name ≠ "verbose") (w : World) (items : List Item)
    (args : List Str) (h : Written items args) :
    if d.value then ∃ v, ∀ x, Suits v x → x ≠ [] →
        (Acceptable w (.value v x :: items) → ∃ p, Means w (.value v x :: items) p ∧
          parse w ((str "--" ++ str d.name ++ str "=" ++ x) :: args) = some p) ∧
        (Acceptable w (.value v x :: items) → x.head? ≠ some 45 → ∃ p, Means w (.value v x :: items) p ∧
          parse w ((str "--" ++ str d.name) :: x :: args) = some p)
    else ∃ f, Acceptable w (.flag f :: items) →
        (∃ p, Means w (.flag f :: items) p ∧ parse w ((str "--" ++ str d.name) :: args) = some p) ∧
        ∀ c, d.letter = some c → ∃ p, Means w (.flag f :: items) p ∧ parse w (str (String.ofList ['-', c]) :: args) = some p := by
  have key : ∀ d ∈ documented, d.name ≠ "verbose" →
      if d.value then ∃ v ∈ allValued, valueName v = d.name
      else ∃ f ∈ allFlags, longName f = d.name ∧ letter f = d.letter := by decide +kernel
  have := key d hd hv
  split at this
  · rename_i e
    rw [if_pos e]
    obtain ⟨v, _, hn⟩ := this
    rw [← hn]
    refine ⟨v, fun x hx hx0 => ⟨fun ha => ?_, fun ha hx1 => ?_⟩⟩
    · obtain ⟨p, a, b⟩ := (C105_command_line w _ _ (Written.equal v x hx0 hx h) (by simp)).1 ha
      exact ⟨p, b, a⟩
    · obtain ⟨p, a, b⟩ := (C105_command_line w _ _ (Written.separate v x hx1 hx h) (by simp)).1 ha
      exact ⟨p, b, a⟩
  · rename_i e
    rw [if_neg e]
    obtain ⟨f, _, hn, hl⟩ := this
    rw [← hn]
    refine ⟨f, fun ha => ⟨?_, fun c hc => ?_⟩⟩
    · obtain ⟨p, a, b⟩ := (C105_command_line w _ _ (Written.long f h) (by simp)).1 ha
      exact ⟨p, b, a⟩
    · obtain ⟨p, a, b⟩ := (C105_command_line w _ _
        (Written.letters [f] [c] (by simp) (by simp [hl, hc]) h) (by simp)).1 ha
      refine ⟨p, b, ?_⟩
      have e2 : str (String.ofList ['-', c]) = str "-" ++ str (String.ofList [c]) := by
        rw [str_ofList ['-', c], str_ofList [c]]; rfl
      rw [e2]; exact a

theorem C106_example : (⟨'n', "dry-run", false⟩ : Doc) ∈ documented ∧
    (parse demo [str "-n", str "a", str "b"]).map (·.options.dryRun) = some true := by decide +kernel

/-- C106 is violated: `--verbose` is in the help text, but every command line that begins with it is rejected. -/
theorem C106_verbose_violated (w : World) (args : List Str) : (⟨'v', "verbose", false⟩ : Doc) ∈ documented ∧
    parse w (str "--verbose" :: args) = none := by
  refine ⟨by decide +kernel, ?_⟩
  rw [parse_eq w _ (by simp)]
  have e : str "--verbose" = 45 :: 45 :: str "verbose" := rfl
  have h1 : splitEq (str "verbose") = none := by decide +kernel
  have h2 : table.lookup (str "verbose") = none := by decide +kernel
  rw [e, loop, h1]
  simp only [handle, h2]
  rfl

/-! ## C107: nothing is ignored -/

/-- No argument is empty or a lone dash, no value is given to an option that has none, and numbers are numbers. -/
structure Plain (args : List Str) : Prop where
  notEmpty : ∀ a ∈ args, a ≠ [] ∧ a ≠ str "-"
  flags : ∀ f name x, (name = longName f ∨ ∃ c, letter f = some c ∧ name = String.ofList [c]) →
    str "--" ++ str name ++ str "=" ++ x ∉ args
  numbers : ∀ v x, v = .compressLevel ∨ v = .contimeout → str "--" ++ str (valueName v) ++ str "=" ++ x ∈ args → IsInt x
  numbers' : ∀ v x, v = .compressLevel ∨ v = .contimeout →
    ∀ a b, args = a ++ (str "--" ++ str (valueName v)) :: x :: b → IsInt x

theorem plain_tail {a : Str} {rest : List Str} (h : Plain (a :: rest)) : Plain rest where
  notEmpty := fun b hb => h.notEmpty b (List.mem_cons_of_mem _ hb)
  flags := fun f n x hn hm => h.flags f n x hn (List.mem_cons_of_mem _ hm)
  numbers := fun v x hv hm => h.numbers v x hv (List.mem_cons_of_mem _ hm)
  numbers' := fun v x hv p q e => h.numbers' v x hv (a :: p) q (by rw [e]; rfl)

def entryOk : Str × Opt → Bool
  | (k, .flag f) => k = str (longName f) || (letter f).any fun c => k = str (String.ofList [c])
  | (k, .valued v) => k = str (valueName v)
  | (k, .forwardPort) => k = str "forward-port"

theorem table_ok : ∀ e ∈ table, entryOk e = true := by decide +kernel

theorem mem_of_lookup {l : List (Str × Opt)} {k : Str} {o : Opt} (h : l.lookup k = some o) : (k, o) ∈ l := by
  induction l with
  | nil => cases h
  | cons e l ih =>
    obtain ⟨k', o'⟩ := e
    rw [List.lookup_cons] at h
    split at h
    · rename_i he
      have : k = k' := by simpa using he
      cases h; subst this; exact List.mem_cons_self ..
    · exact List.mem_cons_of_mem _ (ih h)

theorem lookup_flag_inv {k : Str} {f : Flag} (h : table.lookup k = some (.flag f)) :
    k = str (longName f) ∨ ∃ c, letter f = some c ∧ k = str (String.ofList [c]) := by
  have := table_ok _ (mem_of_lookup h)
  simp only [entryOk, Bool.or_eq_true, decide_eq_true_eq, Option.any_eq_true] at this
  exact this

theorem lookup_value_inv {k : Str} {v : Valued} (h : table.lookup k = some (.valued v)) : k = str (valueName v) := by
  have := table_ok _ (mem_of_lookup h)
  simpa [entryOk] using this

theorem lookup_fp_inv {k : Str} (h : table.lookup k = some .forwardPort) : k = str "forward-port" := by
  have := table_ok _ (mem_of_lookup h)
  simpa [entryOk] using this

theorem splitEq_inv {s k x : Str} (h : splitEq s = some (k, x)) : s = k ++ str "=" ++ x := by
  induction s generalizing k with
  | nil => cases h
  | cons c s ih =>
    rw [splitEq] at h
    split at h
    · rename_i e
      cases h; rw [e]; rfl
    · obtain ⟨⟨k', x'⟩, h1, h2⟩ := Option.map_eq_some_iff.1 h
      cases h2
      rw [ih h1]; rfl

theorem long_length (f : Flag) : (str (longName f)).length ≠ 1 := by cases f <;> decide +kernel

theorem cluster_inv (w : World) (p q : Parameters) (letters : Str) (h : cluster w p letters = some q) :
    ∃ (fs : List Flag) (cs : List Char), fs.map letter = cs.map some ∧ letters = str (String.ofList cs) ∧ fs.length = letters.length := by
  induction letters generalizing p with
  | nil => exact ⟨[], [], rfl, rfl, rfl⟩
  | cons c s ih =>
    rw [cluster] at h
    cases hh : handle w p [c] none with
    | none => rw [hh] at h; cases h
    | some r =>
      obtain ⟨b, q'⟩ := r
      rw [hh] at h
      obtain ⟨fs, cs, e1, e2, e3⟩ := ih q' h
      unfold handle at hh
      cases hl : table.lookup [c] with
      | none => rw [hl] at hh; cases hh
      | some o =>
        rw [hl] at hh
        cases o with
        | valued v => cases hh
        | forwardPort => cases hh
        | flag f =>
          rcases lookup_flag_inv hl with e | ⟨ch, hc, e⟩
          · exact absurd (by rw [← e]; rfl) (long_length f)
          · refine ⟨f :: fs, ch :: cs, by simp [hc, e1], ?_, by simp [e3]⟩
            rw [str_ofList] at e e2 ⊢
            have : c = ch.toNat.toUInt8 := (List.cons.inj e).1
            rw [List.map_cons, ← this, e2]

theorem suits_of_plain (v : Valued) (x : Str) (hx : x ≠ [])
    (h : v = .compressLevel ∨ v = .contimeout → IsInt x) : Suits v x := by
  cases v
  case compressLevel => exact h (Or.inl rfl)
  case contimeout => exact h (Or.inr rfl)
  case filesFrom => exact hx
  all_goals exact trivial

theorem loop_inv (w : World) (n : Nat) : ∀ (args : List Str), args.length ≤ n → ∀ (p q : Parameters), Plain args →
    loop w p args = some q → ∃ items, Written items args := by
  induction n with
  | zero =>
    intro args hl p q _ _
    rw [List.eq_nil_of_length_eq_zero (Nat.le_zero.1 hl)]
    exact ⟨[], .nil⟩
  | succ n ih =>
    intro args hl p q hp h
    match args with
    | [] => exact ⟨[], .nil⟩
    | a :: rest =>
      have hlr : rest.length ≤ n := Nat.le_of_succ_le_succ hl
      have hpr := plain_tail hp
      by_cases h2 : ∃ key, a = 45 :: 45 :: key
      · obtain ⟨key, rfl⟩ := h2
        have ek : ∀ k : Str, (45 :: 45 :: k : Str) = str "--" ++ k := fun _ => rfl
        rw [loop] at h
        cases hs : splitEq key with
        | some kx =>
          obtain ⟨k, x⟩ := kx
          rw [hs] at h
          simp only at h
          have hk := splitEq_inv hs
          unfold handle at h
          cases hlk : table.lookup k with
          | none => rw [hlk] at h; cases h
          | some o =>
            rw [hlk] at h
            cases o with
            | flag f =>
              exfalso
              rw [hk, ek] at hp
              rcases lookup_flag_inv hlk with e | ⟨c, hc, e⟩
              · subst e
                exact hp.flags f _ x (Or.inl rfl) (by
                  simp only [List.append_assoc]; exact List.mem_cons_self ..)
              · subst e
                exact hp.flags f _ x (Or.inr ⟨c, hc, rfl⟩) (by
                  simp only [List.append_assoc]; exact List.mem_cons_self ..)
            | forwardPort =>
              have e := lookup_fp_inv hlk
              subst e
              by_cases hx : x = []
              · rw [if_pos hx] at h; cases h
              · rw [if_neg hx] at h
                obtain ⟨items, hw⟩ := ih rest hlr p q hpr h
                have e3 : str "--forward-port=" = str "--" ++ (str "forward-port" ++ str "=") := by decide +kernel
                have e4 : (45 :: 45 :: key : Str) = str "--forward-port=" ++ x := by
                  rw [ek, hk, e3]; simp only [List.append_assoc]
                rw [e4]
                exact ⟨_, Written.oldEqual x hx hw⟩
            | valued v =>
              have e := lookup_value_inv hlk
              subst e
              by_cases hx : x = []
              · rw [if_pos hx] at h; cases h
              · rw [if_neg hx] at h
                simp only at h
                cases hv : setValue w p v x with
                | none => rw [hv] at h; cases h
                | some p' =>
                  rw [hv] at h
                  obtain ⟨items, hw⟩ := ih rest hlr p' q hpr h
                  have e4 : (45 :: 45 :: key : Str) = str "--" ++ str (valueName v) ++ str "=" ++ x := by
                    rw [ek, hk]; simp only [List.append_assoc]
                  rw [e4] at hp ⊢
                  exact ⟨_, Written.equal v x hx (suits_of_plain v x hx fun hv =>
                    hp.numbers v x hv (List.mem_cons_self ..)) hw⟩
        | none =>
          rw [hs] at h
          simp only at h
          unfold handle at h
          cases hlk : table.lookup key with
          | none => rw [hlk] at h; cases h
          | some o =>
            rw [hlk] at h
            cases o with
            | flag f =>
              simp only at h
              obtain ⟨items, hw⟩ := ih rest hlr _ q hpr h
              rcases lookup_flag_inv hlk with e | ⟨c, hc, e⟩
              · subst e; exact ⟨_, Written.long f hw⟩
              · subst e; exact ⟨_, Written.dashes f c hc hw⟩
            | forwardPort =>
              have e := lookup_fp_inv hlk
              subst e
              match rest with
              | [] => cases h
              | x :: rest' =>
                by_cases hx : x.head? = some 45
                · simp only [nextValue, if_pos hx] at h; cases h
                · simp only [nextValue, if_neg hx, List.tail_cons] at h
                  have hl2 : rest'.length ≤ n := by simp only [List.length_cons] at hlr; omega
                  obtain ⟨items, hw⟩ := ih rest' hl2 p q (plain_tail hpr) h
                  exact ⟨_, Written.oldSeparate x hx hw⟩
            | valued v =>
              have e := lookup_value_inv hlk
              subst e
              match rest with
              | [] => cases h
              | x :: rest' =>
                by_cases hx : x.head? = some 45
                · simp only [nextValue, if_pos hx] at h; cases h
                · simp only [nextValue, if_neg hx] at h
                  cases hv : setValue w p v x with
                  | none => rw [hv] at h; cases h
                  | some p' =>
                    rw [hv] at h
                    have hl2 : rest'.length ≤ n := by simp only [List.length_cons] at hlr; omega
                    obtain ⟨items, hw⟩ := ih rest' hl2 p' q (plain_tail hpr) h
                    have hx0 := (hpr.notEmpty x (List.mem_cons_self ..)).1
                    exact ⟨_, Written.separate v x hx (suits_of_plain v x hx0 fun hv =>
                      hp.numbers' v x hv [] rest' rfl) hw⟩
      · by_cases h1 : ∃ letters, a = 45 :: letters
        · obtain ⟨letters, rfl⟩ := h1
          rw [loop] at h
          · cases hc : cluster w p letters with
            | none => rw [hc] at h; cases h
            | some p' =>
              rw [hc] at h
              obtain ⟨items, hw⟩ := ih rest hlr p' q hpr h
              obtain ⟨fs, cs, e1, e2, e3⟩ := cluster_inv w p p' letters hc
              have e5 : (45 :: letters : Str) = str "-" ++ str (String.ofList cs) := by rw [← e2]; rfl
              refine ⟨fs.map .flag ++ items, e5 ▸ Written.letters fs cs ?_ e1 hw⟩
              rintro rfl
              have : letters = [] := List.eq_nil_of_length_eq_zero e3.symm
              subst this
              exact (hp.notEmpty _ (List.mem_cons_self ..)).2 rfl
          · intro k hk
            exact h2 ⟨k, by rw [hk]⟩
        · have hh : a.head? ≠ some 45 := by
            intro e
            cases a with
            | nil => cases e
            | cons c a => exact h1 ⟨a, by rw [show c = 45 from Option.some.inj e]⟩
          rw [loop_positional w p a hh] at h
          obtain ⟨items, hw⟩ := ih rest hlr _ q hpr h
          exact ⟨_, Written.positional a (hp.notEmpty a (List.mem_cons_self ..)).1 hh hw⟩

/-- C107: a command line that is accepted is one of the grammar, and the parameters say what it means: nothing on it is
ignored or taken for something else. (Missing: arguments as excluded by `Plain`; for these see the violations.) -/
theorem C107_nothing_ignored_partial (w : World) (args : List Str) (p : Parameters) (hp : Plain args)
    (h : parse w args = some p) : ∃ items, Written items args ∧ Acceptable w items ∧ Means w items p := by
  by_cases hne : args = []
  · subst hne; cases h
  have h' := h
  rw [parse_eq w args hne] at h
  obtain ⟨q, hq, _⟩ := Option.bind_eq_some_iff.1 h
  obtain ⟨items, hw⟩ := loop_inv w args.length args (Nat.le_refl _) _ q hp hq
  have := C105_command_line w items args hw hne
  refine ⟨items, hw, ?_⟩
  refine Decidable.byContradiction (p := _) (dec := Classical.propDecidable _) fun hn => ?_
  by_cases ha : Acceptable w items
  · obtain ⟨p', a, b⟩ := this.1 ha
    rw [a] at h'
    cases h'
    exact hn ⟨ha, b⟩
  · rw [this.2 ha] at h'; cases h'

/-- C107 is violated: the value given to an option that has none is ignored, whatever it is. -/
theorem C107_flag_value_violated (w : World) (f : Flag) (x : Str) (args : List Str) :
    parse w ((str "--" ++ str (longName f) ++ str "=" ++ x) :: args) = parse w ((str "--" ++ str (longName f)) :: args) := by
  rw [parse_eq w _ (by simp), parse_eq w _ (by simp), loop_flag w _ f _ (long_plain f) (lookup_long f)]
  have e : str "--" ++ str (longName f) ++ str "=" ++ x = 45 :: 45 :: (str (longName f) ++ 61 :: x) := by
    have : str "=" = [61] := rfl
    rw [List.append_assoc, List.append_assoc, this]; rfl
  rw [e, loop, splitEq_some (long_plain f)]
  simp only [handle_flag w _ _ (lookup_long f)]

/-- So `--delete=false` deletes files at the destination, `--dry-run=false` does not transfer anything. -/
theorem C107_delete_false_violated :
    (parse demo [str "-r", str "--delete=false", str "a", str "b"]).map (·.options.delete) = some true ∧
    (parse demo [str "--dry-run=false", str "a", str "b"]).map (·.options.dryRun) = some true := by decide +kernel

/-- C107 is violated: values that are not numbers are accepted. -/
theorem C107_number_violated :
    (parse demo [str "--contimeout=abc", str "a", str "b"]).map (·.options.contimeout) = some 0 ∧
    (parse demo [str "--compress-level=5x", str "a", str "b"]).map (·.options.compressLevel) = some 5 ∧
    ¬ IsInt (str "abc") ∧ ¬ IsInt (str "5x") := by
  refine ⟨by decide +kernel, by decide +kernel, ?_, ?_⟩
  · rintro (⟨h, _⟩ | ⟨d, h, _⟩)
    · exact absurd (h.2 97 (by decide +kernel)) (by decide)
    · have := congrArg List.head? h; revert this; show ¬ (_ = some (45 : UInt8)); decide +kernel
  · rintro (⟨h, _⟩ | ⟨d, h, _⟩)
    · exact absurd (h.2 120 (by decide +kernel)) (by decide)
    · have := congrArg List.head? h; revert this; show ¬ (_ = some (45 : UInt8)); decide +kernel

/-- C107 is violated: empty arguments, lone dashes and an empty `--files-from` are ignored. -/
theorem C107_empty_violated :
    parse demo [str "a", str "", str "-", str "b"] = parse demo [str "a", str "b"] ∧
    (parse demo [str "a", str "b"]).map (·.sources) = some [str "a"] ∧
    (parse demo [str "--files-from", str "", str "a", str "b"]).map (·.sources) = some [str "a"] := by decide +kernel

/-- The example of C105 meets the hypotheses of C107. -/
theorem C107_example : ∃ args p, Plain args ∧ parse demo args = some p ∧ p.options.contimeout = 7 := by
  refine ⟨[str "--contimeout", str "7", str "-z", str "a", str "b"],
    { options := { contimeout := 7, compress := true, ssh := str "ssh -p 1", sftp := str "C:\\bin\\sftp.exe -P 1",
                   scp := str "C:\\bin\\SCP.exe -P 1" }, sources := [str "a"], destination := str "b" }, ?_, by decide +kernel, rfl⟩
  have no_eq : ∀ n x : Str, str "--" ++ n ++ str "=" ++ x ∉ [str "--contimeout", str "7", str "-z", str "a", str "b"] := by
    intro n x hm
    have h61 : (61 : UInt8) ∈ str "--" ++ n ++ str "=" ++ x := by
      have : (61 : UInt8) ∈ str "=" := by decide
      simp [this]
    have : ∀ a ∈ [str "--contimeout", str "7", str "-z", str "a", str "b"], (61 : UInt8) ∉ a := by decide +kernel
    exact this _ hm h61
  refine ⟨by decide +kernel, fun f n x _ => no_eq _ x, fun v x _ hm => absurd hm (no_eq _ x), ?_⟩
  · intro v x hv a b e
    have two : ∀ a : List Str, ∀ y z b, [str "--contimeout", str "7", str "-z", str "a", str "b"] = a ++ y :: z :: b →
        y.take 2 = str "--" → z = str "7" := by
      intro a y z b e hy
      match a with
      | [] => simp only [List.nil_append, List.cons.injEq] at e; exact e.2.1.symm
      | [_] => simp only [List.cons_append, List.nil_append, List.cons.injEq] at e; rw [← e.2.1] at hy; exact absurd hy (by decide +kernel)
      | [_, _] => simp only [List.cons_append, List.nil_append, List.cons.injEq] at e; rw [← e.2.2.1] at hy; exact absurd hy (by decide +kernel)
      | [_, _, _] => simp only [List.cons_append, List.nil_append, List.cons.injEq] at e; rw [← e.2.2.2.1] at hy; exact absurd hy (by decide +kernel)
      | _ :: _ :: _ :: _ :: a =>
        have := congrArg List.length e
        simp only [List.length_cons, List.length_append, List.length_nil] at this
        omega
    have := two a _ x b e rfl
    subst this
    exact Or.inl ⟨⟨by decide +kernel, by decide +kernel⟩, by decide +kernel⟩

end Verif.Text.Params
