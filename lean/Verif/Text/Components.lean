import Verif.Text.Flags
/-! # C112-C116: is the server on the device the one that belongs to the client?

common/gamelet_component.cc, the checks of cdc_rsync_server and cdc_fuse_fs, and the deployment by sftp
(cdc_rsync/server_arch.cc: `GetDeploySftpCommands`, cdc_stream/cdc_fuse_manager.cc: `Deploy`). -/
namespace Verif.Text.Components
open Flags (Str split isSpace isDigit digitsVal IsNumber value)

/-! ## Model: the arguments -/

/-- `GameletComponent`, common/gamelet_component.h:29-37. -/
structure Component where
  version : Str
  filename : Str
  size : Nat
  mtime : Int
deriving DecidableEq

/-- `%u` of `absl::StrFormat`. -/
def dec (n : Nat) : Str := if n < 10 then [48 + n.toUInt8] else dec (n / 10) ++ [48 + (n % 10).toUInt8]

/-- `%d`. -/
def decInt (i : Int) : Str := if i < 0 then 45 :: dec i.natAbs else dec i.natAbs

/-- One component, gamelet_component.cc:80-82. -/
def one (c : Component) : Str := c.version ++ [32] ++ c.filename ++ [32] ++ dec c.size ++ [32] ++ decInt c.mtime

/-- `ToCommandLineArgs`, gamelet_component.cc:76-85: the text so far is `args`. -/
def toArgsFrom (args : Str) : List Component → Str
  | [] => args
  | c :: cs => toArgsFrom (args ++ (if args = [] then [] else [32]) ++ one c) cs

def toArgs (cs : List Component) : Str := toArgsFrom [] cs

/-- The sign `strtol` reads. -/
def sign : Str → Bool × Str
  | 45 :: t => (true, t)
  | 43 :: t => (false, t)
  | s => (false, s)

/-- `std::stol` for a `long` with the range `-L ... L - 1`; `none` if it throws. -/
def stol (L : Nat) (s : Str) : Option Int :=
  let (neg, s) := sign (s.dropWhile isSpace)
  if (s.head?.map isDigit) = some true then
    let v : Int := if neg then -(digitsVal 0 s : Int) else digitsVal 0 s
    if -(L : Int) ≤ v ∧ v < L then some v else none
  else none

/-- `FromCommandLineArgs` with an array, gamelet_component.cc:88-96. A size is converted to 64 bits without sign. -/
def fromArgv (L : Nat) : List Str → Option (List Component)
  | v :: f :: s :: t :: rest => do
    let size ← stol L s
    let time ← stol L t
    let cs ← fromArgv L rest
    some (⟨v, f, (size % 2 ^ 64).toNat, time⟩ :: cs)
  | _ => some []

/-- `FromCommandLineArgs` with a text, gamelet_component.cc:99-106. -/
def fromArgs (L : Nat) (s : Str) : Option (List Component) := fromArgv L (split 32 s)

/-! ## Model: the checks -/

/-- "DEV" -/
def dev : Str := [68, 69, 86]

/-- `operator==`, gamelet_component.cc:37-51: `a` is the left operand. The code looks at the version of `a` twice. -/
def same (a b : Component) : Bool :=
  if a.filename ≠ b.filename then false
  else if a.version ≠ dev ∧ a.version ≠ dev then a.version = b.version
  else a.size = b.size && a.mtime = b.mtime

/-- `==` of two vectors. -/
def sameAll : List Component → List Component → Bool
  | [], [] => true
  | a :: as, b :: bs => same a b && sameAll as bs
  | _, _ => false

/-- A file on a disk. -/
structure File where
  data : Str
  mtime : Int
deriving DecidableEq

/-- `GameletComponent::Get`, gamelet_component.cc:58-73: `version` is compiled into the program that calls it. `none` if a
file can't be found. -/
def get (version : Str) : List (Str × Option File) → Option (List Component)
  | [] => some []
  | (_, none) :: _ => none
  | (name, some f) :: fs => (get version fs).map (⟨version, name, f.data.length, f.mtime⟩ :: ·)

/-- `CdcRsyncServer::CheckComponents`, cdc_rsync_server.cc:272-289, and `IsUpToDate`, cdc_fuse_fs/main.cc:44-78: the
components of the client, the version compiled into this program and the files beside it. (The case that the directory of
the program is not known is left out: the check fails then. `IsUpToDate` also fails if there are no components.) -/
def upToDate (components : List Component) (version : Str) (files : List (Str × Option File)) : Bool :=
  match get version files with
  | none => false
  | some ours => sameAll components ours

/-! ## Specification -/

/-- The text can be one word of a command line. -/
def Word (s : Str) : Prop := s ≠ [] ∧ (32 : UInt8) ∉ s

/-- The components of files whose names and versions are words, with sizes and times in the range of `long`. -/
structure Good (L : Nat) (c : Component) : Prop where
  version : Word c.version
  filename : Word c.filename
  size : c.size < L
  mtime : -(L : Int) ≤ c.mtime ∧ c.mtime < L

/-- The nonempty words of a command line, as the shell or the C runtime separate them. -/
def words (s : Str) : List Str := (split 32 s).filter (· ≠ [])

/-- gamelet_component.cc:42-44: "If either build version is the dev version, it means that the component was built locally, so that
we can't compare build versions. Fall back to comparing file_size and modified_time." -/
def Fresh (a b : Component) : Prop :=
  a.filename = b.filename ∧
  ((a.version ≠ dev ∧ b.version ≠ dev) → a.version = b.version) ∧
  ((a.version = dev ∨ b.version = dev) → a.size = b.size ∧ a.mtime = b.mtime)

/-! ## The round trip -/

theorem digit_toNat (n : Nat) (h : n < 10) : (48 + n.toUInt8 : UInt8).toNat = 48 + n ∧ isDigit (48 + n.toUInt8) = true := by
  have : ∀ n : Fin 10, (48 + n.val.toUInt8 : UInt8).toNat = 48 + n.val ∧ isDigit (48 + n.val.toUInt8) = true := by decide
  exact this ⟨n, h⟩

theorem dec_spec (n : Nat) : IsNumber (dec n) ∧ value (dec n) = n := by
  induction n using Nat.strongRecOn with
  | _ n ih =>
    rw [dec]
    split
    · rename_i h
      obtain ⟨h1, h2⟩ := digit_toNat n h
      refine ⟨⟨by simp, ?_⟩, ?_⟩
      · intro c hc; rw [List.mem_singleton.1 hc]; exact h2
      · simp only [value, List.foldl_cons, List.foldl_nil, h1]; omega
    · rename_i h
      obtain ⟨⟨a1, a2⟩, a3⟩ := ih (n / 10) (by omega)
      obtain ⟨h1, h2⟩ := digit_toNat (n % 10) (by omega)
      refine ⟨⟨by simp, ?_⟩, ?_⟩
      · intro c hc
        rcases List.mem_append.1 hc with hc | hc
        · exact a2 c hc
        · rw [List.mem_singleton.1 hc]; exact h2
      · simp only [value, List.foldl_append, List.foldl_cons, List.foldl_nil, h1]
        simp only [value] at a3
        rw [a3]; omega

theorem isDigit_facts (c : UInt8) (h : isDigit c = true) : isSpace c = false ∧ c ≠ 45 ∧ c ≠ 43 ∧ c ≠ 32 := by
  have : ∀ n : Fin 256, isDigit (UInt8.ofNat n) = true →
      isSpace (UInt8.ofNat n) = false ∧ UInt8.ofNat n ≠ 45 ∧ UInt8.ofNat n ≠ 43 ∧ UInt8.ofNat n ≠ 32 := by decide +kernel
  have h2 := this ⟨c.toNat, c.toNat_lt⟩
  simp only [UInt8.ofNat_toNat] at h2
  exact h2 h

theorem stol_dec (L n : Nat) (h : n < L) : stol L (dec n) = some (n : Int) := by
  obtain ⟨⟨h1, h2⟩, h3⟩ := dec_spec n
  obtain ⟨c, s, hs⟩ := List.exists_cons_of_ne_nil h1
  have hc := h2 c (by rw [hs]; simp)
  obtain ⟨f1, f2, f3, f4⟩ := isDigit_facts c hc
  have hd : (dec n).dropWhile isSpace = dec n := by rw [hs, List.dropWhile_cons, f1]; rfl
  have hv : digitsVal 0 (dec n) = n := by rw [Flags.digitsVal_eq _ h2]; exact h3
  unfold stol
  rw [hd]
  have hm : sign (dec n) = (false, dec n) := by
    rw [hs]; unfold sign; split
    · rename_i e; simp only [List.cons.injEq] at e; exact absurd e.1 f2
    · rename_i e; simp only [List.cons.injEq] at e; exact absurd e.1 f3
    · rfl
  simp only
  rw [hm]
  simp only
  rw [if_pos (by rw [hs]; simp [hc])]
  simp only [hv, Bool.false_eq_true, if_false]
  rw [if_pos (by omega)]

theorem stol_decInt (L : Nat) (i : Int) (h : -(L : Int) ≤ i ∧ i < L) : stol L (decInt i) = some i := by
  unfold decInt
  by_cases hn : i < 0
  · rw [if_pos hn]
    obtain ⟨⟨h1, h2⟩, h3⟩ := dec_spec i.natAbs
    obtain ⟨c, s, hs⟩ := List.exists_cons_of_ne_nil h1
    have hc := h2 c (by rw [hs]; simp)
    have hv : digitsVal 0 (dec i.natAbs) = i.natAbs := by rw [Flags.digitsVal_eq _ h2]; exact h3
    unfold stol
    have hd : (45 :: dec i.natAbs).dropWhile isSpace = 45 :: dec i.natAbs := by
      rw [List.dropWhile_cons, if_neg (by decide)]
    rw [hd]
    simp only [sign]
    rw [if_pos (by rw [hs]; simp [hc])]
    simp only [hv, if_true]
    rw [if_pos (by omega)]
    congr 1; omega
  · rw [if_neg hn, stol_dec L _ (by omega)]
    congr 1; omega

theorem no_space_dec (n : Nat) : Word (dec n) := by
  obtain ⟨⟨h1, h2⟩, _⟩ := dec_spec n
  exact ⟨h1, fun h => (isDigit_facts 32 (h2 32 h)).2.2.2 rfl⟩

theorem no_space_decInt (i : Int) : Word (decInt i) := by
  obtain ⟨h1, h2⟩ := no_space_dec i.natAbs
  unfold decInt
  split
  · refine ⟨by simp, ?_⟩
    intro h
    rcases List.mem_cons.1 h with h | h
    · exact absurd h (by decide)
    · exact h2 h
  · exact ⟨h1, h2⟩

theorem split_word (s : Str) (h : (32 : UInt8) ∉ s) : split 32 s = [s] := by
  induction s with
  | nil => rfl
  | cons c s ih =>
    have hc : c ≠ 32 := fun e => h (by rw [e]; simp)
    rw [split, if_neg hc, ih (fun e => h (List.mem_cons_of_mem _ e))]

theorem split_append (s t : Str) (h : (32 : UInt8) ∉ s) : split 32 (s ++ 32 :: t) = s :: split 32 t := by
  induction s with
  | nil => simp [split]
  | cons c s ih =>
    have hc : c ≠ 32 := fun e => h (by rw [e]; simp)
    rw [List.cons_append, split, if_neg hc, ih (fun e => h (List.mem_cons_of_mem _ e))]

/-- The words of the components. -/
def wordsOf (cs : List Component) : List Str := cs.flatMap fun c => [c.version, c.filename, dec c.size, decInt c.mtime]

theorem toArgsFrom_acc (args : Str) (h : args ≠ []) (cs : List Component) :
    toArgsFrom args cs = if cs = [] then args else args ++ 32 :: toArgs cs := by
  have one_ne : ∀ c, one c ≠ [] := by intro c; simp [one]
  induction cs generalizing args with
  | nil => rfl
  | cons c cs ih =>
    rw [toArgsFrom, if_neg h, ih _ (by simp)]
    have e : toArgs (c :: cs) = toArgsFrom (one c) cs := by simp [toArgs, toArgsFrom]
    rw [if_neg (List.cons_ne_nil _ _), e, ih _ (one_ne c)]
    split <;> simp

theorem toArgs_cons (c : Component) (cs : List Component) :
    toArgs (c :: cs) = if cs = [] then one c else one c ++ 32 :: toArgs cs := by
  have one_ne : one c ≠ [] := by simp [one]
  have e : toArgs (c :: cs) = toArgsFrom (one c) cs := by simp [toArgs, toArgsFrom]
  rw [e, toArgsFrom_acc _ one_ne]

theorem split_toArgs (cs : List Component) (hne : cs ≠ []) (h : ∀ c ∈ cs, (32 : UInt8) ∉ c.version ∧ (32 : UInt8) ∉ c.filename) :
    split 32 (toArgs cs) = wordsOf cs := by
  induction cs with
  | nil => exact absurd rfl hne
  | cons c cs ih =>
    obtain ⟨h1, h2⟩ := h c (by simp)
    rw [toArgs_cons]
    by_cases hc : cs = []
    · subst hc
      rw [if_pos rfl, one]
      simp only [List.append_assoc, List.singleton_append, List.cons_append, List.nil_append]
      rw [split_append _ _ h1, split_append _ _ h2, split_append _ _ (no_space_dec _).2, split_word _ (no_space_decInt _).2]
      rfl
    · rw [if_neg hc, one]
      simp only [List.append_assoc, List.singleton_append, List.cons_append, List.nil_append]
      rw [split_append _ _ h1, split_append _ _ h2, split_append _ _ (no_space_dec _).2, split_append _ _ (no_space_decInt _).2,
        ih hc (fun d hd => h d (by simp [hd]))]
      rfl

theorem fromArgv_wordsOf (L : Nat) (hL : L ≤ 2 ^ 64) (cs : List Component)
    (h : ∀ c ∈ cs, c.size < L ∧ -(L : Int) ≤ c.mtime ∧ c.mtime < L) : fromArgv L (wordsOf cs) = some cs := by
  induction cs with
  | nil => rfl
  | cons c cs ih =>
    obtain ⟨h1, h2⟩ := h c (by simp)
    have e : wordsOf (c :: cs) = c.version :: c.filename :: dec c.size :: decInt c.mtime :: wordsOf cs := rfl
    rw [e, fromArgv, stol_dec _ _ h1, stol_decInt _ _ h2, ih (fun d hd => h d (by simp [hd]))]
    simp only [Option.bind_eq_bind, Option.bind_some]
    have : ((c.size : Int) % 2 ^ 64).toNat = c.size := by
      rw [Int.emod_eq_of_lt (by omega) (by omega)]; rfl
    rw [this]

theorem words_wordsOf (cs : List Component) (h : ∀ c ∈ cs, Word c.version ∧ Word c.filename) :
    (wordsOf cs).filter (fun w => decide (w ≠ [])) = wordsOf cs := by
  rw [List.filter_eq_self]
  intro w hw
  obtain ⟨c, hc, hw⟩ := List.mem_flatMap.1 hw
  have := h c hc
  simp only [List.mem_cons, List.not_mem_nil, or_false] at hw
  rcases hw with rfl | rfl | rfl | rfl
  · simpa using this.1.1
  · simpa using this.2.1
  · simpa using (no_space_dec _).1
  · simpa using (no_space_decInt _).1

/-- C112: the components that the client writes to a command line are the ones the server reads from it, both from one argument
(cdc_fuse_fs) and from the words the shell makes of it (cdc_rsync_server), if the sizes and times fit into `long`. Missing: times that
don't, see `C112_time_violated`. -/
theorem C112_roundtrip_partial (L : Nat) (hL : L ≤ 2 ^ 64) (cs : List Component) (h : ∀ c ∈ cs, Good L c) :
    fromArgs L (toArgs cs) = some cs ∧ fromArgv L (words (toArgs cs)) = some cs := by
  by_cases hc : cs = []
  · subst hc; exact ⟨rfl, rfl⟩
  · have hs := split_toArgs cs hc (fun c hm => ⟨(h c hm).version.2, (h c hm).filename.2⟩)
    have hf := fromArgv_wordsOf L hL cs (fun c hm => ⟨(h c hm).size, (h c hm).mtime⟩)
    constructor
    · unfold fromArgs; rw [hs]; exact hf
    · unfold words; rw [hs, words_wordsOf cs (fun c hm => ⟨(h c hm).version, (h c hm).filename⟩)]; exact hf

theorem stol_dec_big (L n : Nat) (h : L ≤ n) : stol L (dec n) = none := by
  obtain ⟨⟨h1, h2⟩, h3⟩ := dec_spec n
  obtain ⟨c, s, hs⟩ := List.exists_cons_of_ne_nil h1
  have hc := h2 c (by rw [hs]; simp)
  obtain ⟨f1, f2, f3, f4⟩ := isDigit_facts c hc
  have hd : (dec n).dropWhile isSpace = dec n := by rw [hs, List.dropWhile_cons, f1]; rfl
  have hv : digitsVal 0 (dec n) = n := by rw [Flags.digitsVal_eq _ h2]; exact h3
  unfold stol
  rw [hd]
  have hm : sign (dec n) = (false, dec n) := by
    rw [hs]; unfold sign; split
    · rename_i e; simp only [List.cons.injEq] at e; exact absurd e.1 f2
    · rename_i e; simp only [List.cons.injEq] at e; exact absurd e.1 f3
    · rfl
  simp only
  rw [hm]
  simp only
  rw [if_pos (by rw [hs]; simp [hc])]
  simp only [hv, Bool.false_eq_true, if_false]
  rw [if_neg (by omega)]

theorem stol_decInt_big (L : Nat) (i : Int) (h : ¬ (-(L : Int) ≤ i ∧ i < L)) : stol L (decInt i) = none := by
  unfold decInt
  by_cases hn : i < 0
  · rw [if_pos hn]
    obtain ⟨⟨h1, h2⟩, h3⟩ := dec_spec i.natAbs
    obtain ⟨c, s, hs⟩ := List.exists_cons_of_ne_nil h1
    have hc := h2 c (by rw [hs]; simp)
    have hv : digitsVal 0 (dec i.natAbs) = i.natAbs := by rw [Flags.digitsVal_eq _ h2]; exact h3
    unfold stol
    have hd : (45 :: dec i.natAbs).dropWhile isSpace = 45 :: dec i.natAbs := by
      rw [List.dropWhile_cons, if_neg (by decide)]
    rw [hd]
    simp only [sign]
    rw [if_pos (by rw [hs]; simp [hc])]
    simp only [hv, if_true]
    rw [if_neg (by omega)]
  · rw [if_neg hn, stol_dec_big L _ (by omega)]

/-- C112, exactly: components whose names and versions are words arrive if and only if all sizes and times fit into `long`; if they do not, nothing arrives
(`std::stol` throws). So files are compared for ever in vain on a system whose `long` is too small for one of them. -/
theorem C112_exactly (L : Nat) (hL : L ≤ 2 ^ 64) (cs : List Component) (h : ∀ c ∈ cs, Word c.version ∧ Word c.filename) :
    fromArgv L (words (toArgs cs)) =
      open Classical in if ∀ c ∈ cs, c.size < L ∧ -(L : Int) ≤ c.mtime ∧ c.mtime < L then some cs else none := by
  by_cases hc : cs = []
  · subst hc; rw [if_pos (by simp)]; rfl
  have hs := split_toArgs cs hc (fun c hm => ⟨(h c hm).1.2, (h c hm).2.2⟩)
  unfold words
  rw [hs, words_wordsOf cs h]
  by_cases hf : ∀ c ∈ cs, c.size < L ∧ -(L : Int) ≤ c.mtime ∧ c.mtime < L
  · rw [if_pos hf]; exact fromArgv_wordsOf L hL cs hf
  · rw [if_neg hf]
    clear hs hc h
    induction cs with
    | nil => exact absurd (by simp) hf
    | cons c cs ih =>
      have e : wordsOf (c :: cs) = c.version :: c.filename :: dec c.size :: decInt c.mtime :: wordsOf cs := rfl
      rw [e, fromArgv]
      by_cases h1 : c.size < L
      · by_cases h2 : -(L : Int) ≤ c.mtime ∧ c.mtime < L
        · rw [ih (fun h => hf fun d hd => by
            rcases List.mem_cons.1 hd with rfl | hd
            · exact ⟨h1, h2⟩
            · exact h d hd), stol_dec _ _ h1, stol_decInt _ _ h2]
          rfl
        · rw [stol_decInt_big _ _ h2, stol_dec _ _ h1]; rfl
      · rw [stol_dec_big _ _ (by omega)]; rfl

/-- C112 is violated where `long` has 32 bits (Windows): for a server binary modified after January 2038 the server throws an
exception while it reads its arguments. -/
theorem C112_time_violated (v f : Str) (size : Nat) (hv : Word v) (hf : Word f) (hs : size < 2 ^ 31) :
    fromArgv (2 ^ 31) (words (toArgs [⟨v, f, size, 2 ^ 31⟩])) = none := by
  have e1 : split 32 (toArgs [⟨v, f, size, 2 ^ 31⟩]) = wordsOf [⟨v, f, size, 2 ^ 31⟩] :=
    split_toArgs _ (by simp) (by intro c hc; rw [List.mem_singleton.1 hc]; exact ⟨hv.2, hf.2⟩)
  have e2 := words_wordsOf [⟨v, f, size, 2 ^ 31⟩] (by intro c hc; rw [List.mem_singleton.1 hc]; exact ⟨hv, hf⟩)
  unfold words
  rw [e1, e2]
  show fromArgv (2 ^ 31) [v, f, dec size, decInt (2 ^ 31)] = none
  have : stol (2 ^ 31) (decInt (2 ^ 31)) = none := by decide +kernel
  rw [fromArgv, stol_dec _ _ hs, this]
  rfl

/-- Two components as in cdc_stream, one modified before 1970. -/
theorem C112_example :
    let cs : List Component := [⟨[48, 46, 49], [97], 1234567, 1670000000⟩, ⟨[48, 46, 49], [98, 46, 115, 111], 0, -5⟩]
    (∀ c ∈ cs, Good (2 ^ 63) c) ∧ toArgs cs = (("0.1 a 1234567 1670000000 0.1 b.so 0 -5".toList.map (·.toNat.toUInt8)) : Str) := by
  refine ⟨?_, by decide +kernel⟩
  intro c hc
  simp only [List.mem_cons, List.not_mem_nil, or_false] at hc
  rcases hc with rfl | rfl <;> exact ⟨by unfold Word; decide, by unfold Word; decide, by decide, by decide⟩

/-! ## The comparison -/

theorem same_iff (a b : Component) : same a b = true ↔
    a.filename = b.filename ∧ (a.version ≠ dev → a.version = b.version) ∧
      (a.version = dev → a.size = b.size ∧ a.mtime = b.mtime) := by
  unfold same
  by_cases h1 : a.filename = b.filename
  · rw [if_neg (fun h => h h1)]
    by_cases h2 : a.version = dev
    · rw [if_neg (fun h => h.1 h2)]; simp [h1, h2]
    · rw [if_pos ⟨h2, h2⟩]; simp [h1, h2]
  · rw [if_pos h1]; simp [h1]

theorem sameAll_iff (as bs : List Component) : sameAll as bs = true ↔
    as.length = bs.length ∧ ∀ (i : Nat) a b, as[i]? = some a → bs[i]? = some b → same a b = true := by
  induction as generalizing bs with
  | nil => cases bs <;> simp [sameAll]
  | cons a as ih =>
    cases bs with
    | nil => simp [sameAll]
    | cons b bs =>
      rw [sameAll, Bool.and_eq_true, ih]
      constructor
      · rintro ⟨h1, h2, h3⟩
        refine ⟨by simp [h2], ?_⟩
        intro i x y hx hy
        cases i with
        | zero => simp only [List.getElem?_cons_zero, Option.some.injEq] at hx hy; rw [← hx, ← hy]; exact h1
        | succ i => exact h3 i x y (by simpa using hx) (by simpa using hy)
      · rintro ⟨h1, h2⟩
        exact ⟨h2 0 a b rfl rfl, by simpa using h1, fun i x y hx hy => h2 (i + 1) x y (by simpa using hx) (by simpa using hy)⟩

/-- C113: the check accepts exactly if all components are fresh, provided that it is not a locally built server that is compared with a
released client. Missing: that case, see `C113_dev_server_violated`. -/
theorem C113_check_partial (as bs : List Component)
    (h : ∀ (i : Nat) a b, as[i]? = some a → bs[i]? = some b → a.version ≠ dev → b.version ≠ dev) :
    sameAll as bs = true ↔ as.length = bs.length ∧ ∀ (i : Nat) a b, as[i]? = some a → bs[i]? = some b → Fresh a b := by
  rw [sameAll_iff]
  refine and_congr_right fun _ => ?_
  refine forall_congr' fun i => forall_congr' fun a => forall_congr' fun b => imp_congr_right fun ha =>
    imp_congr_right fun hb => ?_
  rw [same_iff]
  have hi := h i a b ha hb
  unfold Fresh
  constructor
  · rintro ⟨h1, h2, h3⟩
    refine ⟨h1, fun e => h2 e.1, ?_⟩
    rintro (e | e)
    · exact h3 e
    · by_cases ea : a.version = dev
      · exact h3 ea
      · exact absurd e (hi ea)
  · rintro ⟨h1, h2, h3⟩
    exact ⟨h1, fun e => h2 ⟨e, hi e⟩, fun e => h3 (Or.inl e)⟩

/-- C113, exactly: two lists are accepted if and only if they have the same length, all components are fresh, and there is no locally
built component of the server that is compared with a released one of the client. So nothing that is not fresh is ever accepted. -/
theorem C113_exactly (as bs : List Component) :
    sameAll as bs = true ↔ as.length = bs.length ∧ ∀ (i : Nat) a b, as[i]? = some a → bs[i]? = some b →
      Fresh a b ∧ ¬ (a.version ≠ dev ∧ b.version = dev) := by
  rw [sameAll_iff]
  refine and_congr_right fun _ => ?_
  refine forall_congr' fun i => forall_congr' fun a => forall_congr' fun b => imp_congr_right fun ha =>
    imp_congr_right fun hb => ?_
  rw [same_iff]
  unfold Fresh
  constructor
  · rintro ⟨h1, h2, h3⟩
    have hx : ¬ (a.version ≠ dev ∧ b.version = dev) := fun h => h.1 (by rw [h2 h.1]; exact h.2)
    refine ⟨⟨h1, fun e => h2 e.1, ?_⟩, hx⟩
    rintro (e | e)
    · exact h3 e
    · by_cases ea : a.version = dev
      · exact h3 ea
      · exact absurd ⟨ea, e⟩ hx
  · rintro ⟨⟨h1, h2, h3⟩, hx⟩
    exact ⟨h1, fun e => h2 ⟨e, fun eb => hx ⟨e, eb⟩⟩, fun e => h3 (Or.inl e)⟩

/-- Released components of the same version, and a client built locally with a released server, are accepted. -/
example : sameAll [⟨[49], [97], 1, 2⟩, ⟨dev, [98], 3, 4⟩] [⟨[49], [97], 5, 6⟩, ⟨[50], [98], 3, 4⟩] = true := by decide +kernel

/-- C113 is violated: the code looks at the version of the client twice and never at the one of the server. A locally built server
is rejected by a released client although size and time agree; the other way round it would be accepted. -/
theorem C113_dev_server_violated (v f : Str) (size : Nat) (t : Int) (hv : v ≠ dev) :
    let client : Component := ⟨v, f, size, t⟩
    let server : Component := ⟨dev, f, size, t⟩
    Fresh client server ∧ sameAll [client] [server] = false ∧ sameAll [server] [client] = true := by
  intro client server
  refine ⟨⟨rfl, fun h => absurd rfl h.2, fun _ => ⟨rfl, rfl⟩⟩, ?_, ?_⟩
  · have : ¬ (sameAll [client] [server] = true) := by
      simp only [sameAll, Bool.and_true, same_iff]
      exact fun h => hv (h.2.1 hv)
    simpa using this
  · simp [sameAll, same_iff, client, server]

/-! ## Deployment of cdc_rsync_server

Any number of clients deploy, each over its own sftp connection, which may break at any moment. -/

/-- Where a deployment is (server_arch.cc:244-269). -/
inductive Phase
  | before | putting | complete | renamed
deriving DecidableEq

structure Device where
  /-- the server binary -/
  server : Option File := none
  /-- the temporary files; their names are unique (server_arch.cc:260) -/
  temp : Nat → Option File := fun _ => none
  phase : Nat → Phase := fun _ => .before
  /-- the binary the running server process has been started from -/
  running : Option File := none

def set {α : Type} (f : Nat → α) (i : Nat) (x : α) : Nat → α := fun j => if j = i then x else f j

section
variable (own : Nat → File)

/-- One step of one of the deployments, or a start of the server. `own i` is the server binary in the directory of the client of
deployment `i`. A deployment that breaks makes no further steps: sftp stops at the first command that fails (`-b`), and
`rename` comes last. Creating directories and permissions are left out. -/
inductive Step : Device → Device → Prop
  /-- `put`, up to some byte -/
  | put (d : Device) (i n : Nat) (t : Int) : d.phase i = .before ∨ d.phase i = .putting →
      Step d { d with temp := set d.temp i (some ⟨(own i).data.take n, t⟩), phase := set d.phase i .putting }
  /-- `put` has finished; the time is preserved (`-p`, common/remote_util.cc:131-137) -/
  | done (d : Device) (i : Nat) : d.phase i = .putting →
      Step d { d with temp := set d.temp i (some (own i)), phase := set d.phase i .complete }
  /-- `rename` -/
  | rename (d : Device) (i : Nat) : d.phase i = .complete →
      Step d { d with server := d.temp i, temp := set d.temp i none, phase := set d.phase i .renamed }
  | start (d : Device) : Step d { d with running := d.server }

inductive Reach : Device → Prop
  | init : Reach {}
  | step {d d'} : Reach d → Step own d d' → Reach d'

/-- `upToDate` with the arguments the client `c` passes. `version` gives the build version compiled into a binary. -/
def accepts (version : Str → Str) (name : Str) (c : File) (d : Device) : Bool := match d.running with
  | none => false
  | some f => upToDate [⟨version c.data, name, c.data.length, c.mtime⟩] (version f.data) [(name, d.server)]

structure DInv (d : Device) : Prop where
  server : ∀ f, d.server = some f → ∃ i, f = own i
  running : ∀ f, d.running = some f → ∃ i, f = own i
  temp : ∀ i, d.phase i = .complete → d.temp i = some (own i)

theorem reach_inv {d : Device} (h : Reach own d) : DInv own d := by
  induction h with
  | init => exact ⟨by simp, by simp, by simp⟩
  | step _ hs ih =>
    cases hs with
    | put i n t hp =>
      refine ⟨ih.server, ih.running, ?_⟩
      intro j hj
      by_cases e : j = i
      · subst e; simp [set] at hj
      · simp only [set, if_neg e] at hj ⊢; exact ih.temp j hj
    | done i hp =>
      refine ⟨ih.server, ih.running, ?_⟩
      intro j hj
      by_cases e : j = i
      · subst e; simp [set]
      · simp only [set, if_neg e] at hj ⊢; exact ih.temp j hj
    | rename i hp =>
      refine ⟨?_, ih.running, ?_⟩
      · intro f hf
        refine ⟨i, ?_⟩
        have hf : _ = some f := hf
        rw [ih.temp i hp] at hf
        exact (Option.some.inj hf).symm
      · intro j hj
        by_cases e : j = i
        · subst e; simp [set] at hj
        · simp only [set, if_neg e] at hj ⊢; exact ih.temp j hj
    | start => exact ⟨ih.server, ih.server, ih.temp⟩

/-- C114: a server process that passes the check of a released client is of the same build as that client, whatever deployments by
whatever clients have been going on, finished or broken (two binaries with the same build version are the same). -/
theorem C114_released (version : Str → Str) (name : Str) (hver : ∀ i j, version (own i).data ≠ dev →
      version (own i).data = version (own j).data → own i = own j)
    (d : Device) (h : Reach own d) (k : Nat) (hk : version (own k).data ≠ dev) (hacc : accepts version name (own k) d = true) :
    d.running = some (own k) := by
  have inv := reach_inv own h
  unfold accepts at hacc
  cases hr : d.running with
  | none => rw [hr] at hacc; cases hacc
  | some f =>
    obtain ⟨i, rfl⟩ := inv.running f hr
    rw [hr] at hacc
    cases hs : d.server with
    | none => simp [upToDate, get, hs] at hacc
    | some g =>
      simp only [upToDate, get, hs, Option.map_some, sameAll, Bool.and_true, same_iff] at hacc
      rw [hver k i hk (hacc.2.1 hk)]

/-- C115: for locally built programs: the process that passes the check of such a client is of that build if the file has not been
replaced since the process was started (two binaries of the same size and time are the same). Missing: the case that it has, see
`C115_replaced_violated`. -/
theorem C115_local_partial (version : Str → Str) (name : Str) (hstat : ∀ i j, (own i).data.length = (own j).data.length →
      (own i).mtime = (own j).mtime → own i = own j)
    (d : Device) (h : Reach own d) (k : Nat) (hk : version (own k).data = dev) (hsame : d.running = d.server)
    (hacc : accepts version name (own k) d = true) : d.running = some (own k) := by
  have inv := reach_inv own h
  unfold accepts at hacc
  cases hr : d.running with
  | none => rw [hr] at hacc; cases hacc
  | some f =>
    have hs : d.server = some f := by rw [← hsame, hr]
    obtain ⟨i, rfl⟩ := inv.running f hr
    rw [hr] at hacc
    simp only [upToDate, get, hs, Option.map_some, sameAll, Bool.and_true, same_iff] at hacc
    obtain ⟨_, _, h3⟩ := hacc
    rw [hstat k i (h3 hk).1 (h3 hk).2]

/-- After a deployment that has finished the server of that client is there, until another one finishes. -/
theorem C114_deployed (d : Device) (h : Reach own d) (i : Nat) (hp : d.phase i = .complete) :
    ∃ d', Step own d d' ∧ d'.server = some (own i) :=
  ⟨_, .rename d i hp, (reach_inv own h).temp i hp⟩
end

/-- Two locally built servers. -/
def twoServers (i : Nat) : File := if i = 0 then ⟨[1], 100⟩ else ⟨[2, 2], 200⟩

/-- C115 is violated for locally built programs: the old server process has been started; before it checks its components another
client with the new build deploys, and the old process compares the file that has just replaced it. -/
theorem C115_replaced_violated : ∃ d, Reach twoServers d ∧ d.running = some (twoServers 0) ∧ twoServers 0 ≠ twoServers 1 ∧
    accepts (fun _ => dev) [115] (twoServers 1) d = true := by
  refine ⟨_, .step (.step (.step (.step (.step (.step (.step .init (.put _ 0 0 0 (.inl rfl))) (.done _ 0 rfl))
    (.rename _ 0 rfl)) (.start _)) (.put _ 1 1 5 (.inl rfl))) (.done _ 1 rfl)) (.rename _ 1 rfl), rfl, by decide, by decide⟩

/-- A run in which one deployment breaks and another one finishes; the check of the second client, which is a released one, passes. -/
theorem C114_example : ∃ d, Reach twoServers d ∧ d.phase 0 = .putting ∧ d.temp 0 = some ⟨[], 7⟩ ∧
    accepts (fun _ => [49]) [115] (twoServers 1) d = true ∧ d.running = some (twoServers 1) := by
  refine ⟨_, .step (.step (.step (.step (.step .init (.put _ 0 0 7 (.inl rfl))) (.put _ 1 1 5 (.inl rfl))) (.done _ 1 rfl))
    (.rename _ 1 rfl)) (.start _), rfl, rfl, by decide, rfl⟩

/-! ## Deployment of cdc_fuse_fs and libfuse.so

Both files are written in place (cdc_fuse_manager.cc:86-86). -/

structure Fuse where
  fuse : Option File := none
  lib : Option File := none
  running : Option File := none
deriving DecidableEq

/-- The two files of a client. -/
structure Pair where
  fuse : File
  lib : File
deriving DecidableEq

section
variable (own : Nat → Pair)

/-- One step of a deployment by client `i`, or a start of the file system. A deployment may break at any point, so the steps of
deployments may follow in any order. While a file is being written its time is `t` (that of the device's clock), which is not one of
the times the clients' files have. -/
inductive FStep : Fuse → Fuse → Prop
  | putFuse (d : Fuse) (i n : Nat) (t : Int) : (∀ j, t ≠ (own j).fuse.mtime) → FStep d { d with fuse := some ⟨(own i).fuse.data.take n, t⟩ }
  | doneFuse (d : Fuse) (i : Nat) : FStep d { d with fuse := some (own i).fuse }
  | putLib (d : Fuse) (i n : Nat) (t : Int) : (∀ j, t ≠ (own j).lib.mtime) → FStep d { d with lib := some ⟨(own i).lib.data.take n, t⟩ }
  | doneLib (d : Fuse) (i : Nat) : FStep d { d with lib := some (own i).lib }
  | start (d : Fuse) : FStep d { d with running := d.fuse }

inductive FReach : Fuse → Prop
  | init : FReach {}
  | step {d d'} : FReach d → FStep own d d' → FReach d'

/-- `IsUpToDate` of the running file system with the arguments of client `c`. -/
def fuseAccepts (version : Str → Str) (fuseName libName : Str) (c : Pair) (d : Fuse) : Bool := match d.running with
  | none => false
  | some f => upToDate [⟨version c.fuse.data, fuseName, c.fuse.data.length, c.fuse.mtime⟩,
      ⟨version c.fuse.data, libName, c.lib.data.length, c.lib.mtime⟩] (version f.data)
      [(fuseName, d.fuse), (libName, d.lib)]

/-- C116: for locally built programs: if the file system passes the check then both files on the device are those of the client,
whatever deployments finished or broke (files of the same size and time are the same; files being written have other times).
Missing: released builds, see `C116_library_violated`. -/
theorem C116_local_partial (version : Str → Str) (fn ln : Str)
    (hstat : ∀ i j, (own i).fuse.data.length = (own j).fuse.data.length → (own i).fuse.mtime = (own j).fuse.mtime →
      (own i).fuse = (own j).fuse)
    (hstat' : ∀ i j, (own i).lib.data.length = (own j).lib.data.length → (own i).lib.mtime = (own j).lib.mtime →
      (own i).lib = (own j).lib)
    (d : Fuse) (h : FReach own d) (k : Nat) (hk : version (own k).fuse.data = dev)
    (hacc : fuseAccepts version fn ln (own k) d = true) : d.fuse = some (own k).fuse ∧ d.lib = some (own k).lib := by
  have inv : (∀ f, d.fuse = some f → (∃ j, f = (own j).fuse) ∨ ∀ j, f.mtime ≠ (own j).fuse.mtime) ∧
      (∀ f, d.lib = some f → (∃ j, f = (own j).lib) ∨ ∀ j, f.mtime ≠ (own j).lib.mtime) := by
    clear hacc
    induction h with
    | init => exact ⟨by simp, by simp⟩
    | step _ hs ih =>
      cases hs with
      | putFuse i n t ht => exact ⟨fun f hf => Or.inr (by have e := Option.some.inj hf; subst e; exact ht), ih.2⟩
      | doneFuse i => exact ⟨fun f hf => Or.inl ⟨i, (Option.some.inj hf).symm⟩, ih.2⟩
      | putLib i n t ht => exact ⟨ih.1, fun f hf => Or.inr (by have e := Option.some.inj hf; subst e; exact ht)⟩
      | doneLib i => exact ⟨ih.1, fun f hf => Or.inl ⟨i, (Option.some.inj hf).symm⟩⟩
      | start => exact ih
  unfold fuseAccepts at hacc
  cases hr : d.running with
  | none => rw [hr] at hacc; cases hacc
  | some r =>
    rw [hr] at hacc
    cases hf : d.fuse with
    | none => simp [upToDate, get, hf] at hacc
    | some f =>
      cases hl : d.lib with
      | none => simp [upToDate, get, hf, hl] at hacc
      | some l =>
        simp only [upToDate, get, hf, hl, Option.map_some, sameAll, Bool.and_true, Bool.and_eq_true, same_iff] at hacc
        obtain ⟨⟨_, _, h1⟩, ⟨_, _, h2⟩⟩ := hacc
        constructor
        · rcases inv.1 f hf with ⟨j, rfl⟩ | hn
          · rw [hstat k j (h1 hk).1 (h1 hk).2]
          · exact absurd (h1 hk).2.symm (hn k)
        · rcases inv.2 l hl with ⟨j, rfl⟩ | hn
          · rw [hstat' k j (h2 hk).1 (h2 hk).2]
          · exact absurd (h2 hk).2.symm (hn k)
end

/-- An old and a new release: binaries `[0]` and `[1]`, with libraries. -/
def releases (i : Nat) : Pair := if i = 0 then ⟨⟨[0], 10⟩, ⟨[5], 10⟩⟩ else ⟨⟨[1], 20⟩, ⟨[6, 7], 20⟩⟩

/-- C116 is violated for releases: the build version of both components is that of the running program, so the library is not
checked at all. An update that breaks off after cdc_fuse_fs was copied, here after one byte of the library, leaves a device that
passes the check of the new release for ever. -/
theorem C116_library_violated : ∃ d, FReach releases d ∧
    fuseAccepts (fun data => if data = [0] then [48] else [49]) [102] [108] (releases 1) d = true ∧
    d.lib = some ⟨[6], 15⟩ ∧ d.lib ≠ some (releases 1).lib := by
  have t0 : ∀ j, (15 : Int) ≠ (releases j).lib.mtime := by
    intro j; unfold releases; split <;> decide
  exact ⟨_, .step (.step (.step (.step (.step .init (.doneFuse _ 0)) (.doneLib _ 0)) (.doneFuse _ 1)) (.putLib _ 1 1 15 t0))
    (.start _), by decide, rfl, by decide⟩

/-- A history in which the check of a locally built client passes. -/
theorem C116_example : ∃ d, FReach releases d ∧ fuseAccepts (fun _ => dev) [102] [108] (releases 1) d = true :=
  ⟨_, .step (.step (.step .init (.doneFuse _ 1)) (.doneLib _ 1)) (.start _), by decide⟩

end Verif.Text.Components
