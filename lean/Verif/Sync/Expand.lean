import Verif.Sync.SearchLinux

/-!
# The destination given to the server (`HandleSetOptions`, cdc_rsync_server/cdc_rsync_server.cc:412, 424-437, and
# `ExpandPathVariables` on Linux, common/path.cc:222-232)

Modelled: the destination on its way from the request to the directory that is searched and written to. `wordexp` of glibc is modelled
for strings without the characters that start an expansion or a quotation: blanks separate words, and the characters
`newline | & ; < > ( ) { }` make it fail. When it fails, it leaves its result as it was, here uninitialised; `ExpandPathVariables` does
not look at the return value and goes on with it. Not modelled: the expansions themselves.
-/
namespace Verif.Sync.Expand
open Verif.Text.Path Verif.Sync.Search

/-! ## Model -/

/-- Characters with which an expansion or a quotation starts: ``$ ` " ' ~ [ ? * \``. -/
def active (c : UInt8) : Bool := [36, 96, 34, 39, 126, 91, 63, 42, 92].contains c

/-- Characters at which `wordexp` fails. -/
def bad (c : UInt8) : Bool := [10, 124, 38, 59, 60, 62, 40, 41, 123, 125].contains c

def blank (c : UInt8) : Bool := c == 32 || c == 9

/-- `wordexp` without expansions: `none` is a failure. The second argument is the word that is being read. -/
def wordexp : Str → Str → Option (List Str)
  | [], cur => some (if cur = [] then [] else [cur])
  | c :: s, cur =>
    if blank c then (wordexp s []).map fun l => (if cur = [] then [] else [cur]) ++ l
    else if bad c then none
    else wordexp s (cur ++ [c])

/-- What becomes of the request: undefined behaviour, an error for the client, or a destination. -/
inductive Outcome where
  | undefined
  | error
  | ok (dest : Str)
deriving DecidableEq

/-- `ExpandPathVariables`, common/path.cc:222-232. The first word of an empty result is a null pointer. -/
def expand (s : Str) : Outcome := match wordexp s [] with
  | none => .undefined
  | some [] => .undefined
  | some [w] => .ok w
  | some _ => .error

/-- `HandleSetOptions`, cdc_rsync_server/cdc_rsync_server.cc:412, 424-437. -/
def destination (requested : Str) : Outcome := expand (ensureEndsWithSep false (toNative false requested))

/-! ## Specification -/

/-- Characters that mean themselves. A `\` does too: it becomes a `/` first. -/
def Ordinary (c : UInt8) : Prop := (active c = false ∨ c = 92) ∧ bad c = false ∧ blank c = false

/-! ## Proof -/

theorem wordexp_plain {s cur : Str} (h : ∀ c ∈ s, bad c = false ∧ blank c = false) (h0 : cur ++ s ≠ []) :
    wordexp s cur = some [cur ++ s] := by
  induction s generalizing cur with
  | nil =>
    rw [List.append_nil] at h0 ⊢
    rw [wordexp, if_neg h0]
  | cons c s ih =>
    obtain ⟨h1, h2⟩ := h c List.mem_cons_self
    rw [wordexp, if_neg (by simp [h2]), if_neg (by simp [h1]), ih (fun x hx => h x (List.mem_cons_of_mem _ hx)) (by simp)]
    simp

theorem wordexp_append {a s cur : Str} (h : ∀ c ∈ a, bad c = false ∧ blank c = false) : wordexp (a ++ s) cur = wordexp s (cur ++ a) := by
  induction a generalizing cur with
  | nil => simp
  | cons c a ih =>
    obtain ⟨h1, h2⟩ := h c List.mem_cons_self
    rw [List.cons_append, wordexp, if_neg (by simp [h2]), if_neg (by simp [h1]), ih (fun x hx => h x (List.mem_cons_of_mem _ hx))]
    simp

theorem ordinary_native {c : UInt8} (h : bad c = false ∧ blank c = false) :
    bad (if c = other false then native false else c) = false ∧ blank (if c = other false then native false else c) = false := by
  split
  · exact ⟨by decide, by decide⟩
  · exact h

theorem toNative_ordinary {s : Str} (h : ∀ c ∈ s, bad c = false ∧ blank c = false) :
    ∀ c ∈ toNative false s, bad c = false ∧ blank c = false := by
  intro c hc
  obtain ⟨d, hd, rfl⟩ := List.mem_map.mp hc
  exact ordinary_native (h d hd)

theorem ensure_append (s : Str) : ∃ t, ensureEndsWithSep false s = s ++ t ∧ ∀ c ∈ t, c = 47 := by
  unfold ensureEndsWithSep
  split
  · exact ⟨[], by simp, by simp⟩
  · exact ⟨[47], rfl, by simp⟩

/-! ## C150: the destination is the one that was asked for -/

/-- **C150** (partial) A destination of ordinary characters is used as it is, with `\` turned into `/` and a `/` at its end. Missing: blanks
and the characters the shell reserves (the violations below), and expansions (not modelled). -/
theorem C150_literal_partial (requested : Str) (h : ∀ c ∈ requested, Ordinary c) :
    destination requested = .ok (ensureEndsWithSep false (toNative false requested)) := by
  unfold destination expand
  have hne : ([] : Str) ++ ensureEndsWithSep false (toNative false requested) ≠ [] := by
    rw [List.nil_append]
    unfold ensureEndsWithSep
    split
    · rename_i h1
      intro h2
      rw [h2] at h1
      cases h1
    · simp
  rw [wordexp_plain _ hne]
  · rfl
  · obtain ⟨t, e, ht⟩ := ensure_append (toNative false requested)
    rw [e]
    intro c hc
    rcases List.mem_append.mp hc with hc | hc
    · exact toNative_ordinary (fun c hc => ⟨(h c hc).2.1, (h c hc).2.2⟩) c hc
    · rw [ht c hc]; exact ⟨by decide, by decide⟩

theorem toNative_append (a b : Str) : toNative false (a ++ b) = toNative false a ++ toNative false b := by simp [toNative]

/-- **C150** (violated) A destination with a blank in it is refused: for all ordinary `a` and `b` around the blank. -/
theorem C150_blank_violated (a b : Str) (ha : ∀ c ∈ a, Ordinary c) (hb : ∀ c ∈ b, Ordinary c) (ha0 : a ≠ []) :
    destination (a ++ 32 :: b) = .error := by
  have hb' : ∀ c ∈ b, bad c = false ∧ blank c = false := fun c hc => ⟨(hb c hc).2.1, (hb c hc).2.2⟩
  have ha' : ∀ c ∈ a, bad c = false ∧ blank c = false := fun c hc => ⟨(ha c hc).2.1, (ha c hc).2.2⟩
  obtain ⟨t, e, ht⟩ := ensure_append (toNative false (a ++ 32 :: b))
  have hlast : toNative false b ++ t ≠ [] := by
    intro h0
    rw [List.append_eq_nil_iff] at h0
    obtain ⟨h1, rfl⟩ := h0
    rw [List.append_nil] at e
    unfold ensureEndsWithSep at e
    rw [toNative_append] at e
    have h3 : toNative false (32 :: b) = [32] := by
      show _ :: toNative false b = _
      rw [h1]
      rfl
    rw [h3] at e
    have h4 : endsWithSep (toNative false a ++ [32]) = false := by simp [endsWithSep, isSep]
    rw [h4, if_neg (by simp)] at e
    have := congrArg List.length e
    simp at this
  unfold destination expand
  rw [e, toNative_append]
  have h5 : toNative false a ++ toNative false (32 :: b) ++ t = toNative false a ++ (32 :: (toNative false b ++ t)) := by
    have : toNative false (32 :: b) = 32 :: toNative false b := rfl
    rw [this]
    simp
  rw [h5, wordexp_append (toNative_ordinary ha'), wordexp, if_pos (by decide), wordexp_plain (s := toNative false b ++ t) (cur := [])]
  · rw [Option.map_some, if_neg (by simpa [toNative] using ha0)]
    rfl
  · intro c hc
    rcases List.mem_append.mp hc with hc | hc
    · exact toNative_ordinary hb' c hc
    · rw [ht c hc]; exact ⟨by decide, by decide⟩
  · exact hlast

/-- **C150** (violated) A destination with one of the characters `newline | & ; < > ( ) { }`: the server goes on with an uninitialised
result. -/
theorem C150_reserved_violated (a b : Str) (c : UInt8) (ha : ∀ x ∈ a, Ordinary x) (hc : bad c = true) :
    destination (a ++ c :: b) = .undefined := by
  have ha' : ∀ c ∈ a, bad c = false ∧ blank c = false := fun c hc => ⟨(ha c hc).2.1, (ha c hc).2.2⟩
  obtain ⟨t, e, _⟩ := ensure_append (toNative false (a ++ c :: b))
  have hnc : c ≠ 92 := by rintro rfl; exact absurd hc (by decide)
  have hbl : blank c = false := by
    unfold blank
    simp only [Bool.or_eq_false_iff, beq_eq_false_iff_ne]
    exact ⟨fun e => by rw [e] at hc; exact absurd hc (by decide), fun e => by rw [e] at hc; exact absurd hc (by decide)⟩
  have h5 : toNative false (a ++ c :: b) ++ t = toNative false a ++ (c :: (toNative false b ++ t)) := by
    have : toNative false (c :: b) = c :: toNative false b := by
      show (if c = other false then native false else c) :: _ = _
      rw [if_neg (show ¬ c = other false from hnc)]
      rfl
    rw [toNative_append, this]
    simp
  unfold destination expand
  rw [e, h5, wordexp_append (toNative_ordinary ha'), wordexp, if_neg (by simp [hbl]), if_pos hc]

/-! ### Examples -/

example : destination (str "mnt\\dev") = .ok (str "mnt/dev/") := by decide +kernel
example : ∀ c ∈ str "mnt\\dev", Ordinary c := by unfold Ordinary; decide
example : destination (str "my games") = .error := by decide +kernel
example : destination (str "game (1)") = .undefined := by decide +kernel
example : destination (str "game(1)") = .undefined := by decide +kernel

/-- The destination `mnt//` reaches the search as it is, where it crashes the server (`C149_slashes_violated`). -/
example : destination (str "mnt//") = .ok (str "mnt//") := by decide +kernel

end Verif.Sync.Expand
