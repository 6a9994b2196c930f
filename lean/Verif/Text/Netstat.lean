import Verif.Text.Components
import Verif.Stream.Fuse
/-! # Which ports are available (C133)

common/port_manager_win.cc: `FindAvailablePorts` reads the output of netstat. -/
namespace Verif.Text.Netstat
open Flags (Str split IsNumber value)
open Components (dec dec_spec)
open Verif.Fuse (contains contains_iff)

/-! ### Model -/

/-- `GetNetstatFilterIp`, port_manager_win.cc:59-70: "127.0.0.1" on Windows, "0.0.0.0" on Linux. -/
def filterIp (windows : Bool) : Str := if windows then [49, 50, 55, 46, 48, 46, 48, 46, 49] else [48, 46, 48, 46, 48, 46, 48]

/-- "TIME_WAIT" -/
def timeWait : Str := [84, 73, 77, 69, 95, 87, 65, 73, 84]

/-- `portToken`, port_manager_win.cc:338. -/
def token (windows : Bool) (p : Nat) : Str := filterIp windows ++ 58 :: dec p

/-- `FindAvailablePorts`, port_manager_win.cc:324-357. `none`: an error is returned. -/
def findAvailable (windows : Bool) (first last : Nat) (output : Str) : Option (List Nat) :=
  let lines := (split 10 output).filter (contains (filterIp windows))
  let ports := (List.range (last + 1 - first)).map (first + ·) |>.filter fun p => !lines.any fun line => contains (token windows p) line && !contains timeWait line
  if ports = [] then none else some ports

/-! ### Specification -/

/-- The port is offered. -/
def Offered (windows : Bool) (first last : Nat) (output : Str) (p : Nat) : Prop := ∃ l, findAvailable windows first last output = some l ∧ p ∈ l

/-- A line says that there is a connection, which is not in the state TIME_WAIT, with an end at this port of this address. Words are separated by blanks. -/
def Uses (output : Str) (addr : Str) (p : Nat) : Prop := ∃ line ∈ split 10 output, ¬ timeWait <:+: line ∧ (addr ++ 58 :: dec p) ∈ split 32 line

/-- As netstat prints it: each word has no colon, or it is an address, a colon, and a port or `*`; the address has no `ip:` in it. -/
def Shape (ip : Str) (output : Str) : Prop := ∀ line ∈ split 10 output, ∀ w ∈ split 32 line, 58 ∉ w ∨ ∃ addr port, w = addr ++ 58 :: port ∧ ¬ (ip ++ [58]) <:+: addr ∧ 58 ∉ port ∧ port.length ≤ 5

/-! ### Proofs -/

theorem split_ne_nil (sep : UInt8) (s : Str) : split sep s ≠ [] := by
  cases s with
  | nil => simp [split]
  | cons c s =>
    rw [split]
    split
    · simp
    · split <;> simp

theorem prefix_first (sep : UInt8) (t : Str) (ht : sep ∉ t) (s : Str) : ∀ p ps, split sep s = p :: ps → (t <+: s ↔ t <+: p) := by
  induction s generalizing t with
  | nil =>
    intro p ps h
    rw [split] at h
    cases h
    exact Iff.rfl
  | cons c s ih =>
    intro p ps h
    cases t with
    | nil => simp
    | cons d t =>
      have ht' : sep ∉ t := fun h => ht (List.mem_cons_of_mem _ h)
      rw [split] at h
      split at h
      · rename_i hc
        cases h
        subst hc
        constructor
        · rintro ⟨r, hr⟩
          have : d = c := (List.cons.inj hr).1
          subst this
          exact absurd List.mem_cons_self ht
        · rintro ⟨r, hr⟩
          cases hr
      · split at h
        · rename_i h'
          exact absurd h' (split_ne_nil _ _)
        · rename_i q qs h'
          cases h
          rw [List.cons_prefix_cons, List.cons_prefix_cons, ih t ht' _ _ h']

/-- A text without blanks is in a line if it is in one of its words. -/
theorem infix_split (sep : UInt8) (t : Str) (ht : sep ∉ t) (hne : t ≠ []) (s : Str) : t <:+: s ↔ ∃ w ∈ split sep s, t <:+: w := by
  induction s with
  | nil => simp [split]
  | cons c s ih =>
    obtain ⟨q, qs, hq⟩ := List.exists_cons_of_ne_nil (split_ne_nil sep s)
    rw [List.infix_cons_iff, ih, hq]
    by_cases hc : c = sep
    · have e : split sep (c :: s) = [] :: q :: qs := by rw [split, if_pos hc, hq]
      rw [prefix_first sep t ht (c :: s) _ _ e, e]
      simp [hne]
    · have e : split sep (c :: s) = (c :: q) :: qs := by rw [split, if_neg hc, hq]
      rw [prefix_first sep t ht (c :: s) _ _ e, e]
      simp [List.infix_cons_iff, or_assoc]

theorem offered_iff (windows : Bool) (first last : Nat) (output : Str) (p : Nat) :
    Offered windows first last output p ↔ first ≤ p ∧ p ≤ last ∧ ∀ line ∈ split 10 output, token windows p <:+: line → timeWait <:+: line := by
  have hmem : ∀ p, p ∈ ((List.range (last + 1 - first)).map (first + ·) |>.filter fun p => !((split 10 output).filter (contains (filterIp windows))).any fun line => contains (token windows p) line && !contains timeWait line) ↔
      first ≤ p ∧ p ≤ last ∧ ∀ line ∈ split 10 output, token windows p <:+: line → timeWait <:+: line := by
    intro p
    rw [List.mem_filter, List.mem_map]
    have h1 : (∃ a, a ∈ List.range (last + 1 - first) ∧ first + a = p) ↔ first ≤ p ∧ p ≤ last := by
      constructor
      · rintro ⟨a, ha, rfl⟩
        have := List.mem_range.mp ha
        omega
      · intro h
        exact ⟨p - first, List.mem_range.mpr (by omega), by omega⟩
    rw [h1, and_assoc]
    refine and_congr_right fun _ => and_congr_right fun _ => ?_
    rw [Bool.not_eq_true', List.any_eq_false]
    constructor
    · intro h line hl ht
      have hip : contains (filterIp windows) line = true := (contains_iff _ _).mpr (List.IsInfix.trans ⟨[], 58 :: dec p, rfl⟩ ht)
      have := h line (List.mem_filter.mpr ⟨hl, hip⟩)
      rw [(contains_iff _ _).mpr ht] at this
      simp only [Bool.true_and, Bool.not_eq_true, Bool.not_eq_false'] at this
      exact (contains_iff _ _).mp this
    · intro h line hl
      by_cases ht : contains (token windows p) line = true
      · rw [ht, (contains_iff _ _).mpr (h line (List.mem_filter.mp hl).1 ((contains_iff _ _).mp ht))]
        simp
      · simp [ht]
  unfold Offered findAvailable
  dsimp only
  rw [← hmem p]
  split
  · rename_i h
    rw [h]
    simp
  · constructor
    · rintro ⟨l, h, hp⟩
      cases h
      exact hp
    · intro hp
      exact ⟨_, rfl, hp⟩

theorem digit_facts (c : UInt8) (h : Flags.isDigit c = true) : c ≠ 58 ∧ c ≠ 32 := by
  have : ∀ n : Fin 256, Flags.isDigit (UInt8.ofNat n) = true → UInt8.ofNat n ≠ 58 ∧ UInt8.ofNat n ≠ 32 := by decide +kernel
  have h2 := this ⟨c.toNat, c.toNat_lt⟩
  simp only [UInt8.ofNat_toNat] at h2
  exact h2 h

theorem token_blank (windows : Bool) (p : Nat) : (32 : UInt8) ∉ token windows p ∧ token windows p ≠ [] := by
  refine ⟨fun h => ?_, by simp [token]⟩
  rcases List.mem_append.mp h with h | h
  · revert h; cases windows <;> decide
  · rcases List.mem_cons.mp h with h | h
    · revert h; decide
    · exact (digit_facts 32 ((dec_spec p).1.2 32 h)).2 rfl

theorem dec_length (n k : Nat) (h : 10 ^ k ≤ n) : k < (dec n).length := by
  induction n using Nat.strongRecOn generalizing k with
  | _ n ih =>
    rw [dec]
    split
    · rename_i hn
      cases k with
      | zero => exact Nat.one_pos
      | succ k =>
        have : 1 ≤ 10 ^ k := Nat.pow_pos (by decide)
        rw [Nat.pow_succ] at h
        omega
    · rw [List.length_append, List.length_singleton]
      cases k with
      | zero => omega
      | succ k =>
        have := ih (n / 10) (by omega) k (by rw [Nat.pow_succ] at h; omega)
        omega

theorem dec_inj {m n : Nat} (h : dec m = dec n) : m = n := by
  rw [← (dec_spec m).2, ← (dec_spec n).2, h]

/-- **C133** (part): a port that is in use at the address the program looks for is not offered. -/
theorem C133_used_partial (windows : Bool) (first last : Nat) (output : Str) (p : Nat) (h : Uses output (filterIp windows) p) : ¬ Offered windows first last output p := by
  obtain ⟨line, h1, h2, h3⟩ := h
  rw [offered_iff]
  rintro ⟨-, -, h4⟩
  refine h2 (h4 line h1 ((infix_split 32 _ (token_blank _ _).1 (token_blank _ _).2 line).mpr ⟨_, h3, List.infix_refl _⟩))

/-- **C133** (part): a port of five digits is offered exactly if there is no connection with an end at this port of an address that ends with the address the program looks for. -/
theorem C133_exact_partial (windows : Bool) (first last : Nat) (output : Str) (p : Nat) (hp : 10000 ≤ p) (hs : Shape (filterIp windows) output) :
    Offered windows first last output p ↔ first ≤ p ∧ p ≤ last ∧ ∀ addr, filterIp windows <:+ addr → ¬ Uses output addr p := by
  rw [offered_iff]
  refine and_congr_right fun _ => and_congr_right fun _ => ?_
  constructor
  · rintro h addr ⟨a, rfl⟩ ⟨line, h1, h2, h3⟩
    refine h2 (h line h1 ((infix_split 32 _ (token_blank _ _).1 (token_blank _ _).2 line).mpr ⟨_, h3, a, [], ?_⟩))
    simp [token]
  · intro h line hl ht
    refine Decidable.byContradiction (dec := Classical.propDecidable _) fun hw => ?_
    obtain ⟨w, hmem, a, b, hab⟩ := (infix_split 32 _ (token_blank _ _).1 (token_blank _ _).2 line).mp ht
    have hab : (a ++ filterIp windows) ++ 58 :: (dec p ++ b) = w := by rw [← hab]; simp [token]
    rcases hs line hl w hmem with hno | ⟨addr, port, rfl, q1, q2, q3⟩
    · exact hno (hab ▸ List.mem_append_right _ List.mem_cons_self)
    · rcases List.append_eq_append_iff.mp hab with ⟨x, k1, k2⟩ | ⟨x, k1, k2⟩
      · cases x with
        | nil =>
          rw [List.append_nil] at k1
          have k2 : dec p ++ b = port := (List.cons.inj k2).2
          have hlen := dec_length p 4 (by omega)
          have hb : b = [] := by
            have := congrArg List.length k2
            rw [List.length_append] at this
            exact List.eq_nil_of_length_eq_zero (by omega)
          subst hb
          rw [List.append_nil] at k2
          subst k2
          exact h addr ⟨a, k1.symm⟩ ⟨line, hl, hw, hmem⟩
        | cons c x =>
          have hc : (58 : UInt8) = c := (List.cons.inj k2).1
          subst hc
          exact q1 ⟨a, x, by rw [k1]; simp⟩
      · cases x with
        | nil =>
          rw [List.append_nil] at k1
          have k2 : port = dec p ++ b := (List.cons.inj k2).2
          have hlen := dec_length p 4 (by omega)
          have hb : b = [] := by
            have := congrArg List.length k2
            rw [List.length_append] at this
            exact List.eq_nil_of_length_eq_zero (by omega)
          subst hb
          rw [List.append_nil] at k2
          subst k2
          exact h addr ⟨a, k1⟩ ⟨line, hl, hw, hmem⟩
        | cons c x =>
          have : port = x ++ 58 :: (dec p ++ b) := (List.cons.inj k2).2
          exact q2 (this ▸ List.mem_append_right _ List.mem_cons_self)

/-- "TCP 0.0.0.0:44450 0.0.0.0:0 LISTENING" -/
def winLine : Str := [84, 67, 80, 32, 48, 46, 48, 46, 48, 46, 48, 58, 52, 52, 52, 53, 48, 32, 48, 46, 48, 46, 48, 46, 48, 58, 48, 32, 76, 73, 83, 84, 69, 78, 73, 78, 71]

/-- "tcp 0 0 127.0.0.1:44450 0.0.0.0:* LISTEN" -/
def linuxLine : Str := [116, 99, 112, 32, 48, 32, 48, 32, 49, 50, 55, 46, 48, 46, 48, 46, 49, 58, 52, 52, 52, 53, 48, 32, 48, 46, 48, 46, 48, 46, 48, 58, 42, 32, 76, 73, 83, 84, 69, 78]

/-- **C133** is false: on Windows a port is offered although a program listens on it at all addresses. -/
theorem C133_windows_violated : Uses winLine (filterIp false) 44450 ∧ findAvailable true 44450 44450 winLine = some [44450] := by
  refine ⟨⟨winLine, by decide +kernel, fun h => ?_, by decide +kernel⟩, by decide +kernel⟩
  exact absurd ((contains_iff _ _).mpr h) (by decide +kernel)

/-- **C133** is false: on Linux a port is offered although a program (such as ssh that forwards the port) listens on it at 127.0.0.1. -/
theorem C133_linux_violated : Uses linuxLine (filterIp true) 44450 ∧ findAvailable false 44450 44450 linuxLine = some [44450] := by
  refine ⟨⟨linuxLine, by decide +kernel, fun h => ?_, by decide +kernel⟩, by decide +kernel⟩
  exact absurd ((contains_iff _ _).mpr h) (by decide +kernel)

/-- **C133** is false: a port that nobody uses is not offered if its number is the beginning of one in use. -/
theorem C133_short_violated : findAvailable true 4445 4445 linuxLine = none ∧ ∀ addr, ¬ Uses linuxLine addr 4445 := by
  refine ⟨by decide +kernel, ?_⟩
  rintro addr ⟨line, h1, -, h3⟩
  have h1 : line = linuxLine := by
    have : split 10 linuxLine = [linuxLine] := by decide +kernel
    rw [this] at h1
    exact List.mem_singleton.mp h1
  subst h1
  have hall : ∀ w ∈ split 32 linuxLine, ¬ (58 :: dec 4445) <:+ w := by decide +kernel
  exact hall _ h3 ⟨addr, rfl⟩

/-- The hypotheses of C133 are met by the output above: port 44450 is in use, and 44451 is offered. -/
theorem C133_example : Shape (filterIp true) linuxLine ∧ Uses linuxLine (filterIp true) 44450 ∧ findAvailable true 44450 44452 linuxLine = some [44451, 44452] := by
  refine ⟨?_, C133_linux_violated.1, by decide +kernel⟩
  intro line hl w hw
  have hl : line = linuxLine := by
    have : split 10 linuxLine = [linuxLine] := by decide +kernel
    rw [this] at hl
    exact List.mem_singleton.mp hl
  subst hl
  have hall : ∀ w ∈ split 32 linuxLine, 58 ∉ w ∨ w = filterIp true ++ 58 :: dec 44450 ∨ w = filterIp false ++ 58 :: [42] := by decide +kernel
  rcases hall w hw with h | rfl | rfl
  · exact .inl h
  · exact .inr ⟨_, _, rfl, fun h => absurd ((contains_iff _ _).mpr h) (by decide +kernel), by decide +kernel, by decide +kernel⟩
  · exact .inr ⟨_, _, rfl, fun h => absurd ((contains_iff _ _).mpr h) (by decide +kernel), by decide +kernel, by decide +kernel⟩

end Verif.Text.Netstat
