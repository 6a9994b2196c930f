import Verif.Stream.Settings
import Mathlib.Data.Rat.Floor
import Mathlib.Tactic.Linarith

/-! # C142 for every file

`Stream/Settings.lean` says what files that make sense do. Here is what every file does. -/
namespace Verif.Settings
open Verif.Text.Flags Verif.Text.Components

/-! ### Every file: what happens to each value -/

/-- The number that a JSON value is read as: `null` and switches count as numbers, fractions are cut off, text and lists are refused,
as are numbers that do not fit into 32 bits. -/
inductive Reads : Value → Int → Prop where
  | null : Reads .null 0
  | off : Reads (.bool false) 0
  | on : Reads (.bool true) 1
  | int (i : Int) : -2 ^ 31 ≤ i → i < 2 ^ 31 → Reads (.int i) i
  | positive (q : Rat) (i : Int) : 0 ≤ q → q ≤ 2 ^ 31 - 1 → (i : Rat) ≤ q → q < i + 1 → Reads (.real q) i
  | negative (q : Rat) (i : Int) : q < 0 → -2 ^ 31 ≤ q → (i : Rat) - 1 < q → q ≤ i → Reads (.real q) i

/-- Whether a JSON value counts as true. -/
inductive Truth : Value → Bool → Prop where
  | null : Truth .null false
  | bool (b : Bool) : Truth (.bool b) b
  | int (i : Int) (b : Bool) : (b = true ↔ i ≠ 0) → Truth (.int i) b
  | real (q : Rat) (b : Bool) : (b = true ↔ q ≠ 0) → Truth (.real q) b

/-- The smallest value and the number of values of the variable. -/
def Key.type : Key → Int × Int
  | .servicePort => (0, 65536)
  | .verbosity => (-2147483648, 4294967296)
  | _ => (0, 4294967296)

/-- What the setting is if the file has this value for it: for numbers, the value of the variable's type that is the same modulo
the size of the type. -/
inductive Becomes : Key → Value → Int → Prop where
  | number (k : Key) (v : Value) (i x : Int) : k.isFlag = false → k ≠ .cacheCapacity → Reads v i →
      k.type.1 ≤ x → x < k.type.1 + k.type.2 → k.type.2 ∣ x - i → Becomes k v x
  | flag (k : Key) (v : Value) (b : Bool) : k.isFlag = true → Truth v b → Becomes k v (if b then 1 else 0)

theorem ceil_eq (q : Rat) : q.ceil = -((-q).floor) := by
  rw [Rat.ceil_eq_neg_floor_neg]

theorem ceil_le_iff' {q : Rat} {i : Int} : q.ceil ≤ i ↔ q ≤ i := by
  rw [ceil_eq]
  have h := Rat.le_floor_iff (x := -i) (a := -q)
  constructor
  · intro h'
    have := h.1 (by omega)
    push_cast at this
    linarith
  · intro h'
    have := h.2 (by push_cast; linarith)
    omega

theorem le_ceil' (q : Rat) : q ≤ (q.ceil : Rat) := ceil_le_iff'.1 (le_refl _)

theorem ceil_lt' (q : Rat) : (q.ceil : Rat) < q + 1 := by
  have : ¬ q.ceil ≤ q.ceil - 1 := by omega
  rw [ceil_le_iff'] at this
  push_cast at this
  linarith

theorem reads_iff (v : Value) (i : Int) : Reads v i ↔ v.asInt = some i := by
  constructor
  · intro h
    cases h with
    | null => rfl
    | off => rfl
    | on => rfl
    | int i h1 h2 => exact if_pos ⟨h1, h2⟩
    | positive q i h0 h1 h2 h3 =>
      have hb : -2 ^ 31 ≤ q ∧ q ≤ 2 ^ 31 - 1 := ⟨by linarith, h1⟩
      show (if _ then _ else _) = _
      rw [if_pos hb, if_pos h0]
      congr 1
      apply le_antisymm
      · have h4 : ((q.floor : Int) : Rat) ≤ q := Rat.floor_le q
        have h5 : (q.floor : Rat) < i + 1 := lt_of_le_of_lt h4 h3
        have h6 : ((q.floor : Int) : Rat) < ((i + 1 : Int) : Rat) := by push_cast; exact h5
        have := Int.cast_lt.1 h6
        omega
      · exact Rat.le_floor_iff.2 h2
    | negative q i h0 h1 h2 h3 =>
      have hb : -2 ^ 31 ≤ q ∧ q ≤ 2 ^ 31 - 1 := ⟨h1, by linarith⟩
      show (if _ then _ else _) = _
      rw [if_pos hb, if_neg (by linarith)]
      congr 1
      apply le_antisymm
      · exact ceil_le_iff'.2 h3
      · have h4 : q ≤ ((q.ceil : Int) : Rat) := le_ceil' q
        have h5 : ((i - 1 : Int) : Rat) < ((q.ceil : Int) : Rat) := by push_cast; exact lt_of_lt_of_le h2 h4
        have := Int.cast_lt.1 h5
        omega
  · intro h
    cases v with
    | null => cases h; exact .null
    | bool b => cases b <;> cases h <;> constructor
    | int j =>
      replace h : (if -2 ^ 31 ≤ j ∧ j < 2 ^ 31 then some j else none) = some i := h
      split at h
      · rename_i hb; cases h; exact .int _ hb.1 hb.2
      · cases h
    | real q =>
      replace h : (if -2 ^ 31 ≤ q ∧ q ≤ 2 ^ 31 - 1 then some (if 0 ≤ q then q.floor else q.ceil) else none) = some i := h
      split at h
      · rename_i hb
        rw [Option.some.injEq] at h
        split at h
        · rename_i h0
          cases h
          refine .positive q _ h0 hb.2 (Rat.floor_le q) ?_
          exact_mod_cast Rat.lt_floor_add_one q
        · rename_i h0
          cases h
          refine .negative q _ (not_le.1 h0) hb.1 ?_ (le_ceil' q)
          have := ceil_lt' q
          linarith
      · cases h
    | text s => cases h
    | compound => cases h

theorem truth_iff (v : Value) (b : Bool) : Truth v b ↔ v.asBool = some b := by
  constructor
  · intro h
    cases h with
    | null => rfl
    | bool b => rfl
    | int i b h => show some (decide (i ≠ 0)) = some b; congr 1; cases b <;> simp_all
    | real q b h => show some (decide (q ≠ 0)) = some b; congr 1; cases b <;> simp_all
  · intro h
    cases v with
    | null => cases h; exact .null
    | bool b => cases h; exact .bool _
    | int i => cases h; exact .int _ _ (by simp)
    | real q => cases h; exact .real _ _ (by simp)
    | text s => cases h
    | compound => cases h

theorem wrap_iff {i x n : Int} (hn : 0 < n) : (0 ≤ x ∧ x < n ∧ n ∣ x - i) ↔ x = i % n := by
  constructor
  · rintro ⟨h1, h2, h3⟩
    rw [← Int.emod_eq_of_lt h1 h2]
    exact Int.emod_eq_emod_iff_emod_sub_eq_zero.2 (Int.emod_eq_zero_of_dvd h3)
  · rintro rfl
    exact ⟨Int.emod_nonneg _ (by omega), Int.emod_lt_of_pos _ hn, ⟨-(i / n), by have := Int.emod_add_mul_ediv i n; linarith⟩⟩

theorem becomes_iff {k : Key} (hk : k ≠ .cacheCapacity) (v : Value) (x : Int) : Becomes k v x ↔ k.convert v = some x := by
  constructor
  · intro h
    cases h with
    | number i _ hf _ hr h1 h2 h3 =>
      have ha := (reads_iff v i).1 hr
      cases k <;> first | exact absurd rfl hk | (cases hf; done) | skip
      case verbosity =>
        have hb : -2 ^ 31 ≤ i ∧ i < 2 ^ 31 := by
          cases hr with
          | null => decide
          | off => decide
          | on => decide
          | int i h1 h2 => exact ⟨h1, h2⟩
          | positive q i h0 h1 h2 h3 =>
            have a : ((-1 : Int) : Rat) < (i : Rat) := by push_cast; linarith
            have b : (i : Rat) < ((2 ^ 31 : Int) : Rat) := by push_cast; linarith
            have a := Int.cast_lt.1 a
            have b := Int.cast_lt.1 b
            omega
          | negative q i h0 h1 h2 h3 =>
            have a : ((-2 ^ 31 - 1 : Int) : Rat) < (i : Rat) := by push_cast; linarith
            have b : (i : Rat) < ((1 : Int) : Rat) := by push_cast; linarith
            have a := Int.cast_lt.1 a
            have b := Int.cast_lt.1 b
            omega
        show v.asInt = _
        rw [ha]
        simp only [Key.type] at h1 h2 h3
        congr 1
        omega
      all_goals
        simp only [Key.type] at h1 h2 h3
        show v.asInt.map _ = _
        rw [ha]
        show some (i % _) = some x
        congr 1
        omega
    | flag b hf ht =>
      have hb := (truth_iff v b).1 ht
      cases k <;> first | (cases hf; done) | (simp only [Key.convert, hb]; rfl)
  · intro h
    cases hf : k.isFlag with
    | true =>
      have hc : k.convert v = v.asBool.map fun b => if b then 1 else 0 := by
        cases k <;> first | (cases hf; done) | rfl
      rw [hc] at h
      cases hb : v.asBool with
      | none => rw [hb] at h; cases h
      | some b =>
        rw [hb] at h
        cases h
        exact .flag k v b hf ((truth_iff v b).2 hb)
    | false =>
      have hc : k = .verbosity ∧ k.convert v = v.asInt ∨ k.type.1 = 0 ∧ 0 < k.type.2 ∧ k.convert v = v.asInt.map (· % k.type.2) := by
        cases k <;> first | (cases hf; done) | exact absurd rfl hk | exact .inl ⟨rfl, rfl⟩ | exact .inr ⟨rfl, by decide, rfl⟩
      rcases hc with ⟨rfl, hc⟩ | ⟨h1, h2, hc⟩
      · rw [hc] at h
        have hr := (reads_iff v x).2 h
        have hb : -2 ^ 31 ≤ x ∧ x < 2 ^ 31 := by
          cases hr with
          | null => decide
          | off => decide
          | on => decide
          | int i h1 h2 => exact ⟨h1, h2⟩
          | positive q i h0 h1 h2 h3 =>
            have a : ((-1 : Int) : Rat) < (x : Rat) := by push_cast; linarith
            have b : (x : Rat) < ((2 ^ 31 : Int) : Rat) := by push_cast; linarith
            have a := Int.cast_lt.1 a
            have b := Int.cast_lt.1 b
            omega
          | negative q i h0 h1 h2 h3 =>
            have a : ((-2 ^ 31 - 1 : Int) : Rat) < (x : Rat) := by push_cast; linarith
            have b : (x : Rat) < ((1 : Int) : Rat) := by push_cast; linarith
            have a := Int.cast_lt.1 a
            have b := Int.cast_lt.1 b
            omega
        exact .number _ v x x rfl hk hr (by simp only [Key.type]; omega) (by simp only [Key.type]; omega) (by simp)
      · rw [hc] at h
        cases ha : v.asInt with
        | none => rw [ha] at h; cases h
        | some i =>
          rw [ha] at h
          cases h
          obtain ⟨a, b, c⟩ := (wrap_iff h2 (i := i)).2 rfl
          exact .number k v i _ hf hk ((reads_iff v i).2 ha) (by rw [h1]; exact a) (by rw [h1, zero_add]; exact b) c

/-- All settings but the capacity, in the order in which they are read. -/
def plain : List Key := [.servicePort, .verbosity, .debug, .singlethreaded, .stats, .quiet, .check, .logToStdout, .cleanupTimeout,
  .accessIdleTimeout, .updaterThreads, .waitDuration]

theorem load_object (parseU64 : Str → Option UInt64) (realText : Rat → Str) (m : Str → Option Value) (c : Config) :
    load parseU64 realText (.json (.object m)) c =
      ((plain.foldlM (fun c k => assign m k c) c).bind (assignCapacity parseU64 realText m)).map fun c => (true, c) := by
  simp only [load, plain, List.foldlM_cons, List.foldlM_nil, Option.bind_eq_bind, Option.pure_def, Option.bind_assoc]
  simp only [Option.map_eq_bind, Option.bind_assoc, Option.bind_some, Function.comp_def]

theorem assign_isSome (m : Str → Option Value) {k : Key} (hk : k ≠ .cacheCapacity) (c : Config) :
    (∃ c', assign m k c = some c') ↔ ∀ v, m k.name = some v → ∃ x, Becomes k v x := by
  unfold assign
  cases m k.name with
  | none => simp
  | some v =>
    simp only [Option.some.injEq, forall_eq', becomes_iff hk]
    cases k.convert v <;> simp

theorem fold_isSome (m : Str → Option Value) : ∀ (l : List Key), Key.cacheCapacity ∉ l → ∀ c : Config,
    (∃ c', l.foldlM (fun c k => assign m k c) c = some c') ↔ ∀ k ∈ l, ∀ v, m k.name = some v → ∃ x, Becomes k v x := by
  intro l
  induction l with
  | nil => intro _ c; simp
  | cons k l ih =>
    intro hn c
    have hk : k ≠ .cacheCapacity := fun e => hn (by rw [e]; exact List.mem_cons_self)
    have hl : Key.cacheCapacity ∉ l := fun h => hn (List.mem_cons_of_mem _ h)
    rw [List.foldlM_cons, List.forall_mem_cons, ← assign_isSome m hk c]
    cases h : assign m k c with
    | none => simp
    | some c' =>
      rw [show ((some c' : Option Config) >>= fun c => l.foldlM (fun c k => assign m k c) c) =
        l.foldlM (fun c k => assign m k c) c' from rfl, ih hl c']
      simp

theorem fold_value (m : Str → Option Value) : ∀ (l : List Key), l.Nodup → Key.cacheCapacity ∉ l → ∀ c c' : Config,
    l.foldlM (fun c k => assign m k c) c = some c' →
    (∀ k ∈ l, ∀ v x, m k.name = some v → Becomes k v x → c'.value k = x ∧ c'.read k = true) ∧
    (∀ k, (k ∈ l → m k.name = none) → c'.value k = c.value k ∧ c'.read k = c.read k) := by
  intro l
  induction l with
  | nil => intro _ _ c c' h; cases h; exact ⟨(fun k hk => nomatch hk), fun _ _ => ⟨rfl, rfl⟩⟩
  | cons k l ih =>
    intro hnd hn c c' h
    have hk : k ≠ .cacheCapacity := fun e => hn (by rw [e]; exact List.mem_cons_self)
    have hl : Key.cacheCapacity ∉ l := fun h => hn (List.mem_cons_of_mem _ h)
    obtain ⟨hkl, hnd⟩ := List.nodup_cons.1 hnd
    rw [List.foldlM_cons] at h
    cases h1 : assign m k c with
    | none => rw [h1] at h; cases h
    | some c1 =>
      rw [h1] at h
      obtain ⟨i1, i2⟩ := ih hnd hl c1 c' h
      constructor
      · intro k' hk' v x hm hx
        rcases List.mem_cons.1 hk' with rfl | hk'
        · obtain ⟨a, b⟩ := i2 k' (fun h => absurd h hkl)
          unfold assign at h1
          rw [hm] at h1
          simp only [(becomes_iff hk v x).1 hx, Option.map_some, Option.some.injEq] at h1
          subst h1
          exact ⟨a.trans (put_eq _ _ _), b.trans (put_eq _ _ _)⟩
        · exact i1 k' hk' v x hm hx
      · intro k' hm
        obtain ⟨a, b⟩ := i2 k' (fun h => hm (List.mem_cons_of_mem _ h))
        have hc : c1.value k' = c.value k' ∧ c1.read k' = c.read k' := by
          unfold assign at h1
          cases hmk : m k.name with
          | none => rw [hmk] at h1; cases h1; exact ⟨rfl, rfl⟩
          | some v =>
            have hne : k' ≠ k := by rintro rfl; rw [hm List.mem_cons_self] at hmk; cases hmk
            rw [hmk] at h1
            cases hcv : k.convert v with
            | none => simp only [hcv, Option.map_none] at h1; cases h1
            | some x =>
              simp only [hcv, Option.map_some, Option.some.injEq] at h1
              subst h1
              exact ⟨put_ne _ _ hne, put_ne _ _ hne⟩
        exact ⟨a.trans hc.1, b.trans hc.2⟩

theorem mem_plain {k : Key} : k ∈ plain ↔ k ≠ .cacheCapacity := by cases k <;> decide

/-- **C142, what every file does.** With an object in the file the service starts if and only if every number is a number, switch or
`null` within 32 bits, every switch one of these too, and the capacity is no list or object. Then each setting has the value that the
file has for it, reduced to the type of the variable, and the settings that are not in the file are those of the flags. -/
theorem C142_exactly (parseU64 : Str → Option UInt64) (realText : Rat → Str) (value : Key → Int) (m : Str → Option Value) :
    ((∃ c, serviceConfig parseU64 realText (.json (.object m)) { value } = some c) ↔
      (∀ k, k ≠ .cacheCapacity → ∀ v, m k.name = some v → ∃ x, Becomes k v x) ∧ m Key.cacheCapacity.name ≠ some .compound) ∧
    ∀ c, serviceConfig parseU64 realText (.json (.object m)) { value } = some c →
      (∀ k, k ≠ .cacheCapacity → ∀ v x, m k.name = some v → Becomes k v x → c.value k = x ∧ c.read k = true) ∧
      (∀ k, m k.name = none → c.value k = value k ∧ c.read k = false) := by
  have hcap : ∀ c : Config, (∃ c', assignCapacity parseU64 realText m c = some c') ↔ m Key.cacheCapacity.name ≠ some .compound := by
    intro c
    unfold assignCapacity
    cases m Key.cacheCapacity.name with
    | none => simp
    | some v => cases v <;> simp [Value.asString]
  have hs : serviceConfig parseU64 realText (.json (.object m)) { value } =
      (plain.foldlM (fun c k => assign m k c) { value }).bind (assignCapacity parseU64 realText m) := by
    unfold serviceConfig
    rw [load_object]
    simp
  have hf := fold_isSome m plain (by decide) { value }
  rw [hs]
  constructor
  · rw [show (∀ k, k ≠ Key.cacheCapacity → ∀ v, m k.name = some v → ∃ x, Becomes k v x) ↔
      ∀ k ∈ plain, ∀ v, m k.name = some v → ∃ x, Becomes k v x from by simp only [mem_plain], ← hf]
    cases h : plain.foldlM (fun c k => assign m k c) ({ value } : Config) with
    | none => simp
    | some c => simpa using hcap c
  · intro c hc
    cases h : plain.foldlM (fun c k => assign m k c) ({ value } : Config) with
    | none => rw [h] at hc; cases hc
    | some c1 =>
      rw [h] at hc
      replace hc : assignCapacity parseU64 realText m c1 = some c := hc
      obtain ⟨v1, v2⟩ := fold_value m plain (by decide) (by decide) _ _ h
      have same : ∀ k, (k = .cacheCapacity → m Key.cacheCapacity.name = none) → c.value k = c1.value k ∧ c.read k = c1.read k := by
        intro k hk
        unfold assignCapacity at hc
        cases hm : m Key.cacheCapacity.name with
        | none => rw [hm] at hc; cases hc; exact ⟨rfl, rfl⟩
        | some v =>
          have hne : k ≠ .cacheCapacity := fun e => by rw [hk e] at hm; cases hm
          rw [hm] at hc
          dsimp only at hc
          cases ha : v.asString realText with
          | none => rw [ha] at hc; cases hc
          | some s =>
            rw [ha] at hc
            simp only [Option.map_some, Option.some.injEq] at hc
            split at hc <;> subst hc
            · exact ⟨put_ne _ _ hne, put_ne _ _ hne⟩
            · exact ⟨rfl, rfl⟩
      constructor
      · intro k hk v x hm hx
        obtain ⟨a, b⟩ := same k (fun e => absurd e hk)
        obtain ⟨d, e⟩ := v1 k (mem_plain.2 hk) v x hm hx
        exact ⟨a.trans d, b.trans e⟩
      · intro k hm
        obtain ⟨a, b⟩ := same k (fun e => by rw [← e]; exact hm)
        obtain ⟨d, e⟩ := v2 k (fun _ => hm)
        exact ⟨a.trans d, b.trans e⟩

/-- A negative number of seconds, threads or milliseconds is one of billions. -/
theorem C142_negative_violated (k : Key) (hk : k = .cleanupTimeout ∨ k = .accessIdleTimeout ∨ k = .updaterThreads ∨ k = .waitDuration)
    (i : Int) (h1 : -2 ^ 31 ≤ i) (h2 : i < 0) : Becomes k (.int i) (i + 4294967296) := by
  rcases hk with rfl | rfl | rfl | rfl <;>
    exact .number _ _ i _ rfl (by decide) (.int i h1 (by omega)) (by simp only [Key.type]; omega) (by simp only [Key.type]; omega)
      ⟨1, by simp only [Key.type]; omega⟩

/-- Non-vacuity: a file with a number, a fraction, a switch given as a number and a list for the capacity. -/
example : Becomes .servicePort (.int 70000) 4464 ∧ Becomes .verbosity (.real (5 / 2)) 2 ∧ Becomes .debug (.int 7) 1 ∧
    (∀ x, ¬ Becomes .quiet (.text (str "true")) x) := by
  refine ⟨.number _ _ 70000 _ rfl (by decide) (.int _ (by omega) (by omega)) (by decide) (by decide) ⟨-1, by decide⟩,
    .number _ _ 2 _ rfl (by decide) (.positive _ _ (by norm_num) (by norm_num) (by norm_num) (by norm_num)) (by decide) (by decide) (by simp),
    .flag _ _ true rfl (.int _ _ (by decide)), ?_⟩
  intro x h
  cases h with
  | number _ _ hf => cases hf
  | flag b _ ht => cases ht

end Verif.Settings
