import Verif.Text.Flags
import Verif.Text.Components

/-! # The configuration file of the streaming service and the exit code of cdc_stream (C142, C143)

cdc_stream/asset_stream_config.cc, start_service_command.cc, base_command.cc and main.cc. The JSON parser (jsoncpp) is not modelled; `asInt`, `asBool`, `asString` and `isMember` are as documented there. -/
namespace Verif.Settings
open Verif.Text.Flags Verif.Text.Components

/-! ### Model: the file -/

/-- The settings that are read from the file, asset_stream_config.cc:188-204. -/
inductive Key where
  | servicePort | verbosity | debug | singlethreaded | stats | quiet | check | logToStdout | cleanupTimeout | accessIdleTimeout | updaterThreads | waitDuration | cacheCapacity
  deriving DecidableEq, Repr

def str (s : String) : Str := s.toList.map (·.toNat.toUInt8)

/-- The names, asset_stream_config.cc:188-208. -/
def Key.name : Key → Str
  | .servicePort => str "service-port"
  | .verbosity => str "verbosity"
  | .debug => str "debug"
  | .singlethreaded => str "singlethreaded"
  | .stats => str "stats"
  | .quiet => str "quiet"
  | .check => str "check"
  | .logToStdout => str "log-to-stdout"
  | .cleanupTimeout => str "cleanup-timeout"
  | .accessIdleTimeout => str "access-idle-timeout"
  | .updaterThreads => str "manifest-updater-threads"
  | .waitDuration => str "file-change-wait-duration-ms"
  | .cacheCapacity => str "cache-capacity"

/-- The value of a member. What is in arrays and objects does not matter. -/
inductive Value where
  | null
  | bool (b : Bool)
  | int (i : Int)
  | real (q : Rat)
  | text (s : Str)
  | compound

/-- What the file contains: an object, `null`, or something else (`Json::Reader` accepts any value). -/
inductive Root where
  | object (member : Str → Option Value)
  | null
  | other

/-- `Json::Value::asInt`; `none` is an exception. -/
def Value.asInt : Value → Option Int
  | .null => some 0
  | .bool b => some (if b then 1 else 0)
  | .int i => if -2 ^ 31 ≤ i ∧ i < 2 ^ 31 then some i else none
  | .real q => if -2 ^ 31 ≤ q ∧ q ≤ 2 ^ 31 - 1 then some (if 0 ≤ q then q.floor else q.ceil) else none
  | .text _ => none
  | .compound => none

/-- `Json::Value::asBool` -/
def Value.asBool : Value → Option Bool
  | .null => some false
  | .bool b => some b
  | .int i => some (i ≠ 0)
  | .real q => some (q ≠ 0)
  | .text _ => none
  | .compound => none

/-- `Json::Value::asString`; `realText` is the text of a real number. -/
def Value.asString (realText : Rat → Str) : Value → Option Str
  | .null => some []
  | .bool b => some (str (if b then "true" else "false"))
  | .int i => some (if 0 ≤ i then dec i.toNat else 45 :: dec (-i).toNat)
  | .real q => some (realText q)
  | .text s => some s
  | .compound => none

/-- The value assigned to the variable: `uint16_t` for the port, `int` for the verbosity, `bool`, or `uint32_t`; asset_stream_config.h:106-108, session_config.h:28-58. -/
def Key.convert : Key → Value → Option Int
  | .servicePort, v => v.asInt.map (· % 2 ^ 16)
  | .verbosity, v => v.asInt
  | .debug, v => v.asBool.map fun b => if b then 1 else 0
  | .singlethreaded, v => v.asBool.map fun b => if b then 1 else 0
  | .stats, v => v.asBool.map fun b => if b then 1 else 0
  | .quiet, v => v.asBool.map fun b => if b then 1 else 0
  | .check, v => v.asBool.map fun b => if b then 1 else 0
  | .logToStdout, v => v.asBool.map fun b => if b then 1 else 0
  | .cleanupTimeout, v => v.asInt.map (· % 2 ^ 32)
  | .accessIdleTimeout, v => v.asInt.map (· % 2 ^ 32)
  | .updaterThreads, v => v.asInt.map (· % 2 ^ 32)
  | .waitDuration, v => v.asInt.map (· % 2 ^ 32)
  | .cacheCapacity, _ => none

/-- The configuration: the settings (`false` and `true` are 0 and 1), `flags_read_from_file_` and the keys of `flag_read_errors_`. -/
structure Config where
  value : Key → Int
  read : Key → Bool := fun _ => false
  failed : Key → Bool := fun _ => false

def put {α : Type} (f : Key → α) (k : Key) (x : α) : Key → α := fun k' => if k' = k then x else f k'

/-- `ASSIGN_VAR`, asset_stream_config.cc:179-185. -/
def assign (member : Str → Option Value) (k : Key) (c : Config) : Option Config :=
  match member k.name with
  | none => some c
  | some v => (k.convert v).map fun x => { c with value := put c.value k x, read := put c.read k true }

/-- The cache capacity, asset_stream_config.cc:206-221. -/
def assignCapacity (parseU64 : Str → Option UInt64) (realText : Rat → Str) (member : Str → Option Value) (c : Config) : Option Config :=
  match member Key.cacheCapacity.name with
  | none => some c
  | some v => (v.asString realText).map fun s =>
    match jedec parseU64 s with
    | some size => { c with value := put c.value .cacheCapacity size.toNat, read := put c.read .cacheCapacity true }
    | none => { c with failed := put c.failed .cacheCapacity true }

/-- The file: it does not exist, cannot be read or is no JSON, or it has contents. -/
inductive File where
  | missing
  | unreadable
  | noJson
  | json (root : Root)

/-- `LoadFromFile`, asset_stream_config.cc:166-222: whether the status is ok, and the configuration; `none` is an exception. -/
def load (parseU64 : Str → Option UInt64) (realText : Rat → Str) (f : File) (c : Config) : Option (Bool × Config) :=
  match f with
  | .missing => some (false, c)
  | .unreadable => some (false, c)
  | .noJson => some (false, c)
  | .json .null => some (true, c)
  | .json .other => none
  | .json (.object m) => do
    let c ← assign m .servicePort c
    let c ← assign m .verbosity c
    let c ← assign m .debug c
    let c ← assign m .singlethreaded c
    let c ← assign m .stats c
    let c ← assign m .quiet c
    let c ← assign m .check c
    let c ← assign m .logToStdout c
    let c ← assign m .cleanupTimeout c
    let c ← assign m .accessIdleTimeout c
    let c ← assign m .updaterThreads c
    let c ← assign m .waitDuration c
    let c ← assignCapacity parseU64 realText m c
    return (true, c)

/-- `StartServiceCommand::Run`, start_service_command.cc:61-102: whatever the status is, the service runs with the configuration. `none`: the exception ends the process. -/
def serviceConfig (parseU64 : Str → Option UInt64) (realText : Rat → Str) (f : File) (c : Config) : Option Config :=
  (load parseU64 realText f c).map (·.2)

/-! ### Specification -/

/-- The smallest and the largest value of a number. -/
def Key.range : Key → Int × Int
  | .servicePort => (0, 65535)
  | .verbosity => (-2147483648, 2147483647)
  | .cacheCapacity => (0, 18446744073709551615)
  | _ => (0, 2147483647)

def Key.isFlag : Key → Bool
  | .debug => true
  | .singlethreaded => true
  | .stats => true
  | .quiet => true
  | .check => true
  | .logToStdout => true
  | _ => false

/-- The value means `x` for this setting: a number in its range; for switches, `false` or 0, `true` or another number; for the capacity, a text that denotes a size, or a number. -/
inductive Means (parseU64 : Str → Option UInt64) : Key → Value → Int → Prop where
  | number (k : Key) (i : Int) : k.isFlag = false → k ≠ .cacheCapacity → k.range.1 ≤ i → i ≤ k.range.2 → Means parseU64 k (.int i) i
  | off (k : Key) : k.isFlag = true → Means parseU64 k (.bool false) 0
  | on (k : Key) : k.isFlag = true → Means parseU64 k (.bool true) 1
  | zero (k : Key) : k.isFlag = true → Means parseU64 k (.int 0) 0
  | nonzero (k : Key) (i : Int) : k.isFlag = true → i ≠ 0 → Means parseU64 k (.int i) 1
  | size (s : Str) (b : Nat) : Denotes parseU64 s b → b < 2 ^ 64 → Means parseU64 .cacheCapacity (.text s) b

/-- Each setting in the file means something, or is a text for the capacity that denotes no size. -/
def Sensible (parseU64 : Str → Option UInt64) (m : Str → Option Value) : Prop :=
  ∀ k v, m k.name = some v → (∃ x, Means parseU64 k v x) ∨ k = .cacheCapacity ∧ ∃ s, v = .text s ∧ ∀ b, ¬ Denotes parseU64 s b

/-- What the file says is in the configuration, and the rest is as it was. -/
structure Overridden (parseU64 : Str → Option UInt64) (m : Str → Option Value) (c c' : Config) : Prop where
  given : ∀ k v x, m k.name = some v → Means parseU64 k v x → c'.value k = x ∧ c'.read k = true ∧ c'.failed k = false
  absent : ∀ k, m k.name = none → c'.value k = c.value k ∧ c'.read k = false ∧ c'.failed k = false
  invalid : ∀ k v, m k.name = some v → (∀ x, ¬ Means parseU64 k v x) → c'.value k = c.value k ∧ c'.read k = false ∧ c'.failed k = true

/-! ### Proofs -/

theorem put_eq {α : Type} (f : Key → α) (k : Key) (x : α) : put f k x k = x := if_pos rfl
theorem put_ne {α : Type} (f : Key → α) {k k' : Key} (x : α) (h : k' ≠ k) : put f k x k' = f k' := if_neg h

theorem means_convert {parseU64 : Str → Option UInt64} {k : Key} {v : Value} {x : Int} (h : Means parseU64 k v x) (hk : k ≠ .cacheCapacity) : k.convert v = some x := by
  cases h with
  | number _ _ hf _ h1 h2 =>
    have hb : -2 ^ 31 ≤ x ∧ x < 2 ^ 31 := by
      cases k <;> simp only [Key.range] at h1 h2 <;> first | omega | exact absurd rfl hk
    have ha : (Value.int x).asInt = some x := if_pos hb
    cases k <;> first | exact absurd rfl hk | (cases hf; done) | skip
    case verbosity => exact ha
    all_goals
      simp only [Key.range] at h1 h2
      show (Value.int x).asInt.map _ = _
      rw [ha]
      show some (x % _) = some x
      congr 1
      omega
  | off _ hf => cases k <;> first | (cases hf; done) | rfl
  | on _ hf => cases k <;> first | (cases hf; done) | rfl
  | zero _ hf => cases k <;> first | (cases hf; done) | rfl
  | nonzero _ i hf hi =>
    have ha : (Value.int i).asBool = some true := by show some _ = _; simp [hi]
    cases k <;> first | (cases hf; done) | (simp only [Key.convert, ha]; rfl)
  | size => exact absurd rfl hk

/-- What an assignment does to its own setting and to the others. -/
structure Set1 (parseU64 : Str → Option UInt64) (m : Str → Option Value) (k : Key) (c c' : Config) : Prop where
  given : ∀ v x, m k.name = some v → Means parseU64 k v x → c'.value k = x ∧ c'.read k = true ∧ c'.failed k = c.failed k
  absent : m k.name = none → c'.value k = c.value k ∧ c'.read k = c.read k ∧ c'.failed k = c.failed k
  invalid : ∀ v, m k.name = some v → (∀ x, ¬ Means parseU64 k v x) → c'.value k = c.value k ∧ c'.read k = c.read k ∧ c'.failed k = true
  others : ∀ k', k' ≠ k → c'.value k' = c.value k' ∧ c'.read k' = c.read k' ∧ c'.failed k' = c.failed k'

theorem assign_spec {parseU64 : Str → Option UInt64} {m : Str → Option Value} (hs : Sensible parseU64 m) (k : Key) (hk : k ≠ .cacheCapacity) (c : Config) :
    ∃ c', assign m k c = some c' ∧ Set1 parseU64 m k c c' := by
  unfold assign
  match hm : m k.name with
  | none => exact ⟨c, rfl, ⟨(fun v x h => by rw [hm] at h; cases h), fun _ => ⟨rfl, rfl, rfl⟩, (fun v h => by rw [hm] at h; cases h), fun _ _ => ⟨rfl, rfl, rfl⟩⟩⟩
  | some v =>
    rcases hs k v hm with ⟨x, hx⟩ | ⟨h, -⟩
    · have hc := means_convert hx hk
      refine ⟨_, by simp only [hc, Option.map]; rfl, ⟨fun v' x' h h' => ?_, (fun h => by rw [hm] at h; cases h), fun v' h h' => ?_, fun k' hk' => ?_⟩⟩
      · rw [hm] at h; cases h
        have := means_convert h' hk
        rw [hc] at this; cases this
        exact ⟨put_eq _ _ _, put_eq _ _ _, rfl⟩
      · rw [hm] at h; cases h
        exact absurd hx (h' x)
      · exact ⟨put_ne _ _ hk', put_ne _ _ hk', rfl⟩
    · exact absurd h hk

theorem capacity_spec {parseU64 : Str → Option UInt64} {m : Str → Option Value} (hs : Sensible parseU64 m) (realText : Rat → Str) (c : Config) :
    ∃ c', assignCapacity parseU64 realText m c = some c' ∧ Set1 parseU64 m .cacheCapacity c c' := by
  unfold assignCapacity
  match hm : m Key.cacheCapacity.name with
  | none => exact ⟨c, rfl, ⟨(fun v x h => by rw [hm] at h; cases h), fun _ => ⟨rfl, rfl, rfl⟩, (fun v h => by rw [hm] at h; cases h), fun _ _ => ⟨rfl, rfl, rfl⟩⟩⟩
  | some v =>
    rcases hs _ v hm with ⟨x, hx⟩ | ⟨-, s, rfl, hn⟩
    · cases hx with
      | number _ _ _ h => exact absurd rfl h
      | off _ h => cases h
      | on _ h => cases h
      | zero _ h => cases h
      | nonzero _ i h => cases h
      | size s b hd hb =>
        obtain ⟨size, hj⟩ := Option.isSome_iff_exists.mp ((C47_size_partial parseU64 s).1.mpr ⟨b, hd⟩)
        refine ⟨{ c with value := put c.value .cacheCapacity size.toNat, read := put c.read .cacheCapacity true }, ?_, ⟨fun v x h h' => ?_, (fun h => by rw [hm] at h; cases h), fun v h h' => ?_, fun k' hk' => ⟨put_ne _ _ hk', put_ne _ _ hk', rfl⟩⟩⟩
        · simp only [Value.asString, Option.map, hj]
        · rw [hm] at h; cases h
          cases h' with
          | size _ b' hd' hb' =>
            refine ⟨?_, put_eq c.read .cacheCapacity true, rfl⟩
            show put c.value .cacheCapacity (size.toNat : Int) .cacheCapacity = _
            rw [put_eq, (C47_size_partial parseU64 s).2 size b' hj hd' hb']
        · rw [hm] at h; cases h
          exact absurd (.size s b hd hb) (h' _)
    · refine ⟨{ c with failed := put c.failed .cacheCapacity true }, ?_, ⟨fun v x h h' => ?_, (fun h => by rw [hm] at h; cases h), fun v h h' => ⟨rfl, rfl, put_eq c.failed .cacheCapacity true⟩, fun k' hk' => ⟨rfl, rfl, put_ne _ _ hk'⟩⟩⟩
      · have hj : jedec parseU64 s = none := by
          match hj : jedec parseU64 s with
          | none => rfl
          | some size =>
            obtain ⟨b, hb⟩ := (C47_size_partial parseU64 s).1.mp (by rw [hj]; rfl)
            exact absurd hb (hn b)
        simp only [Value.asString, Option.map, hj]
      · rw [hm] at h; cases h
        cases h' with
        | size _ b hd hb => exact absurd hd (hn b)

/-- C142: if all settings in the file make sense then each of them replaces the one given as a flag, all others stay, and it is told which were read and which could not be; a capacity that is none is told and not used; a file that does not exist or is no JSON changes nothing. In all cases the service starts. -/
theorem C142_override_partial (parseU64 : Str → Option UInt64) (realText : Rat → Str) (value : Key → Int) :
    (∀ m, Sensible parseU64 m → ∃ c', load parseU64 realText (.json (.object m)) { value } = some (true, c') ∧ serviceConfig parseU64 realText (.json (.object m)) { value } = some c' ∧ Overridden parseU64 m { value } c') ∧
    (∀ f, f = .missing ∨ f = .unreadable ∨ f = .noJson → load parseU64 realText f { value } = some (false, { value }) ∧ serviceConfig parseU64 realText f { value } = some { value }) := by
  constructor
  · intro m hs
    obtain ⟨c1, e1, s1⟩ := assign_spec hs .servicePort (by decide) { value }
    obtain ⟨c2, e2, s2⟩ := assign_spec hs .verbosity (by decide) c1
    obtain ⟨c3, e3, s3⟩ := assign_spec hs .debug (by decide) c2
    obtain ⟨c4, e4, s4⟩ := assign_spec hs .singlethreaded (by decide) c3
    obtain ⟨c5, e5, s5⟩ := assign_spec hs .stats (by decide) c4
    obtain ⟨c6, e6, s6⟩ := assign_spec hs .quiet (by decide) c5
    obtain ⟨c7, e7, s7⟩ := assign_spec hs .check (by decide) c6
    obtain ⟨c8, e8, s8⟩ := assign_spec hs .logToStdout (by decide) c7
    obtain ⟨c9, e9, s9⟩ := assign_spec hs .cleanupTimeout (by decide) c8
    obtain ⟨c10, e10, s10⟩ := assign_spec hs .accessIdleTimeout (by decide) c9
    obtain ⟨c11, e11, s11⟩ := assign_spec hs .updaterThreads (by decide) c10
    obtain ⟨c12, e12, s12⟩ := assign_spec hs .waitDuration (by decide) c11
    obtain ⟨c13, e13, s13⟩ := capacity_spec hs realText c12
    have hl : load parseU64 realText (.json (.object m)) { value } = some (true, c13) := by
      simp only [load, e1, e2, e3, e4, e5, e6, e7, e8, e9, e10, e11, e12, e13, Option.bind_eq_bind, Option.bind_some]; rfl
    refine ⟨c13, hl, by unfold serviceConfig; rw [hl]; rfl, ?_⟩
    -- each setting is changed by one of the assignments only
    have key : ∀ k, ∃ c c', Set1 parseU64 m k c c' ∧ (c.value k = value k ∧ c.read k = false ∧ c.failed k = false) ∧ c13.value k = c'.value k ∧ c13.read k = c'.read k ∧ c13.failed k = c'.failed k := by
      have o1 := s1.others; have o2 := s2.others; have o3 := s3.others; have o4 := s4.others; have o5 := s5.others; have o6 := s6.others; have o7 := s7.others
      have o8 := s8.others; have o9 := s9.others; have o10 := s10.others; have o11 := s11.others; have o12 := s12.others; have o13 := s13.others
      intro k
      cases k
      case servicePort => exact ⟨_, _, s1, by simp, by simp [o2, o3, o4, o5, o6, o7, o8, o9, o10, o11, o12, o13]⟩
      case verbosity => exact ⟨_, _, s2, by simp [o1], by simp [o3, o4, o5, o6, o7, o8, o9, o10, o11, o12, o13]⟩
      case debug => exact ⟨_, _, s3, by simp [o1, o2], by simp [o4, o5, o6, o7, o8, o9, o10, o11, o12, o13]⟩
      case singlethreaded => exact ⟨_, _, s4, by simp [o1, o2, o3], by simp [o5, o6, o7, o8, o9, o10, o11, o12, o13]⟩
      case stats => exact ⟨_, _, s5, by simp [o1, o2, o3, o4], by simp [o6, o7, o8, o9, o10, o11, o12, o13]⟩
      case quiet => exact ⟨_, _, s6, by simp [o1, o2, o3, o4, o5], by simp [o7, o8, o9, o10, o11, o12, o13]⟩
      case check => exact ⟨_, _, s7, by simp [o1, o2, o3, o4, o5, o6], by simp [o8, o9, o10, o11, o12, o13]⟩
      case logToStdout => exact ⟨_, _, s8, by simp [o1, o2, o3, o4, o5, o6, o7], by simp [o9, o10, o11, o12, o13]⟩
      case cleanupTimeout => exact ⟨_, _, s9, by simp [o1, o2, o3, o4, o5, o6, o7, o8], by simp [o10, o11, o12, o13]⟩
      case accessIdleTimeout => exact ⟨_, _, s10, by simp [o1, o2, o3, o4, o5, o6, o7, o8, o9], by simp [o11, o12, o13]⟩
      case updaterThreads => exact ⟨_, _, s11, by simp [o1, o2, o3, o4, o5, o6, o7, o8, o9, o10], by simp [o12, o13]⟩
      case waitDuration => exact ⟨_, _, s12, by simp [o1, o2, o3, o4, o5, o6, o7, o8, o9, o10, o11], by simp [o13]⟩
      case cacheCapacity => exact ⟨_, _, s13, by simp [o1, o2, o3, o4, o5, o6, o7, o8, o9, o10, o11, o12], by simp⟩
    refine ⟨fun k v x hm hx => ?_, fun k hm => ?_, fun k v hm hx => ?_⟩
    · obtain ⟨c, c', hc, ⟨a1, a2, a3⟩, b1, b2, b3⟩ := key k
      obtain ⟨d1, d2, d3⟩ := hc.given v x hm hx
      exact ⟨by rw [b1, d1], by rw [b2, d2], by rw [b3, d3, a3]⟩
    · obtain ⟨c, c', hc, ⟨a1, a2, a3⟩, b1, b2, b3⟩ := key k
      obtain ⟨d1, d2, d3⟩ := hc.absent hm
      exact ⟨by rw [b1, d1, a1], by rw [b2, d2, a2], by rw [b3, d3, a3]⟩
    · obtain ⟨c, c', hc, ⟨a1, a2, a3⟩, b1, b2, b3⟩ := key k
      obtain ⟨d1, d2, d3⟩ := hc.invalid v hm hx
      exact ⟨by rw [b1, d1, a1], by rw [b2, d2, a2], by rw [b3, d3]⟩
  · rintro f (rfl | rfl | rfl) <;> exact ⟨rfl, rfl⟩

/-- The file with one setting. -/
def only (name : Str) (v : Value) : Str → Option Value := fun n => if n = name then some v else none

section
variable (parseU64 : Str → Option UInt64) (realText : Rat → Str) (value : Key → Int)

/-- C142 does not hold for numbers in quotes: `{ "verbosity": "3" }` ends the service with an exception. -/
theorem C142_text_violated : serviceConfig parseU64 realText (.json (.object (only (str "verbosity") (.text (str "3"))))) { value } = none := by
  have h1 : assign (only (str "verbosity") (.text (str "3"))) .servicePort { value } = some { value } := by
    unfold assign only Key.name; rw [if_neg (by decide +kernel)]
  have h2 : assign (only (str "verbosity") (.text (str "3"))) .verbosity { value } = none := by
    unfold assign only Key.name; rw [if_pos rfl]; rfl
  simp only [serviceConfig, load, h1, h2, Option.bind_eq_bind, Option.bind_some, Option.bind_none]; rfl

/-- C142 does not hold if the file is valid JSON but no object: an empty list ends the service with an exception. -/
theorem C142_root_violated : serviceConfig parseU64 realText (.json .other) { value } = none := rfl

theorem rest_none {m : Str → Option Value} {c c' : Config} (k : Key) (hm : m k.name = none) (h : assign m k c = some c') : c' = c := by
  unfold assign at h; rw [hm] at h; cases h; rfl

/-- A file with one setting, which is converted to `x`. -/
theorem only_load (k : Key) (hk : k ≠ .cacheCapacity) (v : Value) (x : Int) (hv : k.convert v = some x) :
    serviceConfig parseU64 realText (.json (.object (only k.name v))) { value } = some { value := put value k x, read := put (fun _ => false) k true } := by
  have hn : ∀ k', k' ≠ k → only k.name v k'.name = none := by
    intro k' h
    unfold only
    rw [if_neg]
    have : ∀ k k' : Key, k'.name = k.name → k' = k := by
      intro k k'; cases k <;> cases k' <;> first | exact fun _ => rfl | exact fun h => absurd h (by decide +kernel)
    exact fun h' => h (this _ _ h')
  have h0 : ∀ k' c, k' ≠ k → assign (only k.name v) k' c = some c := by
    intro k' c h; unfold assign; rw [hn k' h]
  have h1 : ∀ c, assign (only k.name v) k c = some { c with value := put c.value k x, read := put c.read k true } := by
    intro c; unfold assign; rw [show only k.name v k.name = some v from if_pos rfl]; simp only [hv, Option.map]
  have hc : ∀ c, assignCapacity parseU64 realText (only k.name v) c = some c := by
    intro c; unfold assignCapacity; rw [hn _ (Ne.symm hk)]
  cases k <;> simp [serviceConfig, load, h0, h1, hc] <;> exact absurd rfl hk

/-- C142 does not hold for numbers that do not fit: `{ "service-port": 70000 }` is port 4464, and `{ "manifest-updater-threads": -1 }` is 4294967295 threads. -/
theorem C142_range_violated :
    (∃ c, serviceConfig parseU64 realText (.json (.object (only (str "service-port") (.int 70000)))) { value } = some c ∧ c.value .servicePort = 4464) ∧
    (∃ c, serviceConfig parseU64 realText (.json (.object (only (str "manifest-updater-threads") (.int (-1))))) { value } = some c ∧ c.value .updaterThreads = 4294967295) :=
  ⟨⟨_, only_load parseU64 realText value .servicePort (by decide) (.int 70000) 4464 (by decide), put_eq value .servicePort 4464⟩,
   ⟨_, only_load parseU64 realText value .updaterThreads (by decide) (.int (-1)) 4294967295 (by decide), put_eq value .updaterThreads 4294967295⟩⟩

/-- C142 does not hold for all documented settings: `forward-port-first` and `forward-port-last` (asset_stream_config.h:52-53), as any other name, are ignored without a message. -/
theorem C142_ignored_violated (name : Str) (hn : ∀ k : Key, k.name ≠ name) (v : Value) :
    serviceConfig parseU64 realText (.json (.object (only name v))) { value } = some { value } ∧ (∀ k : Key, k.name ≠ str "forward-port-first") := by
  have h0 : ∀ k c, assign (only name v) k c = some c := by
    intro k c; unfold assign only; rw [if_neg (hn k)]
  have hc : ∀ c, assignCapacity parseU64 realText (only name v) c = some c := by
    intro c; unfold assignCapacity only; rw [if_neg (hn _)]
  refine ⟨?_, ?_⟩
  · simp [serviceConfig, load, h0, hc]
  · intro k; cases k <;> decide +kernel

end

/-- C142: the hypotheses are met by a file with a number, a switch, a capacity and a wrong capacity. -/
example (parseU64 : Str → Option UInt64) (hp : parseU64 (str "150") = some 150) :
    Sensible parseU64 (fun n => if n = str "verbosity" then some (.int 3) else if n = str "debug" then some (.int 0) else if n = str "cache-capacity" then some (.text (str "150G")) else none) := by
  intro k v h
  dsimp only at h
  cases k
  case verbosity =>
    rw [if_pos (by decide +kernel)] at h; cases h
    exact .inl ⟨3, .number _ 3 (by decide) (by decide) (by decide) (by decide)⟩
  case debug =>
    rw [if_neg (by decide +kernel), if_pos (by decide +kernel)] at h; cases h
    exact .inl ⟨0, .zero _ (by decide)⟩
  case cacheCapacity =>
    rw [if_neg (by decide +kernel), if_neg (by decide +kernel), if_pos (by decide +kernel)] at h; cases h
    refine .inl ⟨_, .size _ ((150 : UInt64).toNat * 1024 ^ 3) ?_ (by decide)⟩
    have : str "150G" = str "150" ++ [71] := by decide +kernel
    rw [this]
    exact .unit .G hp
  all_goals
    rw [if_neg (by decide +kernel), if_neg (by decide +kernel), if_neg (by decide +kernel)] at h
    cases h

/-! ### Model: the exit code -/

/-- What a command has found in its arguments, base_command.cc:53-86 (`show_help_`, `invalid_arg_`, `parse_error_`, `extra_positional_arg_`). -/
structure Found where
  help : Bool
  invalid : Str
  parseError : Str
  extra : Str

/-- `CommandHandler`, base_command.cc:83-121. `run` is the code of the status that `Run` returns, 0 for ok. The results are the exit code and whether `Run` was called. -/
def commandHandler (f : Found) (run : Nat) : Nat × Bool :=
  if f.help then (0, false)
  else if f.invalid ≠ [] then (1, false)
  else if f.parseError ≠ [] then (1, false)
  else if f.extra ≠ [] then (1, false)
  else (run, true)

/-- What lyra makes of the arguments: an error before a command is complete, no command, or a command, which is then run; then there can still be an error. -/
inductive Parsed where
  | failed
  | noCommand
  | command (f : Found) (failsAfter : Bool)

/-- `main`, cdc_stream/main.cc:40-76: the exit code, and whether `Run` of a command was called. -/
def main (help : Bool) (p : Parsed) (run : Nat) : Int × Bool :=
  let (code, ran, result) : Int × Bool × Bool := match p with
    | .failed => (-1, false, false)
    | .noCommand => (-1, false, true)
    | .command f failsAfter => ((commandHandler f run).1, (commandHandler f run).2, !failsAfter)
  if help ∨ code = -1 then (0, ran)
  else if !result then (1, ran)
  else (code, ran)

/-- C143: if there is a command and lyra accepts the arguments then the exit code is 0 if and only if help was asked for or the command was run and succeeded; a command is only run if there are no invalid or extra arguments, and help was not asked for. -/
theorem C143_exit_code_partial (f : Found) (run : Nat) :
    ((main false (.command f false) run).1 = 0 ↔ f.help = true ∨ ((main false (.command f false) run).2 = true ∧ run = 0)) ∧
    ((main false (.command f false) run).2 = true ↔ f.help = false ∧ f.invalid = [] ∧ f.parseError = [] ∧ f.extra = []) := by
  obtain ⟨h, i, p, e⟩ := f
  unfold main commandHandler
  have hi : ∀ n : Nat, (n : Int) ≠ -1 := by omega
  cases h <;> cases i <;> cases p <;> cases e <;> simp [hi]

/-- C143: if there is a wrong argument after the command then the exit code is not 0, even if the command, which is run before, succeeds. -/
theorem C143_fails_after (f : Found) (run : Nat) : (main false (.command f true) run).1 = 1 := by
  unfold main
  have hi : ∀ n : Nat, (n : Int) ≠ -1 := by omega
  simp [hi]

/-- C143 does not hold for arguments that lyra does not accept, such as `--service-port abc`, a missing argument or an unknown command: the exit code is 0. -/
theorem C143_failed_violated (run : Nat) : main false .failed run = (0, false) ∧ main false .noCommand run = (0, false) := ⟨rfl, rfl⟩

end Verif.Settings
