import Verif.Text.Components

/-!
# Errors with tags

Model of common/status.h, common/status.cc, the macros of common/status_macros.h and common/grpc_status.h.  Of `absl::Status` only
what is documented is used: an OK status has no message and no payloads, a payload that is set replaces the one with the same key.
-/

namespace Verif.Util.Status

open Verif.Text.Flags (isDigit value IsNumber)
open Verif.Text.Components (dec dec_spec)

abbrev Str := List UInt8

/-- `absl::Status`: code 0 is OK. -/
structure Status where
  code : Nat
  message : Str := []
  payloads : List (Str × Str) := []
deriving DecidableEq

def Status.ok (s : Status) : Bool := s.code == 0

/-- `absl::Status::SetPayload`: nothing happens if the status is OK. -/
def setPayload (key v : Str) (s : Status) : Status :=
  if s.ok then s else { s with payloads := (key, v) :: s.payloads.filter (·.1 ≠ key) }

/-- `absl::Status::GetPayload`. -/
def getPayload (key : Str) (s : Status) : Option Str := (s.payloads.find? (·.1 == key)).map (·.2)

/-- `Tag`, status.h:69-85. -/
inductive Tag
  | socketEof
  | addressInUse
  | deployServer
  | connectionTimeout
deriving DecidableEq

/-- The values of the enumerators, status.h:74-84. -/
def Tag.num : Tag → Nat
  | .socketEof => 0
  | .addressInUse => 1
  | .deployServer => 2
  | .connectionTimeout => 3

/-- `static_cast<Tag>(value)` for values below `kCount`, status.cc:33-35. -/
def tagOf : Nat → Option Tag
  | 0 => some .socketEof
  | 1 => some .addressInUse
  | 2 => some .deployServer
  | 3 => some .connectionTimeout
  | _ => none

/-- `kTagKey`, status.cc:22. -/
def tagKey : Str := [116, 97, 103]

/-- `safe_strto32_base` for the strings that occur; 0 for anything but a number. -/
def toNumber (s : Str) : Nat := if s ≠ [] ∧ s.all isDigit then value s else 0

/-- `SetTag`, status.cc:41-44. -/
def setTag (s : Status) (t : Tag) : Status := setPayload tagKey (dec t.num) s

/-- `HasTag`, status.cc:46-48. -/
def hasTag (s : Status) (t : Tag) : Bool := getPayload tagKey s == some (dec t.num)

/-- `GetTag` and `CordToTag`, status.cc:28-37 and 50-52. -/
def getTag (s : Status) : Option Tag := (getPayload tagKey s).bind fun c => tagOf (toNumber c)

/-- `WrapStatus` with a message, status.h:48-63, which `RETURN_IF_ERROR` and `ASSIGN_OR_RETURN` use, status_macros.h:25-39. -/
def wrap (inner : Status) (message : Str) : Status :=
  if inner.ok then inner
  else inner.payloads.foldr (fun p s => setPayload p.1 p.2 s) { code := inner.code, message := inner.message ++ [59, 32] ++ message }

/-- `ToGrpcStatus` and, on the other side, `ToAbslStatus`, grpc_status.h:29-39: code and message are sent. -/
def overGrpc (s : Status) : Status := if s.ok then { code := 0 } else { code := s.code, message := s.message }

/-- A status as the library makes it: OK statuses have nothing else, no two payloads have the same key. -/
structure Good (s : Status) : Prop where
  okEmpty : s.code = 0 → s.message = [] ∧ s.payloads = []
  keys : (s.payloads.map (·.1)).Nodup

theorem Good.setPayload {s : Status} (h : Good s) (key v : Str) : Good (setPayload key v s) := by
  unfold Status.setPayload
  split
  · exact h
  · rename_i hk
    refine ⟨fun e => absurd (by simp [Status.ok, show s.code = 0 from e]) hk, ?_⟩
    show (key :: (s.payloads.filter (·.1 ≠ key)).map (·.1)).Nodup
    rw [List.nodup_cons]
    constructor
    · intro hm
      obtain ⟨p, hp, e⟩ := List.mem_map.1 hm
      have := (List.mem_filter.1 hp).2
      simp [e] at this
    · exact h.keys.sublist (List.filter_sublist.map _)

theorem foldr_code (l : List (Str × Str)) (s : Status) :
    (l.foldr (fun p s => setPayload p.1 p.2 s) s).code = s.code ∧ (l.foldr (fun p s => setPayload p.1 p.2 s) s).message = s.message := by
  induction l with
  | nil => exact ⟨rfl, rfl⟩
  | cons p l ih =>
    rw [List.foldr_cons, setPayload]
    split
    · exact ih
    · exact ih

theorem foldr_payloads (l : List (Str × Str)) (s : Status) (hs : s.code ≠ 0) (hp : s.payloads = []) (hl : (l.map (·.1)).Nodup) :
    (l.foldr (fun p s => setPayload p.1 p.2 s) s).payloads = l := by
  induction l with
  | nil => exact hp
  | cons p l ih =>
    rw [List.map_cons, List.nodup_cons] at hl
    have ih := ih hl.2
    have hc := (foldr_code l s).1
    rw [List.foldr_cons, setPayload, if_neg (by simp [Status.ok, hc, hs])]
    show (p.1, p.2) :: List.filter _ _ = _
    rw [ih]
    congr 1
    rw [List.filter_eq_self]
    intro q hq
    have : q.1 ≠ p.1 := fun e => hl.1 (List.mem_map.2 ⟨q, hq, e⟩)
    simpa using this

theorem wrap_eq {s : Status} (h : Good s) (m : Str) :
    wrap s m = if s.code = 0 then s else { s with message := s.message ++ [59, 32] ++ m } := by
  unfold wrap
  by_cases hc : s.code = 0
  · simp [Status.ok, hc]
  · have hk : s.ok = false := by simp [Status.ok, hc]
    rw [hk, if_neg (by simp), if_neg hc]
    generalize ht : ({ code := s.code, message := s.message ++ [59, 32] ++ m } : Status) = t
    have h1 := foldr_code s.payloads t
    have h2 := foldr_payloads s.payloads t (by rw [← ht]; exact hc) (by rw [← ht]) h.keys
    rw [← ht] at h1 h2 ⊢
    generalize List.foldr _ _ _ = r at h1 h2
    obtain ⟨a, b, c⟩ := r
    simp only at h1 h2
    rw [h1.1, h1.2, h2]

theorem Good.wrap {s : Status} (h : Good s) (m : Str) : Good (wrap s m) := by
  rw [wrap_eq h]
  split
  · exact h
  · rename_i hc; exact ⟨fun e => absurd e hc, h.keys⟩

/-- How a function of the library can hand on an error. -/
inductive Step
  | tag (t : Tag)
  | wrap (message : Str)

def apply : Step → Status → Status
  | .tag t, s => setTag s t
  | .wrap m, s => Status.wrap s m

/-- The status after it has been handed on, the first step first. -/
def handed (steps : List Step) (s : Status) : Status := steps.foldl (fun s x => apply x s) s

/-- The tag that was set last. -/
def lastTag (steps : List Step) : Option Tag := steps.reverse.findSome? fun x => match x with
  | .tag t => some t
  | .wrap _ => none

/-- The messages that were added. -/
def added : List Step → Str
  | [] => []
  | .tag _ :: l => added l
  | .wrap m :: l => [59, 32] ++ m ++ added l

theorem toNumber_dec (n : Nat) : toNumber (dec n) = n := by
  obtain ⟨⟨h1, h2⟩, h3⟩ := dec_spec n
  rw [toNumber, if_pos ⟨h1, List.all_eq_true.2 h2⟩, h3]

theorem dec_inj {m n : Nat} (h : dec m = dec n) : m = n := by
  rw [← toNumber_dec m, ← toNumber_dec n, h]

theorem tagOf_num (t : Tag) : tagOf t.num = some t := by cases t <;> rfl

theorem getPayload_set (s : Status) (hs : s.code ≠ 0) (key v : Str) : getPayload key (setPayload key v s) = some v := by
  unfold setPayload getPayload
  rw [if_neg (by simp [Status.ok, hs])]
  simp

/-- What the two readers of the tag say. -/
def Says (s : Status) (t : Option Tag) : Prop := getTag s = t ∧ ∀ u, hasTag s u = true ↔ t = some u

theorem says_of_payload {s : Status} {t : Tag} (h : getPayload tagKey s = some (dec t.num)) : Says s (some t) := by
  refine ⟨by simp [getTag, h, toNumber_dec, tagOf_num], fun u => ?_⟩
  rw [hasTag, h]
  simp only [beq_iff_eq, Option.some.injEq]
  constructor
  · intro e
    have e := dec_inj e
    have := tagOf_num t
    rw [e, tagOf_num] at this
    exact (Option.some.inj this).symm
  · rintro rfl; rfl

theorem says_setTag (s : Status) (hs : s.code ≠ 0) (t : Tag) : Says (setTag s t) (some t) := says_of_payload (getPayload_set s hs _ _)

theorem handed_spec (steps : List Step) (s : Status) (h : Good s) (t : Option Tag) (ht : Says s t) (hs : s.code ≠ 0) :
    Good (handed steps s) ∧ (handed steps s).code = s.code ∧ (handed steps s).message = s.message ++ added steps ∧
    Says (handed steps s) ((lastTag steps).or t) := by
  induction steps generalizing s t with
  | nil => exact ⟨h, rfl, by simp [handed, added], by simpa [handed, lastTag] using ht⟩
  | cons x l ih =>
    have hl : lastTag (x :: l) = (lastTag l).or (match x with | .tag t => some t | .wrap _ => none) := by
      unfold lastTag
      rw [List.reverse_cons, List.findSome?_append]
      cases x <;> simp
    show Good (handed l (apply x s)) ∧ _ ∧ _ ∧ _
    cases x with
    | tag u =>
      have hc : (setTag s u).code = s.code ∧ (setTag s u).message = s.message := by
        unfold setTag setPayload; split <;> exact ⟨rfl, rfl⟩
      obtain ⟨i1, i2, i3, i4⟩ := ih (setTag s u) (h.setPayload _ _) (some u) (says_setTag s hs u) (by rw [hc.1]; exact hs)
      refine ⟨i1, i2.trans hc.1, ?_, ?_⟩
      · show (handed l (setTag s u)).message = _
        rw [i3, hc.2]; rfl
      · rw [hl]
        show Says (handed l (setTag s u)) _
        simp only at i4 ⊢
        cases h1 : lastTag l with
        | none => rw [h1] at i4; simpa using i4
        | some v => rw [h1] at i4; simpa using i4
    | wrap m =>
      have e : apply (.wrap m) s = { s with message := s.message ++ [59, 32] ++ m } := by
        show Status.wrap s m = _
        rw [wrap_eq h, if_neg hs]
      obtain ⟨i1, i2, i3, i4⟩ := ih (apply (.wrap m) s) (h.wrap m) t (by rw [e]; exact ht) (by rw [e]; exact hs)
      refine ⟨i1, ?_, ?_, ?_⟩
      · show (handed l (apply (.wrap m) s)).code = _
        rw [i2, e]
      · show (handed l (apply (.wrap m) s)).message = _
        rw [i3, e]; simp [added]
      · rw [hl]
        show Says (handed l (apply (.wrap m) s)) _
        simpa using i4

/-- C179: an error that is handed on through any number of functions, which may add messages and tags, keeps its code, has all the
messages in order, and the tag that was set last. -/
theorem C179_handed_on (code : Nat) (hc : code ≠ 0) (message : Str) (steps : List Step) :
    (handed steps { code, message }).code = code ∧ (handed steps { code, message }).message = message ++ added steps ∧
    getTag (handed steps { code, message }) = lastTag steps ∧
    ∀ t, hasTag (handed steps { code, message }) t = true ↔ lastTag steps = some t := by
  have := handed_spec steps { code, message } ⟨fun e => absurd e hc, List.nodup_nil⟩ none ⟨rfl, by simp [hasTag, getPayload]⟩ hc
  simpa [Says] using this.2

/-- C179: success stays success, and never has a tag. -/
theorem C179_ok (steps : List Step) : handed steps { code := 0 } = { code := 0 } ∧ getTag (handed steps { code := 0 }) = none := by
  have : handed steps { code := 0 } = { code := 0 } := by
    induction steps with
    | nil => rfl
    | cons x l ih => cases x <;> exact ih
  rw [this]; exact ⟨rfl, rfl⟩

/-- C179: sent over gRPC, an error keeps code and message, and success is success. -/
theorem C179_grpc_partial (s : Status) (h : Good s) : (overGrpc s).code = s.code ∧ (overGrpc s).message = s.message := by
  unfold overGrpc
  split
  · rename_i hk
    have : s.code = 0 := by simpa [Status.ok] using hk
    rw [this, (h.okEmpty this).1]; exact ⟨rfl, rfl⟩
  · exact ⟨rfl, rfl⟩

/-- C179 does not hold for tags that are sent over gRPC: they get lost. -/
theorem C179_grpc_violated (s : Status) : getTag (overGrpc s) = none := by
  unfold overGrpc; split <;> rfl

example : getTag (handed [.tag .addressInUse, .wrap [120], .tag .deployServer, .wrap [121]] { code := 13, message := [109] }) = some .deployServer ∧
    (handed [.tag .addressInUse, .wrap [120], .tag .deployServer, .wrap [121]] { code := 13, message := [109] }).message =
      [109, 59, 32, 120, 59, 32, 121] := by decide +kernel

end Verif.Util.Status
