/-! # C40: separating the server's error text from its normal output
(cdc_rsync/cdc_rsync_client.cc: `CdcRsyncClient::HandleServerOutput`) -/
namespace Verif.Text.Demux

abbrev Str := List UInt8

/-! ## Model -/

/-- `kServerErrorMarker`, cdc_rsync/base/server_exit_code.h:26. -/
def marker : UInt8 := 0x1e

/-- "Server is listening" (cdc_rsync_client.cc:365). -/
def listeningKey : Str := [83, 101, 114, 118, 101, 114, 32, 105, 115, 32, 108, 105, 115, 116, 101, 110, 105, 110, 103]

/-- "Port " (cdc_rsync_client.cc:368). -/
def portKey : Str := [80, 111, 114, 116, 32]

/-- The part of a read the handler sees: the handler gets a C string and ignores the size
(cdc_rsync_client.cc:232-234; the reader appends a terminating zero, common/process_win.cc:237-240). -/
def cstr (data : Str) : Str := data.takeWhile (· ≠ 0)

/-- `absl::StrSplit(data, ByChar(marker))`: n markers give n + 1 parts. -/
def split : Str → List Str
  | [] => [[]]
  | c :: s => if c = marker then [] :: split s else
    match split s with
    | [] => [[c]]
    | p :: ps => (c :: p) :: ps

/-- `std::string::find(pat)`. -/
def find (pat : Str) : Str → Option Nat
  | [] => if pat.isPrefixOf [] then some 0 else none
  | c :: s => if pat.isPrefixOf (c :: s) then some 0 else (find pat s).map (· + 1)

/-- `std::string::rfind(pat, pos)`: the last occurrence that begins at or before `pos`. -/
def rfind (pat s : Str) : Nat → Option Nat
  | 0 => if pat.isPrefixOf s then some 0 else none
  | pos + 1 => if pat.isPrefixOf (s.drop (pos + 1)) then some (pos + 1) else rfind pat s pos

/-- Members of `CdcRsyncClient` used by the handler (cdc_rsync_client.h): `is_server_error_`, `server_error_`,
`server_output_`, `server_listen_port_`, and everything handed to `printer_.Print`. -/
structure State where
  isErr : Bool := false
  err : Str := []
  printed : Str := []
  out : Str := []
  port : Int := 0
deriving DecidableEq

/-- The loop over the parts, cdc_rsync_client.cc:347-356. Returns `is_server_error_`, `server_error_` and
`stdout_data_storage`. -/
def parts (isErr : Bool) (err outp : Str) : List Str → Bool × Str × Str
  | [] => (isErr, err, outp)
  | p :: ps =>
    let err := if isErr then err ++ p else err
    let outp := if isErr then outp else outp ++ p
    parts (if ps = [] then isErr else !isErr) err outp ps

/-- The search for the port, cdc_rsync_client.cc:364-383. `none`: the text "Server is listening" is not there yet.
`some none`: no port marker. `some (some p)`: `p` is the value returned by `atoi`, which is a parameter. -/
def parsePort (atoi : Str → Int) (out : Str) : Option (Option Int) :=
  match find listeningKey out with
  | none => none
  | some l => match rfind portKey out l with
    | none => some none
    | some p => some (some (atoi ((out.drop (p + portKey.length)).take (l - p))))

/-- `HandleServerOutput`, cdc_rsync_client.cc:333-387; the result says whether the status is OK. Whatever the
status, later reads are handled too (common/process_win.cc:240-244). Only the text given to the printer is
modelled, not how it is shown. -/
def handle (atoi : Str → Int) (st : State) (read : Str) : State × Bool :=
  let data := cstr read
  let (isErr, err, stdout) :=
    if st.isErr ∨ marker ∈ data then parts st.isErr st.err [] (split data) else (st.isErr, st.err, data)
  let st : State := { st with isErr := isErr, err := err, printed := st.printed ++ stdout }
  if st.port = 0 then
    let st : State := { st with out := st.out ++ stdout }
    match parsePort atoi st.out with
    | none => (st, true)
    | some none => (st, false)
    | some (some p) => ({ st with port := p }, p ≠ 0)
  else (st, true)

/-- All reads of one server process; also tells whether some call returned an error. -/
def run (atoi : Str → Int) (st : State) : List Str → State × Bool
  | [] => (st, true)
  | r :: rs => let (st, ok) := handle atoi st r; let (st, ok') := run atoi st rs; (st, ok && ok')

/-! ## Specification: a function of the whole stream -/

/-- Number of markers before position `i` is odd: position `i` is inside an error message. -/
def inError (s : Str) (i : Nat) : Bool := (s.take i).count marker % 2 = 1

/-- The bytes at the positions for which `sel` holds, without the markers. -/
def pick (s : Str) (sel : Nat → Bool) : Str :=
  (List.range s.length).filterMap (fun i => match s[i]? with
    | some c => if c ≠ marker ∧ sel i then some c else none
    | none => none)

/-- Normal output and error text of a stream. -/
def normalText (s : Str) : Str := pick s (fun i => ! inError s i)
def errorText (s : Str) : Str := pick s (fun i => inError s i)

/-- `pat` occurs in `s` at position `i`. -/
def OccursAt (pat s : Str) (i : Nat) : Prop := ∃ a b, s = a ++ pat ++ b ∧ a.length = i

/-- The text from which the port is read: begins after the last "Port " before the first "Server is
listening". -/
def PortField (s field : Str) : Prop := ∃ l p,
  OccursAt listeningKey s l ∧ (∀ i < l, ¬ OccursAt listeningKey s i) ∧
  OccursAt portKey s p ∧ p ≤ l ∧ (∀ i, p < i → i ≤ l → ¬ OccursAt portKey s i) ∧
  field = (s.drop (p + 5)).take (l - p)

/-! ## Splitting and toggling -/

/-- Reference: one byte at a time. -/
def bytes (e : Bool) (err out : Str) : Str → Bool × Str × Str
  | [] => (e, err, out)
  | c :: s => if c = marker then bytes (!e) err out s else
    if e then bytes e (err ++ [c]) out s else bytes e err (out ++ [c]) s

theorem split_ne (s : Str) : split s ≠ [] := by
  cases s with
  | nil => simp [split]
  | cons c s =>
    simp only [split]
    split
    · simp
    · split <;> simp

theorem parts_cons (e : Bool) (err out : Str) (c : UInt8) (p : Str) (ps : List Str) :
    parts e err out ((c :: p) :: ps) =
      if e then parts e (err ++ [c]) out (p :: ps) else parts e err (out ++ [c]) (p :: ps) := by
  cases e <;> simp [parts]

theorem parts_split (s : Str) : ∀ (e : Bool) (err out : Str), parts e err out (split s) = bytes e err out s := by
  induction s with
  | nil => intro e err out; cases e <;> simp [split, parts, bytes]
  | cons c s ih =>
    intro e err out
    by_cases hc : c = marker
    · simp only [split, if_pos hc, bytes]
      rw [← ih]
      cases e <;> simp [parts, split_ne]
    · simp only [split, if_neg hc, bytes]
      cases hs : split s with
      | nil => exact absurd hs (split_ne s)
      | cons p ps =>
        simp only
        rw [parts_cons, ← ih, ← ih, hs]

theorem bytes_append (a : Str) : ∀ (b : Str) (e : Bool) (err out : Str),
    bytes e err out (a ++ b) = (let r := bytes e err out a; bytes r.1 r.2.1 r.2.2 b) := by
  induction a with
  | nil => intro b e err out; rfl
  | cons c a ih =>
    intro b e err out
    simp only [List.cons_append, bytes]
    split
    · rw [ih]
    · split <;> rw [ih]

theorem bytes_acc (s : Str) : ∀ (e : Bool) (err out : Str),
    bytes e err out s = ((bytes e [] [] s).1, err ++ (bytes e [] [] s).2.1, out ++ (bytes e [] [] s).2.2) := by
  induction s with
  | nil => intro e err out; simp [bytes]
  | cons c s ih =>
    intro e err out
    simp only [bytes]
    by_cases hc : c = marker
    · simp only [if_pos hc]; rw [ih]
    · simp only [if_neg hc]
      cases e
      · simp only [Bool.false_eq_true, if_false]
        rw [ih, ih false [] ([] ++ [c])]; simp
      · simp only [if_true]
        rw [ih, ih true ([] ++ [c]) []]; simp

theorem pick_nil (sel : Nat → Bool) : pick [] sel = [] := rfl

theorem pick_cons (c : UInt8) (s : Str) (sel : Nat → Bool) :
    pick (c :: s) sel = (if c ≠ marker ∧ sel 0 then [c] else []) ++ pick s (fun i => sel (i + 1)) := by
  unfold pick
  rw [List.length_cons, List.range_succ_eq_map, List.filterMap_cons, List.filterMap_map]
  simp only [List.getElem?_cons_zero]
  by_cases h : c ≠ marker ∧ sel 0 = true
  · simp only [if_pos h]; rfl
  · simp only [if_neg h]; rfl

theorem pick_congr (s : Str) (f g : Nat → Bool) (h : ∀ i, f i = g i) : pick s f = pick s g := by
  rw [show f = g from funext h]

theorem bytes_spec (s : Str) : ∀ (e : Bool),
    (bytes e [] [] s).2.1 = pick s (fun i => e != inError s i) ∧
    (bytes e [] [] s).2.2 = pick s (fun i => ! (e != inError s i)) := by
  induction s with
  | nil => intro e; simp [bytes, pick_nil]
  | cons c s ih =>
    intro e
    simp only [bytes, pick_cons]
    have h0 : inError (c :: s) 0 = false := by simp [inError]
    by_cases hc : c = marker
    · have h1 : ∀ i, inError (c :: s) (i + 1) = ! inError s i := by
        intro i
        subst hc
        simp only [inError, List.take_succ_cons, List.count_cons_self]
        have := Nat.mod_two_eq_zero_or_one ((s.take i).count marker)
        rcases this with h | h
        · rw [show ((s.take i).count marker + 1) % 2 = 1 by omega, h]; rfl
        · rw [show ((s.take i).count marker + 1) % 2 = 0 by omega, h]; rfl
      simp only [if_pos hc, h1, (ih _).1, (ih _).2]
      constructor <;> (rw [if_neg (fun h => h.1 hc)]; simp only [List.nil_append]; apply pick_congr; intro i;
                       cases e <;> cases inError s i <;> rfl)
    · have h1 : ∀ i, inError (c :: s) (i + 1) = inError s i := by
        intro i
        have e : ((c :: s).take (i + 1)).count marker = (s.take i).count marker := by
          rw [List.take_succ_cons, List.count_cons_of_ne hc]
        simp only [inError, e]
      simp only [if_neg hc, h0, h1]
      cases e
      · simp only [Bool.false_eq_true, if_false]
        rw [bytes_acc, (ih _).1, (ih _).2]
        simp [hc]
      · simp only [if_true]
        rw [bytes_acc, (ih _).1, (ih _).2]
        simp [hc]

theorem bytes_false (s : Str) : (bytes false [] [] s).2 = (errorText s, normalText s) := by
  have := bytes_spec s false
  ext1
  · rw [this.1]; exact pick_congr _ _ _ (fun i => by cases inError s i <;> rfl)
  · rw [this.2]; exact pick_congr _ _ _ (fun i => by cases inError s i <;> rfl)

theorem bytes_noMarker (s : Str) (h : marker ∉ s) : bytes false [] [] s = (false, [], s) := by
  suffices ∀ out, bytes false [] out s = (false, [], out ++ s) by simpa using this []
  induction s with
  | nil => intro out; simp [bytes]
  | cons c s ih =>
    intro out
    have hc : ¬ c = marker := by rintro rfl; simp at h
    simp only [bytes, if_neg hc, Bool.false_eq_true, if_false]
    rw [ih (fun hm => h (List.mem_cons_of_mem _ hm))]
    simp

theorem cstr_eq (s : Str) (h : (0 : UInt8) ∉ s) : cstr s = s := by
  unfold cstr
  induction s with
  | nil => rfl
  | cons c s ih =>
    have hc : c ≠ 0 := by rintro rfl; simp at h
    rw [List.takeWhile_cons, if_pos (by simpa using hc), ih (fun hm => h (List.mem_cons_of_mem _ hm))]

/-- What one call does to the text. -/
theorem demux_eq (st : State) (data : Str) :
    (if st.isErr ∨ marker ∈ data then parts st.isErr st.err [] (split data) else (st.isErr, st.err, data)) =
    bytes st.isErr st.err [] data := by
  split
  · exact parts_split ..
  · rename_i h
    have h1 : st.isErr = false := by cases hb : st.isErr <;> simp_all
    have h2 : marker ∉ data := fun hm => h (.inr hm)
    rw [bytes_acc, h1, bytes_noMarker _ h2]
    simp

/-! ## The port -/

theorem find_some_iff (pat s : Str) (l : Nat) :
    find pat s = some l ↔ (l ≤ s.length ∧ pat <+: s.drop l ∧ ∀ i < l, ¬ pat <+: s.drop i) := by
  induction s generalizing l with
  | nil =>
    simp only [find]
    split
    · rename_i h
      rw [List.isPrefixOf_iff_prefix] at h
      constructor
      · rintro h2; injection h2 with h2; subst h2; simp [h]
      · rintro ⟨h2, _, _⟩; simp at h2; simp [h2]
    · rename_i h
      rw [List.isPrefixOf_iff_prefix] at h
      simp only [reduceCtorEq, List.drop_nil, false_iff]
      rintro ⟨_, h2, _⟩; exact h h2
  | cons c s ih =>
    simp only [find]
    split
    · rename_i h
      rw [List.isPrefixOf_iff_prefix] at h
      constructor
      · rintro h2; injection h2 with h2; subst h2; exact ⟨by simp, by simpa using h, by simp⟩
      · rintro ⟨_, _, h2⟩
        cases l with
        | zero => rfl
        | succ l => exact absurd (by simpa using h) (h2 0 (by omega))
    · rename_i h
      rw [List.isPrefixOf_iff_prefix] at h
      cases l with
      | zero =>
        simp only [Option.map_eq_some_iff, Nat.add_one_ne_zero, and_false, exists_false, false_iff]
        rintro ⟨_, h2, _⟩; exact h (by simpa using h2)
      | succ l =>
        simp only [Option.map_eq_some_iff, Nat.add_right_cancel_iff, exists_eq_right]
        rw [ih]
        constructor
        · rintro ⟨h1, h2, h3⟩
          refine ⟨by simp; omega, by simpa using h2, ?_⟩
          intro i hi
          cases i with
          | zero => simpa using h
          | succ i => simpa using h3 i (by omega)
        · rintro ⟨h1, h2, h3⟩
          refine ⟨by simp at h1; omega, by simpa using h2, ?_⟩
          intro i hi
          simpa using h3 (i + 1) (by omega)

theorem find_none_iff (pat s : Str) : find pat s = none ↔ ∀ i ≤ s.length, ¬ pat <+: s.drop i := by
  constructor
  · intro h i
    induction i using Nat.strongRecOn with
    | _ i ih =>
      intro hi hp
      have := (find_some_iff pat s i).2 ⟨hi, hp, fun j hj => ih j hj (by omega)⟩
      rw [h] at this; cases this
  · intro h
    cases hf : find pat s with
    | none => rfl
    | some l => obtain ⟨h1, h2, _⟩ := (find_some_iff pat s l).1 hf; exact absurd h2 (h l h1)

theorem rfind_some_iff (pat s : Str) (pos p : Nat) :
    rfind pat s pos = some p ↔ (p ≤ pos ∧ pat <+: s.drop p ∧ ∀ i, p < i → i ≤ pos → ¬ pat <+: s.drop i) := by
  induction pos with
  | zero =>
    simp only [rfind]
    split
    · rename_i h
      rw [List.isPrefixOf_iff_prefix] at h
      constructor
      · rintro h2; injection h2 with h2; subst h2; exact ⟨by simp, by simpa using h, by omega⟩
      · rintro ⟨h2, _, _⟩; simp at h2; simp [h2]
    · rename_i h
      rw [List.isPrefixOf_iff_prefix] at h
      simp only [reduceCtorEq, false_iff]
      rintro ⟨h1, h2, _⟩
      obtain rfl : p = 0 := by omega
      exact h (by simpa using h2)
  | succ pos ih =>
    simp only [rfind]
    split
    · rename_i h
      rw [List.isPrefixOf_iff_prefix] at h
      constructor
      · rintro h2; injection h2 with h2; subst h2; exact ⟨by simp, h, by omega⟩
      · rintro ⟨h1, _, h3⟩
        by_cases hp : p = pos + 1
        · rw [hp]
        · exact absurd h (h3 (pos + 1) (by omega) (by omega))
    · rename_i h
      rw [List.isPrefixOf_iff_prefix] at h
      rw [ih]
      constructor
      · rintro ⟨h1, h2, h3⟩
        refine ⟨by omega, h2, ?_⟩
        intro i h4 h5
        by_cases hi : i = pos + 1
        · rw [hi]; exact h
        · exact h3 i h4 (by omega)
      · rintro ⟨h1, h2, h3⟩
        refine ⟨?_, h2, fun i h4 h5 => h3 i h4 (by omega)⟩
        by_cases hp : p = pos + 1
        · rw [hp] at h2; exact absurd h2 h
        · omega

theorem occurs_iff (pat s : Str) (i : Nat) : OccursAt pat s i ↔ (i ≤ s.length ∧ pat <+: s.drop i) := by
  constructor
  · rintro ⟨a, b, rfl, rfl⟩
    refine ⟨by simp, ?_⟩
    rw [List.append_assoc, List.drop_left]
    exact List.prefix_append _ _
  · rintro ⟨h, b, hb⟩
    refine ⟨s.take i, b, ?_, by simp [h]⟩
    rw [List.append_assoc, hb, List.take_append_drop]

theorem prefix_drop_append (pat a b : Str) (i : Nat) (h : pat.length + i ≤ a.length) :
    pat <+: (a ++ b).drop i ↔ pat <+: a.drop i := by
  rw [List.drop_append_of_le_length (by omega)]
  constructor
  · intro hp
    exact List.prefix_of_prefix_length_le hp (List.prefix_append _ _) (by simp; omega)
  · intro hp; exact hp.trans (List.prefix_append _ _)

theorem prefix_len {pat s : Str} {i : Nat} (h : pat <+: s.drop i) (hne : pat ≠ []) : pat.length + i ≤ s.length := by
  have h1 := h.length_le
  have h2 : 0 < pat.length := List.length_pos_iff.2 hne
  simp only [List.length_drop] at h1
  omega

theorem listening_port_disjoint (s : Str) (i : Nat) (h1 : listeningKey <+: s.drop i) (h2 : portKey <+: s.drop i) :
    False := by
  obtain ⟨a, ha⟩ := h1
  obtain ⟨b, hb⟩ := h2
  rw [← hb] at ha
  simp [listeningKey, portKey] at ha

/-- A result other than "not there yet" does not change when more text arrives. -/
theorem parsePort_append (atoi : Str → Int) (a b : Str) (r : Option Int) (h : parsePort atoi a = some r) :
    parsePort atoi (a ++ b) = some r := by
  unfold parsePort at h ⊢
  cases hf : find listeningKey a with
  | none => rw [hf] at h; cases h
  | some l =>
    rw [hf] at h
    obtain ⟨h1, h2, h3⟩ := (find_some_iff _ _ _).1 hf
    have hl := prefix_len h2 (by simp [listeningKey])
    have hlk : listeningKey.length = 19 := rfl
    have hpk : portKey.length = 5 := rfl
    have hf2 : find listeningKey (a ++ b) = some l := by
      refine (find_some_iff _ _ _).2 ⟨by simp; omega, (prefix_drop_append _ _ _ _ hl).2 h2, ?_⟩
      intro i hi hp
      exact h3 i hi ((prefix_drop_append _ _ _ _ (by omega)).1 hp)
    have hpp : ∀ i ≤ l, (portKey <+: (a ++ b).drop i ↔ portKey <+: a.drop i) := by
      intro i hi
      exact prefix_drop_append _ _ _ _ (by omega)
    have hr : rfind portKey (a ++ b) l = rfind portKey a l := by
      apply Option.ext
      intro p
      rw [rfind_some_iff, rfind_some_iff]
      constructor
      · rintro ⟨q1, q2, q3⟩
        exact ⟨q1, (hpp p q1).1 q2, fun i q4 q5 q6 => q3 i q4 q5 ((hpp i q5).2 q6)⟩
      · rintro ⟨q1, q2, q3⟩
        exact ⟨q1, (hpp p q1).2 q2, fun i q4 q5 q6 => q3 i q4 q5 ((hpp i q5).1 q6)⟩
    rw [hf2]
    simp only at h ⊢
    rw [hr]
    cases hp : rfind portKey a l with
    | none => rw [hp] at h; exact h
    | some p =>
      rw [hp] at h
      simp only at h ⊢
      obtain ⟨q1, q2, _⟩ := (rfind_some_iff _ _ _ _).1 hp
      rw [← h, List.drop_append_of_le_length (by omega), List.take_append_of_le_length (by simp; omega)]

/-- What the port search computes, in terms of the specification. -/
theorem parsePort_spec (atoi : Str → Int) (s : Str) (p : Int) :
    parsePort atoi s = some (some p) ↔ ∃ f, PortField s f ∧ p = atoi f := by
  unfold parsePort PortField
  constructor
  · intro h
    cases hf : find listeningKey s with
    | none => rw [hf] at h; cases h
    | some l =>
      rw [hf] at h; simp only at h
      cases hp : rfind portKey s l with
      | none => rw [hp] at h; cases h
      | some q =>
        rw [hp] at h
        obtain ⟨h1, h2, h3⟩ := (find_some_iff _ _ _).1 hf
        obtain ⟨q1, q2, q3⟩ := (rfind_some_iff _ _ _ _).1 hp
        refine ⟨_, ⟨l, q, (occurs_iff _ _ _).2 ⟨h1, h2⟩, fun i hi ho => h3 i hi ((occurs_iff _ _ _).1 ho).2,
          (occurs_iff _ _ _).2 ⟨by omega, q2⟩, q1, fun i a b ho => q3 i a b ((occurs_iff _ _ _).1 ho).2, rfl⟩, ?_⟩
        simp only [Option.some.injEq] at h
        exact h.symm
  · rintro ⟨f, ⟨l, q, h1, h2, h3, h4, h5, rfl⟩, rfl⟩
    obtain ⟨k1, k2⟩ := (occurs_iff _ _ _).1 h1
    obtain ⟨k3, k4⟩ := (occurs_iff _ _ _).1 h3
    have hf : find listeningKey s = some l :=
      (find_some_iff _ _ _).2 ⟨k1, k2, fun i hi hp => h2 i hi ((occurs_iff _ _ _).2 ⟨by omega, hp⟩)⟩
    have hr : rfind portKey s l = some q :=
      (rfind_some_iff _ _ _ _).2 ⟨h4, k4, fun i a b hp => h5 i a b ((occurs_iff _ _ _).2 ⟨by omega, hp⟩)⟩
    rw [hf]; simp only; rw [hr]; rfl

/-! ## Invariant over the reads -/

/-- The state after the stream `s`. -/
structure Inv (atoi : Str → Int) (st : State) (s : Str) : Prop where
  text : (st.isErr, st.err, st.printed) = bytes false [] [] s
  port0 : st.port = 0 → st.out = st.printed
  val0 : st.port = 0 → ∀ p, parsePort atoi st.printed = some (some p) → p = 0
  port : st.port ≠ 0 → parsePort atoi st.printed = some (some st.port)

theorem inv_init (atoi : Str → Int) : Inv atoi {} [] where
  text := rfl
  port0 := fun _ => rfl
  val0 := by intro _ p h; cases h
  port := fun h => absurd rfl h

theorem handle_inv (atoi : Str → Int) (st : State) (s read : Str) (h0 : (0 : UInt8) ∉ read) (h : Inv atoi st s) :
    Inv atoi (handle atoi st read).1 (s ++ read) ∧
    ((handle atoi st read).2 = false ↔ ∃ r, parsePort atoi (handle atoi st read).1.printed = some r ∧ (r = none ∨ r = some 0)) := by
  unfold handle
  rw [cstr_eq read h0]
  simp only [demux_eq]
  have ht := h.text
  have hb : bytes false [] [] (s ++ read) =
      ((bytes st.isErr st.err [] read).1, (bytes st.isErr st.err [] read).2.1,
        st.printed ++ (bytes st.isErr st.err [] read).2.2) := by
    rw [bytes_append, ← ht]
    simp only
    rw [bytes_acc read st.isErr st.err st.printed, bytes_acc read st.isErr st.err []]
    simp
  generalize bytes st.isErr st.err [] read = q at hb
  by_cases hp : st.port = 0
  · simp only [hp, if_true]
    rw [h.port0 hp]
    cases hq : parsePort atoi (st.printed ++ q.2.2) with
    | none =>
      simp only
      refine ⟨⟨hb.symm, fun _ => rfl, (by intro _ p e; rw [hq] at e; cases e), fun e => absurd rfl e⟩, ?_⟩
      rw [hq]; simp
    | some r =>
      cases r with
      | none =>
        refine ⟨⟨hb.symm, fun _ => rfl, (by intro _ p e; rw [hq] at e; cases e), fun e => absurd rfl e⟩, ?_⟩
        simp only; rw [hq]; simp
      | some p =>
        simp only
        refine ⟨⟨hb.symm, fun _ => rfl, ?_, ?_⟩, ?_⟩
        · intro e p' e'
          rw [hq] at e'; simp only [Option.some.injEq] at e'; rw [← e']; exact e
        · intro _; exact hq
        · rw [hq]; simp
  · simp only [hp, if_false]
    have hpp := parsePort_append atoi st.printed q.2.2 _ (h.port hp)
    refine ⟨⟨hb.symm, fun e => absurd e hp, fun e => absurd e hp, fun _ => hpp⟩, ?_⟩
    rw [hpp]; simp [hp]

theorem run_inv (atoi : Str → Int) (reads : List Str) : ∀ (st : State) (s : Str), (∀ r ∈ reads, (0 : UInt8) ∉ r) →
    Inv atoi st s → (st.port = 0 → parsePort atoi st.printed ≠ some none ∧ parsePort atoi st.printed ≠ some (some 0)) →
    Inv atoi (run atoi st reads).1 (s ++ reads.flatten) ∧
    ((run atoi st reads).2 = false ↔ ∃ r, parsePort atoi (run atoi st reads).1.printed = some r ∧ (r = none ∨ r = some 0)) ∧
    st.printed <+: (run atoi st reads).1.printed := by
  have mono : ∀ (reads : List Str) (st : State), st.printed <+: (run atoi st reads).1.printed := by
    intro reads
    induction reads with
    | nil => intro st; exact List.prefix_refl _
    | cons r rs ih =>
      intro st
      refine List.IsPrefix.trans ?_ (ih (handle atoi st r).1)
      unfold handle
      simp only
      split
      · split <;> exact List.prefix_append _ _
      · exact List.prefix_append _ _
  have inv : ∀ (reads : List Str) (st : State) (s : Str), (∀ r ∈ reads, (0 : UInt8) ∉ r) →
      Inv atoi st s → Inv atoi (run atoi st reads).1 (s ++ reads.flatten) := by
    intro reads
    induction reads with
    | nil => intro st s _ h; simpa [run] using h
    | cons r rs ih =>
      intro st s h0 h
      have := ih _ _ (fun r' hr => h0 r' (List.mem_cons_of_mem _ hr))
        (handle_inv atoi st s r (h0 r (List.mem_cons_self ..)) h).1
      simpa [run, List.append_assoc] using this
  induction reads with
  | nil =>
    intro st s _ h hn
    refine ⟨by simpa [run] using h, ?_, List.prefix_refl _⟩
    simp only [run, Bool.true_eq_false, false_iff]
    rintro ⟨r, h1, h2⟩
    by_cases hp : st.port = 0
    · rcases h2 with rfl | rfl
      · exact (hn hp).1 h1
      · exact (hn hp).2 h1
    · rw [h.port hp] at h1
      rcases h2 with rfl | rfl
      · cases h1
      · simp only [Option.some.injEq] at h1; exact hp h1
  | cons r rs ih =>
    intro st s h0 h hn
    refine ⟨inv _ _ _ h0 h, ?_, mono _ _⟩
    have h1 := handle_inv atoi st s r (h0 r (List.mem_cons_self ..)) h
    simp only [run, Bool.and_eq_false_iff]
    by_cases hk : (handle atoi st r).2 = false
    · simp only [hk, true_or, true_iff]
      obtain ⟨q, e1, e2⟩ := h1.2.1 hk
      obtain ⟨t, ht⟩ := mono rs (handle atoi st r).1
      exact ⟨q, by rw [← ht]; exact parsePort_append _ _ _ _ e1, e2⟩
    · have := (ih (handle atoi st r).1 (s ++ r) (fun r' hr => h0 r' (List.mem_cons_of_mem _ hr)) h1.1 ?_).2.1
      · rw [this]; simp [hk]
      · intro _
        constructor <;> (intro e; apply hk; rw [h1.2]; refine ⟨_, e, ?_⟩; simp)

/-! ## Theorems -/

/-- C40: whatever the reads, the error text and the normal output are those of the whole stream (which contains no
NUL byte), the port found is the number in the port field of the normal output, and an error is reported exactly
when the normal output says "Server is listening" without a usable port. -/
theorem C40_demux (atoi : Str → Int) (reads : List Str) (h0 : ∀ r ∈ reads, (0 : UInt8) ∉ r) :
    let r := run atoi {} reads
    let s := reads.flatten
    r.1.err = errorText s ∧ r.1.printed = normalText s ∧
    (∀ p, p ≠ 0 → (r.1.port = p ↔ ∃ f, PortField (normalText s) f ∧ atoi f = p)) ∧
    (r.2 = false ↔ (∃ l, OccursAt listeningKey (normalText s) l) ∧
      ¬ ∃ f, PortField (normalText s) f ∧ atoi f ≠ 0) := by
  intro r s
  have hr := run_inv atoi reads {} [] h0 (inv_init atoi) (by
    intro _; constructor <;> (intro e; cases e))
  obtain ⟨h1, h2, _⟩ := hr
  simp only [List.nil_append] at h1
  have ht := h1.text
  have hb := bytes_false s
  have e1 : r.1.err = errorText s := by
    have := congrArg (fun q => q.2.1) ht; simp only at this
    rw [show r.1.err = (bytes false [] [] s).2.1 from this, hb]
  have e2 : r.1.printed = normalText s := by
    have := congrArg (fun q => q.2.2) ht; simp only at this
    rw [show r.1.printed = (bytes false [] [] s).2.2 from this, hb]
  have hp0 := h1.val0
  have hp := h1.port
  rw [show (run atoi {} reads).1.printed = normalText s from e2] at hp hp0 h2
  refine ⟨e1, e2, ?_, ?_⟩
  · intro p hpne
    have hsp := parsePort_spec atoi (normalText s) p
    constructor
    · intro e
      have h3 := hp (by rw [show (run atoi {} reads).1.port = p from e]; exact hpne)
      rw [show (run atoi {} reads).1.port = p from e] at h3
      obtain ⟨f, hf, hpf⟩ := hsp.1 h3
      exact ⟨f, hf, hpf.symm⟩
    · rintro ⟨f, hf, hpf⟩
      have h3 := hsp.2 ⟨f, hf, hpf.symm⟩
      by_cases hz : (run atoi {} reads).1.port = 0
      · exact absurd (hp0 hz p h3) hpne
      · have := hp hz
        rw [h3] at this
        simp only [Option.some.injEq] at this
        exact this.symm
  · rw [show r.2 = (run atoi {} reads).2 from rfl, h2]
    constructor
    · rintro ⟨q, h3, h4⟩
      constructor
      · cases hf : find listeningKey (normalText s) with
        | none => unfold parsePort at h3; rw [hf] at h3; cases h3
        | some l =>
          obtain ⟨k1, k2, _⟩ := (find_some_iff _ _ _).1 hf
          exact ⟨l, (occurs_iff _ _ _).2 ⟨k1, k2⟩⟩
      · rintro ⟨f, hf, hne⟩
        have := (parsePort_spec atoi (normalText s) (atoi f)).2 ⟨f, hf, rfl⟩
        rw [h3] at this
        rcases h4 with rfl | rfl
        · cases this
        · simp only [Option.some.injEq] at this; exact hne this.symm
    · rintro ⟨⟨l, hl⟩, hno⟩
      cases hq : parsePort atoi (normalText s) with
      | none =>
        unfold parsePort at hq
        cases hf : find listeningKey (normalText s) with
        | none =>
          obtain ⟨k1, k2⟩ := (occurs_iff _ _ _).1 hl
          exact absurd k2 ((find_none_iff _ _).1 hf l k1)
        | some l' =>
          rw [hf] at hq; simp only at hq
          split at hq <;> cases hq
      | some q =>
        refine ⟨q, rfl, ?_⟩
        cases q with
        | none => exact .inl rfl
        | some p =>
          obtain ⟨f, hf, rfl⟩ := (parsePort_spec atoi _ _).1 hq
          right
          by_cases hz : atoi f = 0
          · rw [hz]
          · exact absurd ⟨f, hf, hz⟩ hno

/-- C40: two ways to cut the same stream give the same texts, port and status. -/
theorem C40_split_independent (atoi : Str → Int) (reads reads' : List Str) (h0 : (0 : UInt8) ∉ reads.flatten)
    (heq : reads.flatten = reads'.flatten) :
    (run atoi {} reads).1.err = (run atoi {} reads').1.err ∧
    (run atoi {} reads).1.printed = (run atoi {} reads').1.printed ∧
    (run atoi {} reads).1.port = (run atoi {} reads').1.port ∧
    (run atoi {} reads).2 = (run atoi {} reads').2 := by
  have a := C40_demux atoi reads (fun r hr hm => h0 (List.mem_flatten.2 ⟨r, hr, hm⟩))
  have b := C40_demux atoi reads' (fun r hr hm => h0 (heq ▸ List.mem_flatten.2 ⟨r, hr, hm⟩))
  simp only at a b
  rw [← heq] at b
  refine ⟨a.1.trans b.1.symm, a.2.1.trans b.2.1.symm, ?_, ?_⟩
  · by_cases hz : (run atoi {} reads).1.port = 0
    · by_cases hz' : (run atoi {} reads').1.port = 0
      · rw [hz, hz']
      · have := (a.2.2.1 _ hz').2 ((b.2.2.1 _ hz').1 rfl)
        exact this
    · exact ((b.2.2.1 _ hz).2 ((a.2.2.1 _ hz).1 rfl)).symm
  · have := a.2.2.2.trans b.2.2.2.symm
    cases h1 : (run atoi {} reads).2 <;> cases h2 : (run atoi {} reads').2 <;> simp_all

/-- The stream the server writes: its normal output, then the error message between markers (`SendErrorMessage`,
cdc_rsync_server/main.cc:24-27). -/
def serverStream (out msg : Str) : Str := out ++ [marker] ++ msg ++ [marker]

/-- C40: the client gets back exactly the server's output and error message, however they are read. -/
theorem C40_roundtrip (atoi : Str → Int) (out msg : Str) (reads : List Str)
    (hr : reads.flatten = serverStream out msg) (h0 : (0 : UInt8) ∉ out ++ msg) (hm : marker ∉ out ++ msg) :
    (run atoi {} reads).1.err = msg ∧ (run atoi {} reads).1.printed = out := by
  have hz : ∀ r ∈ reads, (0 : UInt8) ∉ r := by
    intro r hr' h
    have : (0 : UInt8) ∈ serverStream out msg := hr ▸ List.mem_flatten.2 ⟨r, hr', h⟩
    simp [serverStream, marker] at this
    simp at h0
    rcases this with h | h
    · exact h0.1 h
    · exact h0.2 h
  obtain ⟨a, b, _⟩ := C40_demux atoi reads hz
  rw [hr] at a b
  have hb := bytes_false (serverStream out msg)
  have hmsg : ∀ (msg : Str), marker ∉ msg → ∀ out, bytes true [] out msg = (true, msg, out) := by
    intro msg h out
    suffices ∀ err, bytes true err out msg = (true, err ++ msg, out) by simpa using this []
    induction msg with
    | nil => intro err; simp [bytes]
    | cons c s ih =>
      intro err
      have hc : ¬ c = marker := by rintro rfl; simp at h
      simp only [bytes, if_neg hc, if_true]
      rw [ih (fun hm => h (List.mem_cons_of_mem _ hm))]
      simp
  have : bytes false [] [] (serverStream out msg) = (false, msg, out) := by
    unfold serverStream
    rw [List.append_assoc, List.append_assoc, bytes_append,
      bytes_noMarker out (fun h => hm (List.mem_append.2 (.inl h)))]
    simp only [List.cons_append, List.nil_append, bytes, if_true]
    rw [bytes_append, show (!false) = true from rfl, hmsg msg (fun h => hm (List.mem_append.2 (.inr h)))]
    simp [bytes]
  rw [this] at hb
  simp only [Prod.mk.injEq] at hb
  exact ⟨a.trans hb.1.symm, b.trans hb.2.symm⟩

/-- Not vacuous: "Port 7: Server is listening", an error "x", then "y", read in three pieces. -/
def exampleReads : List Str :=
  [[80, 111, 114, 116, 32, 55, 58, 32, 83, 101, 114, 118, 101, 114, 32, 105], [115, 32, 108, 105, 115, 116, 101, 110,
    105, 110, 103, 10, 0x1e], [120, 0x1e, 121]]

theorem C40_example :
    (run (fun s => match s with | 55 :: _ => 7 | _ => 0) {} exampleReads).1.port = 7 ∧
    (run (fun _ => 7) {} exampleReads).1.err = [120] ∧
    (0 : UInt8) ∉ exampleReads.flatten ∧
    (run (fun _ => 7) {} exampleReads).2 = true ∧ (run (fun _ => 0) {} exampleReads).2 = false := by
  decide +kernel

/-- The hypothesis on NUL bytes is needed: the text after a NUL byte is dropped up to the end of the read. -/
theorem C40_nul_matters : ∃ reads reads' : List Str, reads.flatten = reads'.flatten ∧
    (run (fun _ => 0) {} reads).1.printed ≠ (run (fun _ => 0) {} reads').1.printed :=
  ⟨[[65, 0, 66]], [[65, 0], [66]], by decide, by decide⟩

end Verif.Text.Demux
