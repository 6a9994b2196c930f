import Verif.Sync.ProtocolProps

/-!
# Queues limited in bytes, and concrete sessions (C39)
-/

namespace Verif.Protocol

theorem bytes_OK {size : Msg → Nat} {capC capS : Nat} (hC : 0 < capC) (hS : 0 < capS) :
    (Rooms.bytes size capC capS).OK := by
  refine ⟨fun m q h => ?_, fun m q h => ?_, by simpa [Rooms.bytes] using hC,
    by simpa [Rooms.bytes] using hS⟩
  · simp [Rooms.bytes] at h ⊢; omega
  · simp [Rooms.bytes] at h ⊢; omega

theorem sum_prefix (size : Msg → Nat) {p l : List Msg} (h : p <+: l) :
    (p.map size).sum ≤ (l.map size).sum := by
  obtain ⟨t, rfl⟩ := h
  simp

theorem sum_suffix (size : Msg → Nat) (l : List Msg) (k : Nat) :
    ((l.drop k).map size).sum ≤ (l.map size).sum := by
  have h := congrArg (fun x => (x.map size).sum) (List.take_append_drop k l)
  simp only [List.map_append, List.sum_append_nat] at h
  omega

/-- **C91** for queues limited in bytes: a session only ever stops when both sides have finished, if
for every changed file all its signature messages, or else all its patch messages, together are
smaller than the queue they go through. -/
theorem C91_finishes_bytes_partial (size : Msg → Nat) (capC capS : Nat) (hC : 0 < capC)
    (hS : 0 < capS) (I : Input) (hI : I.OK)
    (hf : ∀ i ∈ I.changed, ((I.sigMsgs i).map size).sum < capS ∨
      ((patchesOf (I.ops i)).map size).sum < capC)
    {n a} (h : Run (.bytes size capC capS) I n init a)
    (hs : Stuck (.bytes size capC capS) I a) : Finished a := by
  refine C91_finishes_partial _ (bytes_OK hC hS) I hI (fun i hi => ?_) h hs
  intro u m v hw _
  rcases hf i hi with h | h
  · right
    intro p hp _
    have h1 := sum_prefix size hp
    have h2 := sum_suffix size (I.sigMsgs i) (u.count none)
    simp only [Rooms.bytes, decide_eq_true_eq]
    omega
  · left
    have : patchesOf (I.ops i) = patchesOf u ++ patchesOf (some m :: v) := by
      rw [hw, patchesOf, List.filterMap_append]; rfl
    rw [this] at h
    simp at h
    simp only [Rooms.bytes, decide_eq_true_eq]
    omega

theorem sum_replicate_ge (size : Msg → Nat) (hp : ∀ m, 0 < size m) (k : Nat) (m : Msg) :
    k ≤ ((List.replicate k m).map size).sum := by
  simp only [List.map_replicate, List.sum_replicate_nat]
  exact Nat.le_mul_of_pos_right k (hp m)

/-- A file of which the client finds so many chunks in the first signature message that it wants to
send `a + 1` messages of patch commands, while the server has `b + 2` more signature messages to
send. -/
def bigInput (a b : Nat) : Input where
  opts := ⟨false, false, false⟩
  files := [(1, 0)]
  deleted := []
  missing := []
  changed := [0]
  content := fun _ => []
  sigs := fun _ => List.replicate (b + 2) 1
  ops := fun _ => none :: List.replicate (a + 1) (some 1)

theorem bigInput_OK (a b : Nat) : (bigInput a b).OK := by
  constructor <;> simp [bigInput, Input.numFiles]

theorem patchesOf_replicate (k n : Nat) :
    patchesOf (List.replicate k (some n)) = List.replicate k (.patch n) := by
  simp [patchesOf]

theorem bigInput_not_fits (size : Msg → Nat) (hp : ∀ m, 0 < size m) (capC capS : Nat) :
    ¬ Fits (.bytes size capC capS) (bigInput capC capS) 0 := by
  intro h
  have hc : (none :: List.replicate capC (some 1) : List (Option Nat)).count none = 1 := by
    simp [List.count_replicate]
  have hsm : (bigInput capC capS).sigMsgs 0 =
      Msg.sigs 1 :: (List.replicate capS (.sigs 1) ++ [.sigs 1, .sigs 0]) := by
    simp only [Input.sigMsgs, bigInput, List.map_replicate]
    rw [show capS + 2 = (capS + 1) + 1 from rfl, List.replicate_succ, List.replicate_succ']
    simp
  have := h (none :: List.replicate capC (some 1)) 1 [] (by
    show none :: List.replicate (capC + 1) (some 1) = _
    rw [List.replicate_succ']; rfl) (by rw [hc, hsm]; simp)
  rw [hc, hsm] at this
  rcases this with h | h
  · have e : patchesOf (none :: List.replicate capC (some 1)) = List.replicate capC (.patch 1) := by
      rw [← patchesOf_replicate]; rfl
    rw [e] at h
    have := sum_replicate_ge size hp capC (.patch 1)
    simp only [Rooms.bytes, decide_eq_true_eq] at h
    omega
  · have := h (List.replicate capS (.sigs 1)) (by simp) (by simp)
    have h2 := sum_replicate_ge size hp capS (.sigs 1)
    simp only [Rooms.bytes, decide_eq_true_eq] at this
    omega

/-- **C91 fails** for very large files: whatever the limits of the queues, there is a changed file
for which every session ends with the client waiting to send patch commands, which the server will
not take before it has sent all signatures, and the server waiting to send signatures, which the
client will not take before it has sent its patch commands. -/
theorem C91_deadlock_violated (size : Msg → Nat) (hp : ∀ m, 0 < size m) (capC capS : Nat)
    (hC : 0 < capC) (hS : 0 < capS) :
    ∃ I : Input, I.OK ∧ (∃ n a, Run (.bytes size capC capS) I n init a ∧
        Stuck (.bytes size capC capS) I a) ∧
      ∀ n a, Run (.bytes size capC capS) I n init a → Stuck (.bytes size capC capS) I a →
        a.c ≠ .done ∧ a.s.pc ≠ .done := by
  refine ⟨bigInput capC capS, bigInput_OK _ _, ?_, ?_⟩
  all_goals
    obtain ⟨b, ⟨m, hb⟩, hs, h1, h2⟩ := path_blocked (bytes_OK hC hS) (bigInput_OK capC capS) (by
      intro h
      rcases h with h | h
      · cases h
      · exact bigInput_not_fits size hp capC capS (h 0 (by simp [bigInput])))
  · exact ⟨m, b, hb, hs⟩
  · intro n a h hs'
    obtain ⟨k, _, hr⟩ := confluent (bytes_OK hC hS) hb hs J_init h
    obtain ⟨_, rfl⟩ := hr.of_stuck hs'
    exact ⟨h1, h2⟩

/-! ## A concrete session -/

/-- Three files in two messages; deletion and compression; file 1 is missing on the server, files 0
and 2 have changed. -/
def exInput : Input where
  opts := ⟨true, false, true⟩
  files := [(2, 1), (1, 0)]
  deleted := [(1, 0), (0, 2)]
  missing := [1]
  changed := [0, 2]
  content := fun _ => [7, 3]
  sigs := fun i => if i = 0 then [5, 5] else []
  ops := fun i => if i = 0 then [some 1, none, some 2, none, none, some 1] else [some 4]

theorem exInput_OK : exInput.OK := by
  constructor
  case ops =>
    intro i hi n hn
    have : i = 0 ∨ i = 2 := by simpa [exInput] using hi
    rcases this with rfl | rfl
    · simp [exInput] at hn; omega
    · simp [exInput] at hn; omega
  all_goals decide

/-- Its diffs fit into queues of three messages, … -/
theorem exInput_fits : ∀ i ∈ exInput.changed,
    ((exInput.sigMsgs i).map fun _ => 1).sum < 4 ∨
      ((patchesOf (exInput.ops i)).map fun _ => 1).sum < 4 := by decide

/-- … so that every session with such queues finishes. -/
example {n a} (h : Run (.bytes (fun _ => 1) 4 4) exInput n init a)
    (hs : Stuck (.bytes (fun _ => 1) 4 4) exInput a) : Finished a :=
  C91_finishes_bytes_partial _ 4 4 (by decide) (by decide) _ exInput_OK exInput_fits h hs

/-- Runs a given interleaving. -/
def exec (R : Rooms) (I : Input) : List Proc → State → Option State
  | [], a => some a
  | p :: l, a => (next R I p a).bind (exec R I l)

theorem exec_run {R I} (l : List Proc) {a b} (h : exec R I l a = some b) : ∃ n, Run R I n a b := by
  induction l generalizing a with
  | nil => cases h; exact ⟨0, .nil _⟩
  | cons p l ih =>
    simp only [exec, Option.bind_eq_some_iff] at h
    obtain ⟨c, e, h⟩ := h
    obtain ⟨n, hr⟩ := ih h
    exact ⟨n + 1, .cons p e hr⟩

/-- An interleaving of the session: the client is far ahead of the server in the first phase and the
patcher works on the first file while the main thread already sends the signatures of the second. -/
example : ∃ n a, Run (.bytes (fun _ => 1) 6 6) exInput n init a ∧ a.pend = 1 ∧ a.pfail = false ∧
    (∃ l, a.s.pc = .spawn l) ∧ (∃ w l, a.c = .diff w false l) := by
  have h : ∃ b, exec (.bytes (fun _ => 1) 6 6) exInput
      ([.client, .client, .client, .client] ++ [.server, .server, .server, .server] ++
       [.server, .server, .server, .server] ++ [.client, .client, .client, .client] ++
       [.server, .client, .server, .client] ++ -- missing
       [.client, .client, .client, .client, .client, .client] ++ -- toggle, file, raw
       [.server, .server, .server, .server, .server, .server, .server, .client] ++
       [.server, .client, .server, .client, .client, .server] ++ -- changed, toggle
       [.server, .server, .server, .server, .server, .server, .server, .client, .client] ++
       [.patcher]) init =
      some b ∧ b.pend = 1 ∧ b.pfail = false ∧ (∃ l, b.s.pc = .spawn l) ∧
        (∃ w l, b.c = .diff w false l) := by
    refine ⟨_, rfl, rfl, rfl, ⟨_, rfl⟩, ⟨_, _, rfl⟩⟩
  obtain ⟨b, hb, h⟩ := h
  obtain ⟨n, hr⟩ := exec_run _ hb
  exact ⟨n, b, hr, h⟩

/-- The hypotheses on the input are needed: an empty raw packet in the middle of a file ends the
file early for the server, which then meets an unexpected message. -/
example : ∃ I : Input, ∃ n a, Run .unlimited I n init a ∧ WrongMessage a := by
  refine ⟨⟨⟨false, false, false⟩, [(1, 0)], [], [0, 0], [], fun _ => [0, 5], fun _ => [], fun _ => []⟩, ?_⟩
  have h : ∃ b, exec .unlimited
      ⟨⟨false, false, false⟩, [(1, 0)], [], [0, 0], [], fun _ => [0, 5], fun _ => [], fun _ => []⟩
      [.client, .client, .client, .server, .server, .server, .server, .client,
       .server, .server, .client, .client, .client, .client, .client, .server, .server, .server]
      init = some b ∧ WrongMessage b :=
    ⟨_, rfl, .inr (.inl rfl)⟩
  obtain ⟨b, hb, h⟩ := h
  obtain ⟨n, hr⟩ := exec_run _ hb
  exact ⟨n, b, hr, h⟩

end Verif.Protocol
