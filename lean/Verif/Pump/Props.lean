import Verif.Pump.Lemmas

/-!
# Properties of the message pump: C11, C12, C13, C14
-/
namespace Verif.Pump

/-! ## Specification -/

/-- The documented wire format: one byte type, three bytes size (least significant first), payload. -/
def wireFormat (p : Packet) : Bytes :=
  [p.type, UInt8.ofNat (p.data.length % 256), UInt8.ofNat (p.data.length / 256 % 256),
    UInt8.ofNat (p.data.length / 65536 % 256)] ++ p.data

/-- A packet an application may send: known type, payload below 16 MiB. -/
def Sendable (p : Packet) : Prop := p.type.toNat < 12 ∧ p.data.length < 2 ^ 24

theorem sendable_iff (p : Packet) : Sendable p ↔ Valid p := by
  unfold Sendable Valid maxPacketSize kCount
  rw [UInt8.lt_iff_toNat_lt]
  simp
  omega

theorem wireFormat_eq (p : Packet) : wireFormat p = enc p := by
  simp [wireFormat, enc, header, and_ff, Nat.shiftRight_eq_div_pow]

theorem wireFormat_all (ps : List Packet) : (ps.map wireFormat).flatten = encAll ps := by
  rw [show wireFormat = enc from funext wireFormat_eq]; rfl

/-! ## C11 -/

/-- **C11.** Every packet sequence survives the byte stream: the sender produces the documented
format and the receiver recovers the same packets in the same order. -/
theorem C11_roundtrip (ps : List Packet) (hv : ∀ p ∈ ps, Sendable p) :
    (∀ p ∈ ps, serialize p = some (wireFormat p)) ∧
    receiveAll (ps.map wireFormat).flatten = (ps, .endOfStream) := by
  constructor
  · intro p hp
    have := (hv p hp).2
    rw [wireFormat_eq, serialize, if_neg (by unfold maxPacketSize; omega)]; rfl
  · have := receiveAll_enc ps (fun p hp => (sendable_iff p).mp (hv p hp)) []
    rw [List.append_nil] at this
    rw [wireFormat_all, this, receiveAll_of_more rfl]; simp

/-- **C11, truncation.** Cutting the stream after any number of bytes yields exactly the packets that
are complete before the cut, then an end-of-stream error. -/
theorem C11_truncated_stream (ps : List Packet) (hv : ∀ p ∈ ps, Sendable p) (k : Nat)
    (hk : k < (ps.map wireFormat).flatten.length) :
    ∃ j < ps.length, receiveAll ((ps.map wireFormat).flatten.take k) = (ps.take j, .endOfStream) ∧
      ((ps.take j).map wireFormat).flatten.length ≤ k ∧
      k < ((ps.take (j + 1)).map wireFormat).flatten.length := by
  simp only [wireFormat_all] at *
  have hv' : ∀ p ∈ ps, Valid p := fun p hp => (sendable_iff p).mp (hv p hp)
  obtain ⟨j, hj, x, y, h1, h2, h3⟩ := take_encAll ps k hk
  have hlen := congrArg List.length h1
  rw [List.length_take, List.length_append] at hlen
  have hlen2 := congrArg List.length h2
  rw [List.length_append] at hlen2
  have hy := List.length_pos_iff.mpr h3
  refine ⟨j, hj, ?_, by omega, ?_⟩
  · rw [h1, receiveAll_enc _ (fun p hp => hv' p (List.take_subset _ _ hp)),
      receiveAll_of_more (parse_more_of_prefix (hv' ps[j] (by simp)) h2 h3)]
    simp
  · rw [List.take_add_one, encAll_append, List.length_append, List.getElem?_eq_getElem hj]
    simp only [Option.toList_some, encAll_cons, encAll_nil, List.append_nil]
    omega

example : Sendable ⟨9, [1, 2, 3]⟩ ∧ receiveAll (wireFormat ⟨9, [1, 2, 3]⟩ ++ [4, 0]) =
    ([⟨9, [1, 2, 3]⟩], .endOfStream) := by
  constructor
  · unfold Sendable; decide
  · have := receiveAll_enc [⟨9, [1, 2, 3]⟩] (by intro p hp; simp at hp; subst hp; unfold Valid; decide) [4, 0]
    simp only [encAll_cons, encAll_nil, List.append_nil, ← wireFormat_eq] at this
    rw [this, receiveAll_of_more rfl]; rfl

/-! ## C12 -/

/-- **C12.** In every state any schedule leads to, with any network failures and thread errors, the
packets dequeued on side B are a prefix of the packets queued on side A. -/
theorem C12_delivered_prefix_of_queued (limit : Nat) (s : State) (h : Reachable limit s) :
    s.delivered <+: s.queued := by
  have hi := inv_reachable h
  obtain ⟨rs, hrs, _⟩ := encAll_prefix (s.delivered ++ s.inQ) [] s.queued hi.inValid hi.valid
    (by simpa using hi.r1'.trans hi.p2)
  exact ⟨s.inQ ++ rs, by rw [hrs]; simp⟩

/-- The steps of the pump's own threads and of the network, plus the application dequeuing. -/
def internalActs (n : Nat) : List Act := [.pop, .begin, .push n, .finish, .gate, .recvByte, .complete, .dequeue]

/-- No failure of any kind happened and no side was stopped. -/
def Healthy (s : State) : Prop :=
  s.sendErr = false ∧ s.aRecvErr = false ∧ s.recvErr = false ∧ s.bSendErr = false ∧
  s.broken = false ∧ s.aShutdown = false ∧ s.bShutdown = false

/-- **C12, nothing is lost.** When no thread can do anything any more and there was no failure, every
queued packet was delivered: no wake-up is missed. -/
theorem C12_quiescent_means_all_delivered (limit : Nat) (hl : 0 < limit) (s : State)
    (h : Reachable limit s) (ok : Healthy s)
    (stuck : ∀ n, ∀ a ∈ internalActs n, step limit s a = none ∨ step limit s a = some s) :
    s.delivered = s.queued := by
  obtain ⟨h1, h2, h3, h4, h5, h6, h7⟩ := ok
  have hi := inv_reachable h
  have cp : ∀ n, step limit s (.push n) = none ∨ step limit s (.push n) = some s :=
    fun n => stuck n _ (by simp [internalActs])
  have cpop := stuck 0 .pop (by simp [internalActs])
  have cbeg := stuck 0 .begin (by simp [internalActs])
  have cfin := stuck 0 .finish (by simp [internalActs])
  have cgate := stuck 0 .gate (by simp [internalActs])
  have crb := stuck 0 .recvByte (by simp [internalActs])
  have ccom := stuck 0 .complete (by simp [internalActs])
  have cdq := stuck 0 .dequeue (by simp [internalActs])
  -- the incoming queue is empty
  have hinq : s.inQ = [] := by
    cases hq : s.inQ with
    | nil => rfl
    | cons p q =>
      simp only [step, hq, h4] at cdq
      rcases cdq with c | c
      · simp at c
      · have c' := congrArg State.inQ (Option.some.inj c)
        simp only [hq] at c'
        have := congrArg List.length c'; simp at this
  have hinb : s.inBytes = 0 := by rw [hi.inSize, hinq]; rfl
  -- the sender is idle
  have hsnd : s.sender = .idle ∨ s.sender = .exited := by
    cases hs : s.sender with
    | idle => simp
    | exited => simp
    | popped b m =>
      simp only [step, hs, h2] at cbeg
      rcases cbeg with c | c
      · simp at c
      · have c' := congrArg State.sender (Option.some.inj c)
        simp [hs] at c'
    | sending r n =>
      cases r with
      | nil =>
        simp only [step, hs] at cfin
        rcases cfin with c | c
        · simp at c
        · have c' := congrArg State.sender (Option.some.inj c)
          simp [hs] at c'
      | cons b r =>
        have c := cp 1
        simp only [step, hs] at c
        rcases c with c | c
        · simp at c
        · have c' := congrArg State.sender (Option.some.inj c)
          simp only [hs] at c'
          simp at c'
  have hidle : s.sender = .idle ∨ (s.sender = .exited ∧ False) := by
    rcases hsnd with e | e
    · exact Or.inl e
    · exfalso
      -- the sender leaves only after an error or a shutdown
      have : s.sendErr = true ∨ s.aShutdown = true := by
        clear cp cpop cbeg cfin cgate crb ccom cdq stuck hinq hinb h1 h2 h3 h4 h5 h6 h7 hi
        induction h with
        | init => cases e
        | step a hr hst ih =>
          rename_i s0 s1
          cases a <;> simp only [step] at hst <;> (repeat' split at hst) <;>
            first
            | (cases hst; simp_all; done)
            | cases hst
      rcases this with e' | e'
      · rw [h1] at e'; cases e'
      · rw [h6] at e'; cases e'
  have hid : s.sender = .idle := by
    rcases hidle with e | ⟨_, e⟩
    · exact e
    · exact e.elim
  have hoq : s.outQ = [] := by
    cases hq : s.outQ with
    | nil => rfl
    | cons x q =>
      obtain ⟨b, m⟩ := x
      simp only [step, hid, hq, h6] at cpop
      rcases cpop with c | c
      · simp at c
      · have c' := congrArg State.sender (Option.some.inj c)
        simp [hid] at c'
  have hout : s.output = encAll s.queued := by
    have := hi.p3 h2 h1
    rw [hid, hoq] at this
    simpa [Sender.rest] using this
  have hrec : ∃ g, s.receiver = .reading g := by
    cases hr : s.receiver with
    | reading g => exact ⟨g, rfl⟩
    | waiting =>
      simp only [step, hr, h7, hinb, hl] at cgate
      rcases cgate with c | c
      · simp at c
      · have c' := congrArg State.receiver (Option.some.inj c)
        simp [hr] at c'
    | exited =>
      exfalso
      have : s.recvErr = true ∨ s.bShutdown = true := by
        clear cp cpop cbeg cfin cgate crb ccom cdq stuck hinq hinb h1 h2 h3 h4 h5 h6 h7 hi hoq hid hidle hout hsnd
        induction h with
        | init => cases hr
        | step a hr' hst ih =>
          rename_i s0 s1
          cases a <;> simp only [step] at hst <;> (repeat' split at hst) <;>
            first
            | (cases hst; simp_all; done)
            | cases hst
      rcases this with e' | e'
      · rw [h3] at e'; cases e'
      · rw [h7] at e'; cases e'
  obtain ⟨g, hr⟩ := hrec
  have hmore : parse g = .more := by
    cases hp : parse g with
    | more => rfl
    | bad => exact absurd hp (got_not_bad hi hr)
    | done p r =>
      simp only [step, hr, hp] at ccom
      rcases ccom with c | c
      · simp at c
      · have c' := congrArg State.receiver (Option.some.inj c)
        simp [hr] at c'
  have hw : s.wire = [] := by
    cases hw : s.wire with
    | nil => rfl
    | cons b w =>
      simp only [step, hr, hw, hmore] at crb
      rcases crb with c | c
      · simp at c
      · have c' := congrArg State.wire (Option.some.inj c)
        simp only [hw] at c'
        have := congrArg List.length c'; simp at this
  have r2 := hi.r2 h5 (by rw [hr]; simp)
  rw [hinq, hr, hw, hout] at r2
  simp only [List.append_nil, Receiver.got] at r2
  have hval := hi.inValid
  rw [hinq, List.append_nil] at hval
  obtain ⟨rs, hrs, hx⟩ := encAll_prefix s.delivered g s.queued hval hi.valid (by rw [r2]; simp)
  have hg : g = encAll rs := by rw [hrs, encAll_append] at r2; exact List.append_cancel_left r2
  cases rs with
  | nil => simpa using hrs.symm
  | cons p rs =>
    rw [hg, encAll_cons, parse_enc p (hi.valid p (by rw [hrs]; simp))] at hmore
    cases hmore

/-- **C12, no spurious failure.** The receiver thread reports an error only if the network failed:
the sender's bytes are never rejected. -/
theorem C12_no_spurious_receive_error (limit : Nat) (s : State) (h : Reachable limit s)
    (he : s.recvErr = true) : s.broken = true := (inv_reachable h).errBroken he

/-! ## C13 -/

/-- **C13, flush.** When `FlushOutgoingQueue` returns without error, exactly the bytes of all packets
queued so far were handed to the output. -/
theorem C13_flush_waits_for_all (limit : Nat) (s : State) (h : Reachable limit s)
    (hf : s.flushReturns = true) (h1 : s.sendErr = false) (h2 : s.aRecvErr = false) :
    s.output = (s.queued.map wireFormat).flatten := by
  have hi := inv_reachable h
  have h0 : s.outBytes = 0 := by simpa [State.flushReturns, h1, h2] using hf
  have hsz := hi.outSize h1
  rw [h0] at hsz
  have hq : s.outQ = [] := by
    cases hq : s.outQ with
    | nil => rfl
    | cons x q =>
      have := hi.outPos x (by simp [hq])
      rw [hq] at hsz
      simp [outQSize] at hsz; omega
  have hs : s.sender.rest = [] := by
    rcases hi.sndPos with e | e | e
    · rw [e]; rfl
    · rw [e]; rfl
    · omega
  have := hi.p3 h2 h1
  rw [hs, hq] at this
  rw [wireFormat_all]
  simpa using this

/-- **C13, bounds.** The bytes waiting in the outgoing queue (and in the sender's hands) and in the
incoming queue exceed the limit by at most one packet of maximum size. -/
theorem C13_queues_bounded (limit : Nat) (s : State) (h : Reachable limit s) :
    (s.outQ.map fun x => x.1.length).sum < limit + (2 ^ 24 - 1 + 4) + 1 ∧
    (s.inQ.map fun p => (wireFormat p).length).sum < limit + (2 ^ 24 - 1 + 4) + 1 := by
  have hi := inv_reachable h
  have a := hi.outBound
  have b := hi.outSizeGe
  have c := hi.inBound
  have d := hi.inSize
  unfold maxPacketSize at *
  constructor
  · unfold outQSize at b; omega
  · have : (s.inQ.map fun p => (wireFormat p).length) = s.inQ.map fun p => headerSize + p.data.length := by
      simp [wireFormat_eq, enc_length]
    rw [this]
    unfold inQSize at d; omega

/-- **C13, errors come last.** `DequeuePacket` reports a receive error only after it delivered every
packet that arrived completely. -/
theorem C13_error_after_all_packets (limit : Nat) (s : State) (h : Reachable limit s)
    (hf : s.dequeueFails = true) (hb : s.bSendErr = false) :
    (receiveAll s.arrived).1 = s.delivered := by
  have hi := inv_reachable h
  simp only [State.dequeueFails, hb, Bool.false_or, Bool.and_eq_true, List.isEmpty_iff] at hf
  obtain ⟨g, a1, a2, _⟩ := hi.arr
  have hm := a2 (hi.recvExit hf.1)
  rw [a1, receiveAll_enc _ hi.inValid, receiveAll_of_more hm, hf.2]
  simp

/-- **C13, redirection.** `RedirectOutput` never diverts a packet queued before it: each packet is
handed to the output that was in force when it was queued. -/
theorem C13_redirect_does_not_divert (limit : Nat) (s : State) (h : Reachable limit s) :
    ∀ x ∈ s.modes, x.1 = x.2 := (inv_reachable h).m1

/-! ## C14 -/

/-- **C14.** Whatever the header bytes, a type outside the known range is rejected, and everything the
receiver delivers is the documented encoding of a sendable packet. -/
theorem C14_malformed_packets_rejected :
    (∀ (t a b c : UInt8) (rest : Bytes), 12 ≤ t.toNat →
      receiveAll (t :: a :: b :: c :: rest) = ([], .rejected)) ∧
    (∀ stream : Bytes, (∀ p ∈ (receiveAll stream).1, Sendable p) ∧
      ((receiveAll stream).1.map wireFormat).flatten <+: stream) := by
  constructor
  · intro t a b c rest ht
    apply receiveAll_of_bad
    simp only [parse]
    rw [if_pos]
    rw [UInt8.le_iff_toNat_le]; exact ht
  · intro stream
    induction hn : stream.length using Nat.strongRecOn generalizing stream with
    | _ n ih =>
      rw [receiveAll]
      split
      · simp
      · simp
      · rename_i p rest hp
        have hlt := parse_rest_lt hp
        obtain ⟨hv, e⟩ := parse_done hp
        obtain ⟨i1, i2⟩ := ih rest.length (by omega) rest rfl
        constructor
        · intro q hq
          simp at hq
          rcases hq with rfl | hq
          · exact (sendable_iff q).mpr hv
          · exact i1 q hq
        · obtain ⟨y, hy⟩ := i2
          refine ⟨y, ?_⟩
          simp [wireFormat_eq, e] at hy ⊢
          exact hy

/-- **C14, sender.** A payload is refused exactly if it is larger than the 24-bit size field allows. -/
theorem C14_oversized_refused (p : Packet) : serialize p = none ↔ 2 ^ 24 ≤ p.data.length := by
  unfold serialize maxPacketSize
  split <;> simp <;> omega

/-- **C14, expected type.** Receiving returns data only from a packet of the requested type, and
consumes exactly one packet either way. -/
theorem C14_type_checked (t : UInt8) (p : Packet) (q : List Packet) :
    (receiveTyped t (p :: q)).2 = q ∧
    ∀ d, (receiveTyped t (p :: q)).1 = some d ↔ p.type = t ∧ p.data = d := by
  refine ⟨rfl, fun d => ?_⟩
  simp only [receiveTyped]
  split <;> simp_all

/-! ## Non-vacuity -/

/-- Runs a schedule. -/
def run (limit : Nat) : State → List Act → Option State
  | s, [] => some s
  | s, a :: as => (step limit s a).bind fun s' => run limit s' as

theorem reachable_run (limit : Nat) (as : List Act) : ∀ (s s' : State), Reachable limit s →
    run limit s as = some s' → Reachable limit s' := by
  induction as with
  | nil => intro s s' h e; simp only [run, Option.some.injEq] at e; subst e; exact h
  | cons a as ih =>
    intro s s' h e
    simp only [run] at e
    cases hs : step limit s a with
    | none => rw [hs] at e; cases e
    | some s1 => rw [hs] at e; exact ih s1 s' (.step a h hs) e

/-- A schedule that queues two packets, redirects the output between them, delivers the first and
loses the connection in the middle of the second. -/
def demo : List Act :=
  [.enqueue ⟨4, [7, 8]⟩, .pop, .begin, .push 3, .push 9, .finish, .redirect 1, .enqueue ⟨0, [9]⟩, .pop, .begin,
   .push 4, .gate, .recvByte, .recvByte, .recvByte, .recvByte, .recvByte, .recvByte, .complete, .gate, .recvByte,
   .breakWire 0, .recvFails, .dequeue]

example : ∃ s, Reachable 8 s ∧ s.delivered = [⟨4, [7, 8]⟩] ∧ s.queued.length = 2 ∧
    s.dequeueFails = true ∧ s.bSendErr = false ∧ s.modes = [(0, 0), (1, 1)] := by
  refine ⟨(run 8 {} demo).get (by decide), reachable_run 8 demo {} _ .init (by simp), ?_⟩
  decide

example : ∃ s, Reachable 8 s ∧ s.flushReturns = true ∧ s.sendErr = false ∧ s.aRecvErr = false ∧
    s.queued = [⟨4, [7, 8]⟩] :=
  ⟨(run 8 {} (demo.take 7)).get (by decide), reachable_run 8 (demo.take 7) {} _ .init (by simp), by decide⟩

def demo2 : List Act := [.enqueue ⟨4, [7]⟩, .pop, .begin, .push 9, .finish, .gate, .recvByte, .recvByte,
    .recvByte, .recvByte, .recvByte, .complete, .dequeue, .gate]

/-- A quiescent healthy state with a delivered packet. -/
example : ∃ s, Reachable 8 s ∧ Healthy s ∧ s.delivered.length = 1 ∧
    ∀ n, ∀ a ∈ internalActs n, step 8 s a = none ∨ step 8 s a = some s := by
  refine ⟨(run 8 {} demo2).get (by decide),
    reachable_run 8 demo2 {} _ .init (by simp), by unfold Healthy; decide, by decide, ?_⟩
  intro n a ha
  simp only [internalActs, List.mem_cons, List.not_mem_nil, or_false] at ha
  rcases ha with rfl | rfl | rfl | rfl | rfl | rfl | rfl | rfl <;> left <;> rfl

end Verif.Pump
