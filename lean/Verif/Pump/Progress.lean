import Verif.Pump.Props

/-!
# The message pump does not get stuck: C12, C13, C167

Steps of the pump's threads cannot go on for ever, and when they end, every call that waits has something to return.
-/
namespace Verif.Pump

/-! ## Specification -/

/-- One step of the pump's own threads, the network or the receiving application that changes something. -/
def Moves (limit : Nat) (s s' : State) : Prop := ∃ n, ∃ a ∈ internalActs n, step limit s a = some s' ∧ s' ≠ s

/-- One step of the sender thread that changes something; the send may fail. -/
def SenderMoves (limit : Nat) (s s' : State) : Prop :=
  ∃ n, ∃ a ∈ ([.pop, .begin, .push n, .finish, .sendFails] : List Act), step limit s a = some s' ∧ s' ≠ s

/-- Any number of steps. -/
inductive Many (R : State → State → Prop) : State → State → Prop where
  | nil (s : State) : Many R s s
  | snoc {s s' s'' : State} : Many R s s' → R s' s'' → Many R s s''

/-! ## Steps run out -/

def Sender.work : Sender → Nat
  | .idle => 1
  | .popped b _ => 10 * b.length + 5
  | .sending r _ => 10 * r.length + 3
  | .exited => 0

def Receiver.work : Receiver → Nat
  | .waiting => 2
  | .reading g => 8 * g.length + 1
  | .exited => 0

def outWork : List (Bytes × Nat) → Nat
  | [] => 0
  | x :: q => 10 * x.1.length + 10 + outWork q

def State.work (s : State) : Nat := outWork s.outQ + s.sender.work + 9 * s.wire.length + s.receiver.work + s.inQ.length

theorem take_nil_of {r : Bytes} {n : Nat} (h : r.take n = []) : r.drop n = r := by
  have := List.take_append_drop n r
  rw [h] at this
  simpa using this

theorem Moves.work {limit : Nat} {s s' : State} (h : Moves limit s s') : s'.work < s.work := by
  obtain ⟨n, a, ha, hst, hne⟩ := h
  simp only [internalActs, List.mem_cons, List.not_mem_nil, or_false] at ha
  rcases ha with rfl | rfl | rfl | rfl | rfl | rfl | rfl | rfl <;> simp only [step] at hst
  · split at hst
    · rename_i hs
      split at hst
      · cases hst; simp [State.work, hs, Sender.work]
      · split at hst
        · cases hst
        · rename_i hq; cases hst; simp [State.work, hs, hq, Sender.work, outWork]; omega
    · cases hst
  · split at hst
    · rename_i hs
      split at hst <;> cases hst <;> simp [State.work, hs, Sender.work] <;> omega
    · cases hst
  · split at hst
    · rename_i r k hs
      cases hst
      by_cases h0 : r.take n = []
      · exfalso
        apply hne
        cases s
        simp only at hs
        simp [hs, h0, take_nil_of h0]
      · have h1 := congrArg List.length (List.take_append_drop n r)
        have h2 := List.length_pos_iff.2 h0
        rw [List.length_append] at h1
        cases hb : s.broken <;> simp only [State.work, hs, Sender.work, Bool.false_eq_true, if_true, if_false, List.length_append] <;> omega
    · cases hst
  · split at hst
    · rename_i hs
      cases hst; simp [State.work, hs, Sender.work]
    · cases hst
  · split at hst
    · rename_i hs
      split at hst
      · cases hst; simp [State.work, hs, Receiver.work]
      · split at hst
        · cases hst; simp [State.work, hs, Receiver.work]
        · cases hst
    · cases hst
  · split at hst
    · rename_i hr hw
      split at hst
      · cases hst; simp [State.work, hr, hw, Receiver.work]; try omega
      · cases hst
    · cases hst
  · split at hst
    · rename_i got hr
      split at hst
      · cases hst
      · cases hst; simp [State.work, hr, Receiver.work]; try omega
      · rename_i p r hp
        cases hst
        have h1 := congrArg List.length (parse_done hp).2
        rw [List.length_append, enc_length] at h1
        unfold headerSize at h1
        simp [State.work, hr, Receiver.work]; omega
    · cases hst
  · split at hst
    · cases hst
    · rename_i hq
      split at hst
      · cases hst
      · cases hst; simp [State.work, hq]

theorem SenderMoves.work {limit : Nat} {s s' : State} (h : SenderMoves limit s s') : s'.work < s.work := by
  obtain ⟨n, a, ha, hst, hne⟩ := h
  by_cases h' : a ∈ internalActs n
  · exact Moves.work ⟨n, a, h', hst, hne⟩
  · simp only [List.mem_cons, List.not_mem_nil, or_false, internalActs] at ha h'
    rcases ha with rfl | rfl | rfl | rfl | rfl
    · simp at h'
    · simp at h'
    · simp at h'
    · simp at h'
    · simp only [step] at hst
      split at hst
      · rename_i hs; cases hst; simp [State.work, hs, Sender.work]; try omega
      · cases hst

theorem acc_of_work {R : State → State → Prop} (h : ∀ s s', R s s' → s'.work < s.work) (s : State) : Acc (fun s' s => R s s') s := by
  induction hn : s.work using Nat.strongRecOn generalizing s with
  | _ n ih => exact ⟨_, fun s' hs => ih s'.work (by rw [← hn]; exact h _ _ hs) s' rfl⟩

theorem Many.keeps {R : State → State → Prop} {P : State → Prop} (hR : ∀ s s', R s s' → P s → P s') {s s' : State} (h : Many R s s')
    (hp : P s) : P s' := by
  induction h with
  | nil => exact hp
  | snoc _ hr ih => exact hR _ _ hr ih

theorem Many.reachable {limit : Nat} {s s' : State} (h : Many (Moves limit) s s') (hr : Reachable limit s) : Reachable limit s' :=
  h.keeps (P := Reachable limit) (fun _ _ ⟨_, a, _, hs, _⟩ hp => .step a hp hs) hr

theorem Many.senderReachable {limit : Nat} {s s' : State} (h : Many (SenderMoves limit) s s') (hr : Reachable limit s) : Reachable limit s' :=
  h.keeps (P := Reachable limit) (fun _ _ ⟨_, a, _, hs, _⟩ hp => .step a hp hs) hr

theorem moves_keeps {limit : Nat} {s s' : State} (h : Moves limit s s') (hr : Reachable limit s) (hh : Healthy s) :
    Healthy s' ∧ s'.queued = s.queued := by
  obtain ⟨n, a, ha, hst, _⟩ := h
  obtain ⟨h1, h2, h3, h4, h5, h6, h7⟩ := hh
  simp only [internalActs, List.mem_cons, List.not_mem_nil, or_false] at ha
  rcases ha with rfl | rfl | rfl | rfl | rfl | rfl | rfl | rfl <;> simp only [step] at hst
  case inr.inr.inr.inr.inr.inr.inl =>
    split at hst
    · rename_i got hg
      split at hst
      · cases hst
      · rename_i hb; exact absurd hb (got_not_bad (inv_reachable hr) hg)
      · cases hst; exact ⟨⟨h1, h2, h3, h4, h5, h6, h7⟩, rfl⟩
    · cases hst
  all_goals
    (repeat' split at hst) <;>
    first
    | (cases hst; exact ⟨⟨h1, h2, h3, h4, h5, h6, h7⟩, rfl⟩)
    | cases hst

/-! ## C12 -/

/-- **C12, everything arrives.** As long as nothing fails and nobody stops the pump, the steps of the threads and of the
receiving application run out, in whichever order they are taken, and then exactly the packets queued so far were
delivered. -/
theorem C12_all_delivered (limit : Nat) (hl : 0 < limit) (s : State) (h : Reachable limit s) (ok : Healthy s) :
    Acc (fun s' s => Moves limit s s') s ∧
    ∀ s', Many (Moves limit) s s' → (∀ s'', ¬ Moves limit s' s'') → s'.delivered = s.queued := by
  refine ⟨acc_of_work (fun _ _ => Moves.work) s, fun s' hm hstop => ?_⟩
  have key : Reachable limit s' ∧ Healthy s' ∧ s'.queued = s.queued := by
    refine hm.keeps (P := fun t => Reachable limit t ∧ Healthy t ∧ t.queued = s.queued) ?_ ⟨h, ok, rfl⟩
    intro t t' hmv ⟨a, b, c⟩
    obtain ⟨d, e⟩ := moves_keeps hmv a b
    exact ⟨let ⟨_, x, _, hs, _⟩ := hmv; .step x a hs, d, e.trans c⟩
  rw [← key.2.2]
  refine C12_quiescent_means_all_delivered limit hl s' key.1 key.2.1 fun n a ha => ?_
  cases hs : step limit s' a with
  | none => exact Or.inl rfl
  | some t =>
    by_cases e : t = s'
    · exact Or.inr (by rw [e])
    · exact absurd ⟨n, a, ha, hs, e⟩ (hstop t)

/-! ## C13 -/

theorem exited_why {limit : Nat} {s : State} (h : Reachable limit s) (e : s.sender = .exited) : s.sendErr = true ∨ s.aShutdown = true := by
  induction h with
  | init => cases e
  | step a hr hst ih =>
    rename_i s0 s1
    cases a <;> simp only [step] at hst <;> (repeat' split at hst) <;>
      first
      | (cases hst; simp_all; done)
      | cases hst

theorem outBytes_zero {limit : Nat} {s : State} (hi : Inv limit s) (h1 : s.sendErr = false) (hq : s.outQ = []) (hs : s.sender = .idle) :
    s.outBytes = 0 := by
  rw [hi.outSize h1, hq, hs]; rfl

/-- **C13, no call waits for ever on the sending side.** Whatever failed so far, the steps of the sender thread run out,
and then waiting for room in the queue and waiting for the queue to be empty are over, unless the pump was stopped. -/
theorem C13_sender_releases (limit : Nat) (hl : 0 < limit) (s : State) (h : Reachable limit s) (hs : s.aShutdown = false) :
    Acc (fun s' s => SenderMoves limit s s') s ∧
    ∀ s', Many (SenderMoves limit) s s' → (∀ s'', ¬ SenderMoves limit s' s'') → s'.queueReturns limit = true ∧ s'.flushReturns = true := by
  refine ⟨acc_of_work (fun _ _ => SenderMoves.work) s, fun s' hm hstop => ?_⟩
  have hr := hm.senderReachable h
  have hsd : s'.aShutdown = false := by
    refine hm.keeps (P := fun t => t.aShutdown = false) ?_ hs
    intro t t' ⟨n, a, ha, hst, _⟩ hp
    simp only [List.mem_cons, List.not_mem_nil, or_false] at ha
    rcases ha with rfl | rfl | rfl | rfl | rfl <;> simp only [step] at hst <;> (repeat' split at hst) <;>
      first
      | (cases hst; exact hp)
      | cases hst
  have hi := inv_reachable hr
  cases he : s'.sendErr with
  | true => simp [State.queueReturns, State.flushReturns, he]
  | false =>
    have hno : ∀ n, ∀ a ∈ ([.pop, .begin, .push n, .finish, .sendFails] : List Act), ∀ t, step limit s' a = some t → t = s' :=
      fun n a ha t ht => Classical.byContradiction fun hne => hstop t ⟨n, a, ha, ht, hne⟩
    have hz : s'.outBytes = 0 := by
      cases hsn : s'.sender with
      | exited =>
        rcases exited_why hr hsn with e | e
        · rw [he] at e; cases e
        · rw [hsd] at e; cases e
      | popped b m =>
        exfalso
        cases ha : s'.aRecvErr with
        | true =>
          have := hno 0 .begin (by simp) { s' with sender := .sending [] b.length } (by simp [step, hsn, ha])
          have := congrArg State.sender this
          rw [hsn] at this
          cases this
        | false =>
          have := hno 0 .begin (by simp) { s' with sender := .sending b b.length, modes := s'.modes ++ [(m, s'.mode)] } (by simp [step, hsn, ha])
          have := congrArg State.sender this
          rw [hsn] at this
          cases this
      | sending r n =>
        exfalso
        have := hno 0 .sendFails (by simp) { s' with sender := .exited, sendErr := true } (by simp [step, hsn])
        have := congrArg State.sender this
        rw [hsn] at this
        cases this
      | idle =>
        refine outBytes_zero hi he ?_ hsn
        cases hq : s'.outQ with
        | nil => rfl
        | cons x q =>
          exfalso
          obtain ⟨b, m⟩ := x
          have := hno 0 .pop (by simp) { s' with outQ := q, sender := .popped b m } (by simp [step, hsn, hq, hsd])
          have := congrArg State.sender this
          rw [hsn] at this
          cases this
    simp [State.queueReturns, State.flushReturns, hz, hl]

/-- **C13, calls return what is there.** Waiting for room ends exactly if a packet is taken or an error is there to
report; waiting for a packet ends exactly if there is a packet or an error to report; an error in either thread ends all
waiting on its side. -/
theorem C13_wake_up (limit : Nat) (s : State) :
    (s.queueReturns limit = true ↔ s.sendErr = true ∨ s.aRecvErr = true ∨ ∀ p, Sendable p → ∃ s', step limit s (.enqueue p) = some s') ∧
    (s.dequeueReturns = true ↔ s.dequeueFails = true ∨ ∃ s', step limit s .dequeue = some s') ∧
    (¬ (s.dequeueFails = true ∧ ∃ s', step limit s .dequeue = some s')) ∧
    (s.sendErr = true ∨ s.aRecvErr = true → s.flushReturns = true ∧ s.queueReturns limit = true ∧ ∀ p, step limit s (.enqueue p) = none) ∧
    (s.bSendErr = true ∨ s.recvErr = true → s.dequeueReturns = true) := by
  refine ⟨?_, ?_, ?_, ?_, ?_⟩
  · unfold State.queueReturns
    cases h1 : s.sendErr with
    | true => simp
    | false =>
      cases h2 : s.aRecvErr with
      | true => simp
      | false =>
        simp only [Bool.or_false, decide_eq_true_eq, Bool.false_eq_true, false_or]
        constructor
        · intro hlt p hp
          have hp := (sendable_iff p).mp hp
          have : serialize p = some (header p.type p.data.length ++ p.data) := by
            unfold serialize; rw [if_neg (by have := hp.2; omega)]
          simp only [step, this]
          rw [if_pos (by simp [hlt, h1, h2, hp.1])]
          exact ⟨_, rfl⟩
        · intro h
          obtain ⟨s', hs⟩ := h ⟨0, []⟩ (by unfold Sendable; decide)
          simp only [step] at hs
          split at hs
          · cases hs
          · split at hs
            · rename_i hc; simp only [Bool.and_eq_true, decide_eq_true_eq] at hc; exact hc.1.1.1
            · cases hs
  · unfold State.dequeueReturns State.dequeueFails
    cases hq : s.inQ <;> cases h1 : s.bSendErr <;> cases h2 : s.recvErr <;> simp [step, hq, h1]
  · unfold State.dequeueFails
    cases hq : s.inQ <;> cases h1 : s.bSendErr <;> cases h2 : s.recvErr <;> simp [step, hq, h1]
  · intro h
    refine ⟨?_, ?_, fun p => ?_⟩
    · rcases h with h | h <;> simp [State.flushReturns, h]
    · rcases h with h | h <;> simp [State.queueReturns, h]
    · simp only [step]
      split
      · rfl
      · rw [if_neg]
        rcases h with h | h <;> simp [h]
  · intro h
    rcases h with h | h <;> simp [State.dequeueReturns, h]

/-- Errors are never forgotten. -/
theorem errors_step {limit : Nat} {s t : State} {a : Act} (h : step limit s a = some t) :
    (s.sendErr = true → t.sendErr = true) ∧ (s.aRecvErr = true → t.aRecvErr = true) ∧ (s.bSendErr = true → t.bSendErr = true) ∧
    (s.recvErr = true → t.recvErr = true) := by
  unfold step at h
  cases a <;> dsimp only at h <;> (repeat' split at h) <;> first | (cases h; done) | (injection h with h; subst h; exact ⟨fun x => by first | exact x | rfl, fun x => by first | exact x | rfl, fun x => by first | exact x | rfl, fun x => by first | exact x | rfl⟩)

theorem errors_run {limit : Nat} (acts : List Act) : ∀ {s t : State}, run limit s acts = some t →
    (s.sendErr = true → t.sendErr = true) ∧ (s.aRecvErr = true → t.aRecvErr = true) ∧ (s.bSendErr = true → t.bSendErr = true) ∧
    (s.recvErr = true → t.recvErr = true) := by
  induction acts with
  | nil => intro s t h; injection h with h; subst h; exact ⟨id, id, id, id⟩
  | cons a as ih =>
    intro s t h
    unfold run at h
    cases hs : step limit s a with
    | none => rw [hs] at h; cases h
    | some u =>
      rw [hs] at h
      have h1 := errors_step hs
      have h2 := ih h
      exact ⟨h2.1 ∘ h1.1, h2.2.1 ∘ h1.2.1, h2.2.2.1 ∘ h1.2.2.1, h2.2.2.2 ∘ h1.2.2.2⟩

/-- **C13, errors are reported.** After an error in one of the threads, whatever happens then, all calls return: sending and flushing at once and without
accepting anything; receiving with an error, at once if it was the sending that failed, or after the packets that had arrived before the receiving failed. -/
theorem C13_errors_reported (limit : Nat) {s s' t : State} {a : Act} {acts : List Act} (ha : step limit s a = some s') (hr : run limit s' acts = some t) :
    (a = .sendFails ∨ a = .aRecvFails → t.flushReturns = true ∧ t.queueReturns limit = true ∧ ∀ p, step limit t (.enqueue p) = none) ∧
    (a = .bSendFails → t.dequeueReturns = true ∧ t.dequeueFails = true ∧ step limit t .dequeue = none) ∧
    (a = .recvFails → t.dequeueReturns = true ∧ (t.inQ = [] → t.dequeueFails = true)) := by
  have hm := errors_run acts hr
  have hw := C13_wake_up limit t
  refine ⟨fun h => ?_, fun h => ?_, fun h => ?_⟩
  · apply hw.2.2.2.1
    rcases h with rfl | rfl
    · left
      apply hm.1
      simp only [step] at ha
      split at ha
      · injection ha with ha; subst ha; rfl
      · cases ha
    · right
      apply hm.2.1
      injection ha with ha; subst ha; rfl
  · subst h
    have hb : t.bSendErr = true := hm.2.2.1 (by injection ha with ha; subst ha; rfl)
    refine ⟨hw.2.2.2.2 (.inl hb), by simp [State.dequeueFails, hb], ?_⟩
    simp only [step, hb]
    split <;> rfl
  · subst h
    have hb : t.recvErr = true := by
      apply hm.2.2.2
      simp only [step] at ha
      split at ha
      · split at ha
        · injection ha with ha; subst ha; rfl
        · cases ha
      · cases ha
    exact ⟨hw.2.2.2.2 (.inr hb), fun hq => by simp [State.dequeueFails, hb, hq]⟩

/-! ## Non-vacuity -/

/-- With a packet in the outgoing queue and another one on its way the pump is healthy and there is something to do. -/
example : ∃ s s', Reachable 8 s ∧ Healthy s ∧ s.queued.length = 2 ∧ s.delivered = [] ∧ Moves 8 s s' ∧ s.queueReturns 8 = false := by
  refine ⟨(run 8 {} (demo2.take 2 ++ [.enqueue ⟨4, [7]⟩])).get (by decide), (run 8 {} (demo2.take 2 ++ [.enqueue ⟨4, [7]⟩, .begin])).get (by decide),
    reachable_run 8 (demo2.take 2 ++ [.enqueue ⟨4, [7]⟩]) {} _ .init (by simp), by unfold Healthy; decide, by decide, by decide, ⟨0, .begin, by simp [internalActs], rfl, ?_⟩, by decide⟩
  intro h
  have := congrArg State.sender h
  revert this
  decide

/-- A send that fails with a packet left in the queue: both calls return. -/
example : ∃ s, Reachable 8 s ∧ s.aShutdown = false ∧ s.sendErr = true ∧ s.outQ.length = 1 ∧ s.flushReturns = true := by
  exact ⟨(run 8 {} [.enqueue ⟨4, [7]⟩, .enqueue ⟨4, [8]⟩, .pop, .begin, .push 2, .sendFails]).get (by decide),
    reachable_run 8 [.enqueue ⟨4, [7]⟩, .enqueue ⟨4, [8]⟩, .pop, .begin, .push 2, .sendFails] {} _ .init (by simp), by decide⟩

/-- A packet has arrived when the sending on the other side fails: it is not delivered any more, the error is. -/
example : ∃ s s' t, Reachable 8 s ∧ s.inQ.length = 1 ∧ step 8 s .bSendFails = some s' ∧ run 8 s' [.stopB] = some t ∧ t.inQ.length = 1 ∧
    t.dequeueFails = true := by
  exact ⟨(run 8 {} (demo2.take 12)).get (by decide), (run 8 {} (demo2.take 12 ++ [.bSendFails])).get (by decide),
    (run 8 {} (demo2.take 12 ++ [.bSendFails, .stopB])).get (by decide),
    reachable_run 8 (demo2.take 12) {} _ .init (by simp), by decide, by rfl, by rfl, by decide, by decide⟩

end Verif.Pump
