import Verif.Pump.Model

namespace Verif.Pump

/-- A packet the sender accepts: known type, payload of at most `maxPacketSize` bytes. -/
def Valid (p : Packet) : Prop := p.type < kCount ∧ p.data.length ≤ maxPacketSize

def enc (p : Packet) : Bytes := header p.type p.data.length ++ p.data

def encAll (ps : List Packet) : Bytes := (ps.map enc).flatten

@[simp] theorem encAll_nil : encAll [] = [] := rfl
@[simp] theorem encAll_cons (p : Packet) (ps : List Packet) : encAll (p :: ps) = enc p ++ encAll ps := by
  simp [encAll]
@[simp] theorem encAll_append (ps qs : List Packet) : encAll (ps ++ qs) = encAll ps ++ encAll qs := by
  simp [encAll]

theorem enc_length (p : Packet) : (enc p).length = headerSize + p.data.length := by
  simp [enc, header, headerSize]; omega

theorem serialize_eq {p : Packet} {b : Bytes} (h : serialize p = some b) :
    b = enc p ∧ p.data.length ≤ maxPacketSize := by
  unfold serialize at h
  split at h
  · cases h
  · cases h; exact ⟨rfl, by omega⟩

theorem and_ff (n : Nat) : n &&& 0xFF = n % 256 := Nat.and_two_pow_sub_one_eq_mod n 8

theorem headerPayloadSize_eq (a b c : UInt8) :
    headerPayloadSize a b c = a.toNat + 256 * b.toNat + 65536 * c.toNat := by
  unfold headerPayloadSize
  have ha := a.toNat_lt
  have hb := b.toNat_lt
  have h1 : a.toNat ||| b.toNat <<< 8 = b.toNat <<< 8 + a.toNat := by
    rw [Nat.or_comm, ← Nat.shiftLeft_add_eq_or_of_lt (by omega)]
  rw [h1, Nat.or_comm, ← Nat.shiftLeft_add_eq_or_of_lt]
  · simp only [Nat.shiftLeft_eq]; omega
  · simp only [Nat.shiftLeft_eq]; omega

theorem header_size (n : Nat) (h : n ≤ maxPacketSize) :
    headerPayloadSize (UInt8.ofNat (n &&& 0xFF)) (UInt8.ofNat ((n >>> 8) &&& 0xFF))
      (UInt8.ofNat ((n >>> 16) &&& 0xFF)) = n := by
  rw [headerPayloadSize_eq]
  simp only [and_ff, Nat.shiftRight_eq_div_pow, UInt8.toNat_ofNat']
  unfold maxPacketSize at h
  omega

theorem headerPayloadSize_le (a b c : UInt8) : headerPayloadSize a b c ≤ maxPacketSize := by
  rw [headerPayloadSize_eq]
  have ha := a.toNat_lt
  have hb := b.toNat_lt
  have hc := c.toNat_lt
  unfold maxPacketSize; omega

theorem parse_enc (p : Packet) (h : Valid p) (r : Bytes) : parse (enc p ++ r) = .done p r := by
  obtain ⟨h1, h2⟩ := h
  simp only [enc, header, List.cons_append, List.nil_append, parse, header_size _ h2]
  rw [if_neg (by simpa using h1), if_neg (by omega), if_neg (by simp)]
  simp

theorem header_of_size (a b c t : UInt8) : header t (headerPayloadSize a b c) = [t, a, b, c] := by
  have ha := a.toNat_lt
  have hb := b.toNat_lt
  have hc := c.toNat_lt
  simp only [header, and_ff, Nat.shiftRight_eq_div_pow, headerPayloadSize_eq, List.cons.injEq, true_and, and_true]
  refine ⟨?_, ?_, ?_⟩ <;>
  · apply UInt8.toNat_inj.mp
    simp only [UInt8.toNat_ofNat']
    omega

theorem parse_done {b r : Bytes} {p : Packet} (h : parse b = .done p r) : Valid p ∧ b = enc p ++ r := by
  unfold parse at h
  split at h
  · rename_i t a b c rest
    dsimp only at h
    split at h
    · cases h
    · split at h
      · cases h
      · split at h
        · cases h
        · rename_i h1 h2 h3
          cases h
          have hl : (rest.take (headerPayloadSize a b c)).length = headerPayloadSize a b c := by
            simp; omega
          refine ⟨⟨by simpa using h1, by simp only [hl]; omega⟩, ?_⟩
          unfold enc
          simp only [hl, header_of_size]
          simp
  · cases h

theorem parse_more_of_prefix {x b : Bytes} {p : Packet} (hp : Valid p) (hx : x ++ b = enc p) (hb : b ≠ []) :
    parse x = .more := by
  cases h : parse x with
  | more => rfl
  | bad =>
    exfalso
    unfold parse at h
    split at h
    · rename_i t a b' c rest
      have e : t = p.type := by simp [enc, header] at hx; exact hx.1
      dsimp only at h
      rw [if_neg (by rw [e]; simpa using hp.1), if_neg (by have := headerPayloadSize_le a b' c; omega)] at h
      split at h <;> cases h
    · cases h
  | done q r =>
    obtain ⟨hq, e⟩ := parse_done h
    exfalso
    have h1 : parse (enc p ++ []) = .done p [] := parse_enc p hp []
    rw [List.append_nil, ← hx, e, List.append_assoc, parse_enc q hq] at h1
    simp at h1
    exact hb h1.2.2

/-- The encoding is uniquely decodable: if a sequence of encoded packets followed by `x` is a prefix
of an encoded sequence, the packets are a prefix and `x` continues with the rest. -/
theorem encAll_prefix (ds : List Packet) (x : Bytes) (qs : List Packet) (hd : ∀ p ∈ ds, Valid p)
    (hq : ∀ p ∈ qs, Valid p) (h : encAll ds ++ x <+: encAll qs) :
    ∃ rs, qs = ds ++ rs ∧ x <+: encAll rs := by
  induction ds generalizing qs with
  | nil => exact ⟨qs, rfl, by simpa using h⟩
  | cons d ds ih =>
    obtain ⟨y, hy⟩ := h
    cases qs with
    | nil =>
      have := congrArg List.length hy
      simp [enc_length, headerSize] at this
    | cons q qs =>
      have h1 : parse (enc d ++ (encAll ds ++ x ++ y)) = .done d (encAll ds ++ x ++ y) :=
        parse_enc d (hd d (by simp)) _
      have h2 : parse (enc q ++ encAll qs) = .done q (encAll qs) := parse_enc q (hq q (by simp)) _
      simp only [encAll_cons, List.append_assoc] at hy
      simp only [List.append_assoc] at h1
      rw [hy, h2] at h1
      simp only [Parse.done.injEq] at h1
      obtain ⟨e, e2⟩ := h1
      subst e
      obtain ⟨rs, hr, hx⟩ := ih qs (fun p hp => hd p (by simp [hp])) (fun p hp => hq p (by simp [hp]))
        ⟨y, by rw [e2]; simp⟩
      exact ⟨rs, by simp [hr], hx⟩

theorem receiveAll_enc (ps : List Packet) (hv : ∀ p ∈ ps, Valid p) (tail : Bytes) :
    receiveAll (encAll ps ++ tail) = (ps ++ (receiveAll tail).1, (receiveAll tail).2) := by
  induction ps with
  | nil => simp
  | cons p ps ih =>
    rw [receiveAll]
    have h := parse_enc p (hv p (by simp)) (encAll ps ++ tail)
    rw [encAll_cons, List.append_assoc]
    split
    · rename_i h'; rw [h] at h'; cases h'
    · rename_i h'; rw [h] at h'; cases h'
    · rename_i q rest h'
      rw [h] at h'; cases h'
      simp [ih (fun p hp => hv p (by simp [hp]))]

theorem receiveAll_of_more {b : Bytes} (h : parse b = .more) : receiveAll b = ([], .endOfStream) := by
  rw [receiveAll]
  split
  · rfl
  · rename_i h'; rw [h] at h'; cases h'
  · rename_i h'; rw [h] at h'; cases h'

theorem receiveAll_of_bad {b : Bytes} (h : parse b = .bad) : receiveAll b = ([], .rejected) := by
  rw [receiveAll]
  split
  · rename_i h'; rw [h] at h'; cases h'
  · rfl
  · rename_i h'; rw [h] at h'; cases h'

/-- A prefix of the encoding splits into whole packets and an incomplete one. -/
theorem take_encAll (ps : List Packet) (k : Nat) (hk : k < (encAll ps).length) :
    ∃ j, ∃ (hj : j < ps.length), ∃ x y, (encAll ps).take k = encAll (ps.take j) ++ x ∧
      x ++ y = enc ps[j] ∧ y ≠ [] := by
  induction ps generalizing k with
  | nil => simp at hk
  | cons p ps ih =>
    simp only [encAll_cons, List.length_append] at hk
    rcases Nat.lt_or_ge k (enc p).length with h | h
    · refine ⟨0, by simp, (enc p).take k, (enc p).drop k, ?_, by simp, ?_⟩
      · simp [List.take_append_of_le_length (Nat.le_of_lt h)]
      · intro e; have := congrArg List.length e; simp at this; omega
    · obtain ⟨j, hj, x, y, h1, h2, h3⟩ := ih (k - (enc p).length) (by omega)
      refine ⟨j + 1, by simpa using hj, x, y, ?_, by simpa using h2, h3⟩
      rw [encAll_cons, List.take_append, List.take_of_length_le h, h1]
      simp

/-! ## Invariant of the transition system -/

def Sender.rest : Sender → Bytes
  | .popped b _ => b
  | .sending r _ => r
  | _ => []

def Sender.size : Sender → Nat
  | .popped b _ => b.length
  | .sending _ n => n
  | _ => 0

def Receiver.got : Receiver → Bytes
  | .reading g => g
  | _ => []

def outQSize (q : List (Bytes × Nat)) : Nat := (q.map fun x => x.1.length).sum
def inQSize (q : List Packet) : Nat := (q.map fun p => headerSize + p.data.length).sum

structure Inv (limit : Nat) (s : State) : Prop where
  valid : ∀ p ∈ s.queued, Valid p
  sendExit : s.sendErr = true → s.sender = .exited
  p1 : ∀ r n, s.sender = .sending r n → s.output ++ r <+: encAll s.queued
  p2 : s.output <+: encAll s.queued
  p3 : s.aRecvErr = false → s.sendErr = false →
    s.output ++ s.sender.rest ++ (s.outQ.map Prod.fst).flatten = encAll s.queued
  outSize : s.sendErr = false → s.outBytes = outQSize s.outQ + s.sender.size
  outSizeGe : outQSize s.outQ + s.sender.size ≤ s.outBytes
  outPos : ∀ x ∈ s.outQ, 4 ≤ x.1.length
  sndPos : s.sender = .idle ∨ s.sender = .exited ∨ 4 ≤ s.sender.size
  outBound : s.outBytes < limit + (maxPacketSize + 5)
  m1 : ∀ x ∈ s.modes, x.1 = x.2
  m2 : s.aRecvErr = false → s.sendErr = false → (∀ x ∈ s.outQ, x.2 = s.mode) ∧
    ∀ b m, s.sender = .popped b m → m = s.mode
  inValid : ∀ p ∈ s.delivered ++ s.inQ, Valid p
  r1 : s.receiver ≠ .exited →
    encAll (s.delivered ++ s.inQ) ++ s.receiver.got ++ s.wire <+: s.output
  r1' : encAll (s.delivered ++ s.inQ) <+: s.output
  r2 : s.broken = false → s.receiver ≠ .exited →
    encAll (s.delivered ++ s.inQ) ++ s.receiver.got ++ s.wire = s.output
  gotMin : ∀ g, s.receiver = .reading g → g = [] ∨ parse g.dropLast = .more
  inSize : s.inBytes = inQSize s.inQ
  inGate : ∀ g, s.receiver = .reading g → s.inBytes < limit
  inBound : s.inBytes < limit + (maxPacketSize + 5)
  recvExit : s.recvErr = true → s.receiver = .exited
  errBroken : s.recvErr = true → s.broken = true
  arr : ∃ g, s.arrived = encAll (s.delivered ++ s.inQ) ++ g ∧
    (s.receiver = .exited → parse g = .more) ∧ (s.receiver ≠ .exited → g = s.receiver.got)

theorem inv_init (limit : Nat) : Inv limit {} where
  valid := by simp
  sendExit := by simp
  p1 := by simp
  p2 := by simp
  p3 := by simp [Sender.rest]
  outSize := by simp [outQSize, Sender.size]
  outSizeGe := by simp [outQSize, Sender.size]
  outPos := by simp
  sndPos := by simp
  outBound := by simp; omega
  m1 := by simp
  m2 := by simp
  inValid := by simp
  r1 := by simp [Receiver.got]
  r1' := by simp
  r2 := by simp [Receiver.got]
  gotMin := by simp
  inSize := by simp [inQSize]
  inGate := by simp
  inBound := by simp; omega
  recvExit := by simp
  errBroken := by simp
  arr := ⟨[], by simp [Receiver.got]⟩

theorem parse_nil : parse [] = .more := rfl

theorem parse_done_min {g r : Bytes} {p : Packet} (h : parse g = .done p r)
    (hm : g = [] ∨ parse g.dropLast = .more) : r = [] := by
  obtain ⟨hv, e⟩ := parse_done h
  rcases hm with hm | hm
  · subst hm; rw [parse_nil] at h; cases h
  · refine Classical.byContradiction fun hr => ?_
    rw [e, List.dropLast_append_of_ne_nil hr, parse_enc p hv] at hm
    cases hm

/-- The receiver never rejects: what it has read is a prefix of encoded valid packets. -/
theorem got_not_bad {limit : Nat} {s : State} (h : Inv limit s) {g : Bytes}
    (hr : s.receiver = .reading g) : parse g ≠ .bad := by
  have h1 := h.r1 (by rw [hr]; simp)
  rw [hr] at h1
  have h2 : encAll (s.delivered ++ s.inQ) ++ g <+: encAll s.queued :=
    (List.prefix_append _ s.wire).trans (h1.trans h.p2)
  obtain ⟨rs, hrs, hg⟩ := encAll_prefix _ _ _ h.inValid h.valid h2
  have hv : ∀ p ∈ rs, Valid p := fun p hp => h.valid p (by rw [hrs]; simp [hp])
  intro hb
  cases rs with
  | nil => simp at hg; subst hg; cases hb
  | cons p rs =>
    obtain ⟨y, hy⟩ := hg
    unfold parse at hb
    split at hb
    · rename_i t a b c rest
      have e : t = p.type := by simp [enc, header] at hy; exact hy.1
      dsimp only at hb
      rw [if_neg (by rw [e]; simpa using (hv p (by simp)).1),
        if_neg (by have := headerPayloadSize_le a b c; omega)] at hb
      split at hb <;> cases hb
    · cases hb

theorem prefix_append_of {a b c : Bytes} (h : a <+: b) : a <+: b ++ c := h.trans (List.prefix_append _ _)

theorem inv_step {limit : Nat} {s s' : State} (a : Act) (h : Inv limit s) (hs : step limit s a = some s') :
    Inv limit s' := by
  cases a with
  | enqueue p =>
    simp only [step] at hs
    split at hs
    · cases hs
    · rename_i b hb
      split at hs
      · rename_i hc
        simp only [Bool.and_eq_true, decide_eq_true_eq, Bool.not_eq_true'] at hc
        obtain ⟨⟨⟨hlim, hse⟩, hre⟩, ht⟩ := hc
        obtain ⟨rfl, hsz⟩ := serialize_eq hb
        cases hs
        have hl := enc_length p
        refine { h with valid := ?_, p1 := ?_, p2 := ?_, p3 := ?_, outSize := ?_, outSizeGe := ?_, outPos := ?_, outBound := ?_, m2 := ?_ }
        · intro q hq
          simp at hq
          rcases hq with hq | rfl
          · exact h.valid q hq
          · exact ⟨ht, hsz⟩
        · intro r n e; simp only [encAll_append]; exact prefix_append_of (h.p1 r n e)
        · simp only [encAll_append]; exact prefix_append_of h.p2
        · intro _ _; have := h.p3 hre hse; simp [← this]
        · intro _; have := h.outSize hse; simp [outQSize] at *; omega
        · have := h.outSizeGe; simp [outQSize] at *; omega
        · intro x hx
          simp at hx
          rcases hx with hx | rfl
          · exact h.outPos x hx
          · simp [hl, headerSize]
        · simp [hl, headerSize]; omega
        · intro _ _
          refine ⟨?_, (h.m2 hre hse).2⟩
          intro x hx
          simp at hx
          rcases hx with hx | rfl
          · exact (h.m2 hre hse).1 x hx
          · rfl
      · cases hs
  | redirect m =>
    simp only [step] at hs
    split at hs
    · rename_i hf
      cases hs
      refine { h with m2 := ?_ }
      intro hre hse
      simp only [State.flushReturns] at hf
      have h0 : s.outBytes = 0 := by
        simp only at hre hse
        simpa [hre, hse] using hf
      have hsz := h.outSize hse
      rw [h0] at hsz
      have hq : s.outQ = [] := by
        cases hq : s.outQ with
        | nil => rfl
        | cons x q =>
          have := h.outPos x (by simp [hq])
          rw [hq] at hsz
          simp [outQSize] at hsz; omega
      refine ⟨by simp [hq], ?_⟩
      intro b m' e
      simp only at e
      have := h.sndPos
      rw [e] at this hsz
      simp [Sender.size] at this hsz
      omega
    · cases hs
  | stopA =>
    simp only [step] at hs
    split at hs
    · cases hs; exact { h with }
    · cases hs
  | pop =>
    simp only [step] at hs
    split at hs
    · rename_i hi
      have hse : s.sendErr = false := by
        cases hx : s.sendErr with
        | false => rfl
        | true => rw [h.sendExit hx] at hi; cases hi
      split at hs
      · cases hs
        refine { h with sendExit := ?_, p1 := ?_, p3 := ?_, outSize := ?_, outSizeGe := ?_, sndPos := ?_, m2 := ?_ }
        · simp
        · simp
        · intro h1 h2; have := h.p3 h1 h2; rw [hi] at this; exact this
        · intro h1; have := h.outSize h1; rw [hi] at this; exact this
        · have := h.outSizeGe; rw [hi] at this; exact this
        · simp
        · intro h1 h2; exact ⟨(h.m2 h1 h2).1, by simp⟩
      · split at hs
        · cases hs
        · rename_i b m q hq
          cases hs
          have hp := h.outPos (b, m) (by simp [hq])
          refine { h with sendExit := ?_, p1 := ?_, p3 := ?_, outSize := ?_, outSizeGe := ?_, outPos := ?_, sndPos := ?_, m2 := ?_ }
          · intro h1; simp only at h1; rw [hse] at h1; cases h1
          · simp
          · intro h1 h2; have := h.p3 h1 h2; rw [hi, hq] at this; simp [Sender.rest] at this ⊢; exact this
          · intro h1; have := h.outSize h1; rw [hi, hq] at this; simp [Sender.size, outQSize] at this ⊢; omega
          · have := h.outSizeGe; rw [hi, hq] at this; simp [Sender.size, outQSize] at this ⊢; omega
          · intro x hx; exact h.outPos x (by rw [hq]; simp only at hx; simp [hx])
          · right; right; exact hp
          · intro h1 h2
            have hm := (h.m2 h1 h2).1
            refine ⟨fun x hx => hm x (by rw [hq]; simp only at hx; simp [hx]), ?_⟩
            intro b' m' e
            cases e
            exact hm (b, m) (by simp [hq])
    · cases hs
  | begin =>
    simp only [step] at hs
    split at hs
    · rename_i b m hb
      have hse : s.sendErr = false := by
        cases hx : s.sendErr with
        | false => rfl
        | true => rw [h.sendExit hx] at hb; cases hb
      split at hs
      · rename_i hre
        cases hs
        refine { h with sendExit := ?_, p1 := ?_, p3 := ?_, outSize := ?_, outSizeGe := ?_, sndPos := ?_, m2 := ?_ }
        · intro h1; simp only at h1; rw [hse] at h1; cases h1
        · intro r n e; cases e; simpa using h.p2
        · intro h1; simp only at h1; rw [hre] at h1; cases h1
        · intro h1; have := h.outSize h1; rw [hb] at this; exact this
        · have := h.outSizeGe; rw [hb] at this; exact this
        · have := h.sndPos; rw [hb] at this; simpa [Sender.size] using this
        · intro h1; simp only at h1; rw [hre] at h1; cases h1
      · rename_i hre
        simp only [Bool.not_eq_true] at hre
        cases hs
        refine { h with sendExit := ?_, p1 := ?_, p3 := ?_, outSize := ?_, outSizeGe := ?_, sndPos := ?_, m1 := ?_, m2 := ?_ }
        · intro h1; simp only at h1; rw [hse] at h1; cases h1
        · intro r n e; cases e
          have := h.p3 hre hse
          rw [hb] at this
          exact ⟨_, this⟩
        · intro h1 h2; have := h.p3 h1 h2; rw [hb] at this; exact this
        · intro h1; have := h.outSize h1; rw [hb] at this; exact this
        · have := h.outSizeGe; rw [hb] at this; exact this
        · have := h.sndPos; rw [hb] at this; simpa [Sender.size] using this
        · intro x hx
          simp at hx
          rcases hx with hx | rfl
          · exact h.m1 x hx
          · exact (h.m2 hre hse).2 b m hb
        · intro h1 h2; exact ⟨(h.m2 h1 h2).1, by simp⟩
    · cases hs
  | push n =>
    simp only [step] at hs
    split at hs
    · rename_i rest size hb
      have hse : s.sendErr = false := by
        cases hx : s.sendErr with
        | false => rfl
        | true => rw [h.sendExit hx] at hb; cases hb
      cases hs
      have hp := h.p1 rest size hb
      refine { h with sendExit := ?_, p1 := ?_, p2 := ?_, p3 := ?_, outSize := ?_, outSizeGe := ?_, sndPos := ?_, m2 := ?_, r1 := ?_, r1' := ?_, r2 := ?_ }
      · intro h1; simp only at h1; rw [hse] at h1; cases h1
      · intro r n' e; cases e; simpa using hp
      · refine List.IsPrefix.trans ?_ hp
        exact ⟨rest.drop n, by simp⟩
      · intro h1 h2; have := h.p3 h1 h2; rw [hb] at this; simp [Sender.rest] at this ⊢; exact this
      · intro h1; have := h.outSize h1; rw [hb] at this; exact this
      · have := h.outSizeGe; rw [hb] at this; exact this
      · have := h.sndPos; rw [hb] at this; simpa [Sender.size] using this
      · intro h1 h2; exact ⟨(h.m2 h1 h2).1, by simp⟩
      · intro h1
        simp only
        split
        · exact prefix_append_of (h.r1 h1)
        · rename_i hbr
          have := h.r2 (by simpa using hbr) h1
          rw [← this]; simp
      · exact prefix_append_of h.r1'
      · intro h1 h2
        simp only at h1
        have := h.r2 h1 h2
        simp [h1, ← this]
    · cases hs
  | finish =>
    simp only [step] at hs
    split at hs
    · rename_i size hb
      have hse : s.sendErr = false := by
        cases hx : s.sendErr with
        | false => rfl
        | true => rw [h.sendExit hx] at hb; cases hb
      cases hs
      have hsz := h.outSize hse
      rw [hb] at hsz
      simp only [Sender.size] at hsz
      refine { h with sendExit := ?_, p1 := ?_, p3 := ?_, outSize := ?_, outSizeGe := ?_, sndPos := ?_, outBound := ?_, m2 := ?_ }
      · intro h1; simp only at h1; rw [hse] at h1; cases h1
      · intro r n e; cases e
      · intro h1 h2; have := h.p3 h1 h2; rw [hb] at this; exact this
      · intro _; simp [Sender.size]; omega
      · simp [Sender.size]; omega
      · simp
      · have := h.outBound; simp only; omega
      · intro h1 h2; exact ⟨(h.m2 h1 h2).1, by simp⟩
    · cases hs
  | sendFails =>
    simp only [step] at hs
    split at hs
    · rename_i rest size hb
      cases hs
      refine { h with sendExit := ?_, p1 := ?_, p3 := ?_, outSize := ?_, outSizeGe := ?_, sndPos := ?_, m2 := ?_ }
      · simp
      · simp
      · simp
      · simp
      · have := h.outSizeGe; simp [Sender.size] at *; omega
      · simp
      · simp
    · cases hs
  | aRecvFails =>
    simp only [step] at hs
    cases hs
    refine { h with p3 := ?_, m2 := ?_ } <;> simp
  | breakWire n =>
    simp only [step] at hs
    cases hs
    refine { h with r1 := ?_, r2 := ?_, errBroken := ?_ }
    · intro h1
      refine List.IsPrefix.trans ?_ (h.r1 h1)
      exact ⟨s.wire.drop n, by simp⟩
    · simp
    · simp
  | gate =>
    simp only [step] at hs
    split at hs
    · rename_i hw
      have hre : s.recvErr = false := by
        cases hx : s.recvErr with
        | false => rfl
        | true => rw [h.recvExit hx] at hw; cases hw
      split at hs
      · cases hs
        refine { h with r1 := ?_, r2 := ?_, gotMin := ?_, inGate := ?_, recvExit := ?_, arr := ?_ }
        · simp
        · simp
        · simp
        · simp
        · simp
        · obtain ⟨g, a1, _, a3⟩ := h.arr
          refine ⟨g, a1, fun _ => ?_, by simp⟩
          rw [a3 (by rw [hw]; simp), hw]; rfl
      · split at hs
        · rename_i hl
          cases hs
          have r1 := h.r1 (by rw [hw]; simp)
          rw [hw] at r1
          refine { h with r1 := ?_, r2 := ?_, gotMin := ?_, inGate := ?_, recvExit := ?_, arr := ?_ }
          · intro _; exact r1
          · intro h1 _; have r2 := h.r2 h1 (by rw [hw]; simp); rw [hw] at r2; exact r2
          · intro g e; cases e; simp
          · intro g e; exact hl
          · intro h1; simp only at h1; rw [hre] at h1; cases h1
          · obtain ⟨g, a1, _, a3⟩ := h.arr
            refine ⟨g, a1, by simp, fun _ => ?_⟩
            rw [a3 (by rw [hw]; simp), hw]; rfl
        · cases hs
    · cases hs
  | recvByte =>
    simp only [step] at hs
    split at hs
    · rename_i got b w hr hw
      have hre : s.recvErr = false := by
        cases hx : s.recvErr with
        | false => rfl
        | true => rw [h.recvExit hx] at hr; cases hr
      split at hs
      · rename_i hm
        cases hs
        have r1 := h.r1 (by rw [hr]; simp)
        rw [hr, hw] at r1
        refine { h with r1 := ?_, r2 := ?_, gotMin := ?_, inGate := ?_, recvExit := ?_, arr := ?_ }
        · intro _; simpa [Receiver.got] using r1
        · intro h1 _; have r2 := h.r2 h1 (by rw [hr]; simp); rw [hr, hw] at r2; simpa [Receiver.got] using r2
        · intro g e; cases e; simp [hm]
        · intro g e; exact h.inGate got hr
        · intro h1; simp only at h1; rw [hre] at h1; cases h1
        · obtain ⟨g, a1, _, a3⟩ := h.arr
          refine ⟨g ++ [b], by simp [a1], by simp, fun _ => ?_⟩
          rw [a3 (by rw [hr]; simp), hr]; rfl
      · cases hs
    · cases hs
  | complete =>
    simp only [step] at hs
    split at hs
    · rename_i got hr
      have hre : s.recvErr = false := by
        cases hx : s.recvErr with
        | false => rfl
        | true => rw [h.recvExit hx] at hr; cases hr
      have hnb := got_not_bad h hr
      split at hs
      · cases hs
      · rename_i hb; exact absurd hb hnb
      · rename_i p r hp
        have hr0 := parse_done_min hp (h.gotMin got hr)
        subst hr0
        obtain ⟨hv, e⟩ := parse_done hp
        cases hs
        have r1 := h.r1 (by rw [hr]; simp)
        rw [hr] at r1
        simp only [Receiver.got, e, List.append_nil] at r1
        have hg := h.inGate got hr
        have hl := enc_length p
        refine { h with inValid := ?_, r1 := ?_, r1' := ?_, r2 := ?_, gotMin := ?_, inSize := ?_, inGate := ?_, inBound := ?_, recvExit := ?_, arr := ?_ }
        · intro q hq
          simp at hq
          rcases hq with hq | hq | rfl
          · exact h.inValid q (by simp [hq])
          · exact h.inValid q (by simp [hq])
          · exact hv
        · intro _; simpa [Receiver.got] using r1
        · refine List.IsPrefix.trans ?_ r1
          exact ⟨s.wire, by simp⟩
        · intro h1 _
          have r2 := h.r2 h1 (by rw [hr]; simp)
          rw [hr] at r2
          simpa [Receiver.got, e] using r2
        · intro g e; cases e
        · have := h.inSize; simp [inQSize] at this ⊢; omega
        · intro g e; cases e
        · have := hv.2; simp [headerSize]; omega
        · intro h1; simp only at h1; rw [hre] at h1; cases h1
        · obtain ⟨g, a1, _, a3⟩ := h.arr
          have hg := a3 (by rw [hr]; simp)
          rw [hr] at hg
          refine ⟨[], ?_, by simp, by simp [Receiver.got]⟩
          rw [a1, hg]; simp [Receiver.got, e]
    · cases hs
  | recvFails =>
    simp only [step] at hs
    split at hs
    · split at hs
      · rename_i got hr hc
        simp only [Bool.and_eq_true, decide_eq_true_eq] at hc
        cases hs
        refine { h with r1 := ?_, r2 := ?_, gotMin := ?_, inGate := ?_, recvExit := ?_, errBroken := ?_, arr := ?_ }
        · simp
        · simp
        · simp
        · simp
        · simp
        · intro _; exact hc.1.1
        · obtain ⟨g, a1, _, a3⟩ := h.arr
          refine ⟨g, a1, fun _ => ?_, by simp⟩
          have hg := a3 (by rw [hr]; simp)
          rw [hg, hr]; exact hc.2
      · cases hs
    · cases hs
  | bSendFails =>
    simp only [step] at hs
    cases hs
    exact { h with }
  | stopB =>
    simp only [step] at hs
    cases hs
    exact { h with }
  | dequeue =>
    simp only [step] at hs
    split at hs
    · cases hs
    · rename_i p q hq
      split at hs
      · cases hs
      · cases hs
        have e : s.delivered ++ [p] ++ q = s.delivered ++ s.inQ := by simp [hq]
        have hsz := h.inSize
        rw [hq] at hsz
        simp [inQSize] at hsz
        refine { h with inValid := ?_, r1 := ?_, r1' := ?_, r2 := ?_, inSize := ?_, inGate := ?_, inBound := ?_, arr := ?_ }
        · simp only [e]; exact h.inValid
        · simp only [e]; exact h.r1
        · simp only [e]; exact h.r1'
        · simp only [e]; exact h.r2
        · simp [inQSize]; omega
        · intro g hg; have := h.inGate g hg; simp only; omega
        · have := h.inBound; simp only; omega
        · simp only [e]; exact h.arr

theorem inv_reachable {limit : Nat} {s : State} (h : Reachable limit s) : Inv limit s := by
  induction h with
  | init => exact inv_init limit
  | step a _ hs ih => exact inv_step a ih hs

end Verif.Pump
