import Verif.Pump.Props
import Verif.Threads.Unzstd

/-!
# Switching compression on and off in the middle of a connection (C193, C194)

cdc_rsync/base/message_pump.cc, cdc_rsync_server/unzstd_stream.cc, cdc_rsync/cdc_rsync_client.cc, cdc_rsync_server/cdc_rsync_server.cc.

The client sends packets directly, then a packet that announces compression, then packets through the compression stream, waits for an
answer of the server, and goes on without compression.  The receiver thread of the server gets one stream of bytes.  The sending side (what
the compression stream writes is a frame of what was given to it) is C49; the flow control of the queues is C12 and C13.
-/
namespace Verif.Pump.Switch

open Verif.Threads.Zstd (Codec Decoder)

variable {K : Codec} {U : Decoder K}

/-! ## What is sent -/

/-- `PacketType::kToggleCompression`, message_pump.h:40-103. -/
def toggleType : UInt8 := 3

/-- The packet of `StartCompressionStream`, cdc_rsync_client.cc:776-779: an empty message. -/
def toggle : Packet := ⟨toggleType, []⟩

/-- A part of the session: packets sent directly, then (after `StartCompressionStream`, cdc_rsync_client.cc:773-802) packets sent through
the compression stream, which writes `frame` until `Finish` returns (cdc_rsync_client.cc:804-815). -/
structure Phase where
  plain : List Packet
  packed : List Packet
  frame : Bytes

/-- The bytes of some parts. -/
def bytes : List Phase → Bytes
  | [] => []
  | ph :: r => encAll ph.plain ++ enc toggle ++ ph.frame ++ bytes r

/-- The packets of some parts. -/
def packets : List Phase → List Packet
  | [] => []
  | ph :: r => ph.plain ++ [toggle] ++ ph.packed ++ packets r

/-- The whole stream: some parts, then packets sent directly. -/
def stream (P : List Phase) (T : List Packet) : Bytes := bytes P ++ encAll T

/-- How many bytes the client may have sent when the server has got `n` packets: `StopCompressionStream` waits for an answer
(cdc_rsync_client.cc:817-823), which the server sends when it has handled the last packet of the part (cdc_rsync_server.cc:756-764, 856-864). -/
def allowed : List Phase → List Packet → Nat → Nat
  | [], T, _ => (encAll T).length
  | ph :: r, T, n =>
    if n < (packets [ph]).length then (bytes [ph]).length else (bytes [ph]).length + allowed r T (n - (packets [ph]).length)

/-! ## The receiver thread -/

/-- The receiver thread inside `ThreadDoReceivePacket` (message_pump.cc:279-315).  `hdr` is the header if it has been read, `acc` is what the
present call of `ThreadDoReceive` (message_pump.cc:317-356) has put into its buffer.  `reader` is `input_reader_`: the state of the
decompressor and the unread part of its input buffer; `starved`: it is about to call `Receive` (unzstd_stream.cc:57-63). -/
structure State (U : Decoder K) where
  sent : Nat := 0
  got : Nat := 0
  reader : Option (U.D × Bytes) := none
  starved : Bool := false
  hdr : Bytes := []
  acc : Bytes := []
  delivered : List Packet := []
  failed : Bool := false

/-- The size of the buffer of the present call: four bytes, or the size in the header (message_pump.cc:282, 291-293, 305). -/
def need : Bytes → Nat
  | [_, a, b, c] => headerPayloadSize a b c
  | _ => 4

/-- One step of the client, the network or the receiver thread.  Simplified: how much one call of `Receive` returns is not bounded by the
size of the input buffer (unzstd_stream.cc:83), only by what has been sent; the connection does not break. -/
inductive Step (P : List Phase) (T : List Packet) : State U → State U → Prop
  /-- the client sends -/
  | send {s} {m : Nat} : s.sent < m → m ≤ allowed P T s.delivered.length → Step P T s { s with sent := m }
  /-- a byte from the socket, message_pump.cc:354-355 -/
  | raw {s} {b : UInt8} : s.failed = false → s.reader = none → s.acc.length < need s.hdr → s.got < s.sent →
      (stream P T)[s.got]? = some b → Step P T s { s with acc := s.acc ++ [b], got := s.got + 1 }
  /-- a partial read of the decompressor, unzstd_stream.cc:57-69 -/
  | receive {s x} {inp : Bytes} {n : Nat} : s.failed = false → s.reader = some (x, inp) → s.starved = true → 0 < n →
      s.got + n ≤ s.sent →
      Step P T s { s with reader := some (x, ((stream P T).drop s.got).take n), starved := false, got := s.got + n }
  /-- unzstd_stream.cc:45-49 -/
  | bad {s x} {inp : Bytes} : s.failed = false → s.reader = some (x, inp) → s.starved = false → s.acc.length < need s.hdr →
      U.fails x inp (need s.hdr - s.acc.length) → Step P T s { s with failed := true }
  /-- unzstd_stream.cc:51-55 -/
  | trailing {s x} {inp : Bytes} {x' k out} : s.failed = false → s.reader = some (x, inp) → s.starved = false →
      s.acc.length < need s.hdr → U.call x inp (need s.hdr - s.acc.length) x' k out 0 → k < inp.length →
      Step P T s { s with failed := true }
  /-- the end of the frame after a whole buffer or after nothing, message_pump.cc:325-328, 347-355 -/
  | ends {s x} {inp : Bytes} {x' k out} : s.failed = false → s.reader = some (x, inp) → s.starved = false →
      s.acc.length < need s.hdr → U.call x inp (need s.hdr - s.acc.length) x' k out 0 → ¬ k < inp.length →
      ((s.acc ++ out).length = 0 ∨ (s.acc ++ out).length = need s.hdr) →
      Step P T s { s with reader := none, acc := s.acc ++ out }
  /-- message_pump.cc:336-342 -/
  | inside {s x} {inp : Bytes} {x' k out} : s.failed = false → s.reader = some (x, inp) → s.starved = false →
      s.acc.length < need s.hdr → U.call x inp (need s.hdr - s.acc.length) x' k out 0 → ¬ k < inp.length →
      0 < (s.acc ++ out).length → (s.acc ++ out).length < need s.hdr → Step P T s { s with failed := true }
  /-- unzstd_stream.cc:43-45, 57 -/
  | more {s x} {inp : Bytes} {x' k out r} : s.failed = false → s.reader = some (x, inp) → s.starved = false →
      s.acc.length < need s.hdr → U.call x inp (need s.hdr - s.acc.length) x' k out r → r ≠ 0 →
      Step P T s { s with reader := some (x', inp.drop k), acc := s.acc ++ out,
                          starved := decide (k = inp.length ∧ (s.acc ++ out).length < need s.hdr) }
  /-- the header is complete, message_pump.cc:290-304 -/
  | header {s} {t a b c : UInt8} : s.failed = false → s.hdr = [] → s.acc = [t, a, b, c] → t < kCount →
      headerPayloadSize a b c ≤ maxPacketSize → Step P T s { s with hdr := s.acc, acc := [] }
  | badHeader {s} {t a b c : UInt8} : s.failed = false → s.hdr = [] → s.acc = [t, a, b, c] →
      ¬ (t < kCount ∧ headerPayloadSize a b c ≤ maxPacketSize) → Step P T s { s with failed := true }
  /-- the packet is complete; a packet that announces compression redirects the input unless it is redirected
  (message_pump.cc:462-469, 366-376, cdc_rsync_server.cc:888-895) -/
  | payload {s} {t a b c : UInt8} : s.failed = false → s.hdr = [t, a, b, c] → s.acc.length = need s.hdr →
      Step P T s { s with
        delivered := s.delivered ++ [⟨t, s.acc⟩], hdr := [], acc := []
        reader := if t = toggleType ∧ s.reader = none then some (U.init, []) else s.reader }

/-- Any number of steps. -/
inductive Steps (P : List Phase) (T : List Packet) : State U → State U → Prop
  | refl {s} : Steps P T s s
  | step {s t u} : Steps P T s t → Step P T t u → Steps P T s u

/-- A state some schedule leads to. -/
abbrev Reach (P : List Phase) (T : List Packet) (s : State U) : Prop := Steps P T {} s

/-! ## Specification -/

/-- What the documentation of zstd promises about bytes behind the end of a frame: they make no difference. -/
structure Stops (U : Decoder K) : Prop where
  call : ∀ {x o d inp cap x' k out r}, U.inside x o d → o <+: inp → 0 < cap → U.call x inp cap x' k out r → U.call x o cap x' k out r
  back : ∀ {x o d inp cap x' k out r}, U.inside x o d → o <+: inp → 0 < cap → U.call x o cap x' k out r → U.call x inp cap x' k out r
  fails : ∀ {x o d inp cap}, U.inside x o d → o <+: inp → 0 < cap → U.fails x inp cap → U.fails x o cap

/-- A packet other than the one that announces compression. -/
def Ordinary (p : Packet) : Prop := Sendable p ∧ p.type ≠ 3

/-- A session as the client produces it: ordinary packets, and each frame is one of the packets of its part. -/
structure Session (K : Codec) (P : List Phase) (T : List Packet) : Prop where
  plain : ∀ ph ∈ P, ∀ p ∈ ph.plain, Ordinary p
  packed : ∀ ph ∈ P, ∀ p ∈ ph.packed, Ordinary p
  frame : ∀ ph ∈ P, K.frame (ph.packed.map wireFormat).flatten ph.frame
  last : ∀ p ∈ T, Ordinary p

/-- All packets of the session, in order. -/
def sentPackets (P : List Phase) (T : List Packet) : List Packet :=
  (P.map fun ph => ph.plain ++ [⟨3, []⟩] ++ ph.packed).flatten ++ T

/-! ## Proof -/

theorem sentPackets_eq (P : List Phase) (T : List Packet) : sentPackets P T = packets P ++ T := by
  unfold sentPackets
  congr 1
  induction P with
  | nil => rfl
  | cons ph r ih => rw [List.map_cons, List.flatten_cons, ih]; rfl

theorem packets_append (A B : List Phase) : packets (A ++ B) = packets A ++ packets B := by
  induction A with
  | nil => rfl
  | cons ph r ih => simp [packets, ih]

theorem bytes_append (A B : List Phase) : bytes (A ++ B) = bytes A ++ bytes B := by
  induction A with
  | nil => rfl
  | cons ph r ih => simp [bytes, ih]

theorem allowed_lt (A Q : List Phase) (T : List Packet) : ∀ n, n < (packets A).length → allowed (A ++ Q) T n ≤ (bytes A).length := by
  induction A with
  | nil => intro n h; simp [packets] at h
  | cons ph r ih =>
    intro n h
    have e1 : packets (ph :: r) = packets [ph] ++ packets r := packets_append [ph] r
    have e2 : bytes (ph :: r) = bytes [ph] ++ bytes r := bytes_append [ph] r
    rw [e1, List.length_append] at h
    rw [e2, List.length_append, List.cons_append, allowed]
    split
    · omega
    · have := ih (n - (packets [ph]).length) (by omega); omega

theorem allowed_ge (A Q : List Phase) (T : List Packet) : ∀ n, (packets A).length ≤ n →
    allowed (A ++ Q) T n = (bytes A).length + allowed Q T (n - (packets A).length) := by
  induction A with
  | nil => intro n _; simp [packets, bytes]
  | cons ph r ih =>
    intro n h
    have e1 : packets (ph :: r) = packets [ph] ++ packets r := packets_append [ph] r
    have e2 : bytes (ph :: r) = bytes [ph] ++ bytes r := bytes_append [ph] r
    rw [e1, List.length_append] at h ⊢
    rw [e2, List.length_append, List.cons_append, allowed, if_neg (by omega), ih _ (by omega)]
    rw [show n - (packets [ph]).length - (packets r).length = n - ((packets [ph]).length + (packets r).length) by omega]
    omega

theorem allowed_mono (P : List Phase) (T : List Packet) : ∀ n m, n ≤ m → allowed P T n ≤ allowed P T m := by
  induction P with
  | nil => intros; exact Nat.le_refl _
  | cons ph r ih =>
    intro n m h
    rw [allowed, allowed]
    split <;> split
    · omega
    · omega
    · omega
    · have := ih (n - (packets [ph]).length) (m - (packets [ph]).length) (by omega); omega

theorem allowed_le (P : List Phase) (T : List Packet) : ∀ n, allowed P T n ≤ (stream P T).length := by
  induction P with
  | nil => intro n; simp [allowed, stream, bytes]
  | cons ph r ih =>
    intro n
    have e2 : bytes (ph :: r) = bytes [ph] ++ bytes r := bytes_append [ph] r
    have := ih (n - (packets [ph]).length)
    simp only [stream, List.length_append] at this
    rw [allowed, stream, e2]
    simp only [List.length_append]
    split <;> omega

/-- The packets that come next directly, and the bytes after them. -/
def here (Q : List Phase) (T : List Packet) : List Packet := match Q with | [] => T | ph :: _ => ph.plain
def mark (Q : List Phase) : List Packet := match Q with | [] => [] | _ :: _ => [toggle]
def after (Q : List Phase) (T : List Packet) : Bytes := match Q with | [] => [] | ph :: r => ph.frame ++ stream r T

theorem stream_eq (Q : List Phase) (T : List Packet) : stream Q T = encAll (here Q T ++ mark Q) ++ after Q T := by
  cases Q <;> simp [stream, here, mark, after, bytes]

theorem valid_toggle : Valid toggle := by
  refine ⟨?_, ?_⟩
  · show (3 : UInt8) < 12; decide
  · simp [toggle]

/-- The state of the direct mode. -/
structure Raw (P : List Phase) (T : List Packet) (s : State U) (A Q : List Phase) (pl : List Packet) : Prop where
  split : P = A ++ Q
  reader : s.reader = none
  starved : s.starved = false
  flow : (s.hdr ++ s.acc) ++ (stream P T).drop s.got = encAll (pl ++ mark Q) ++ after Q T
  order : s.delivered ++ pl = packets A ++ here Q T
  plain : ∀ p ∈ pl, Ordinary p
  edge : (packets A).length ≤ s.delivered.length ∨ ∃ p, s.hdr ++ s.acc = enc p ∧ pl = p :: here Q T

/-- The state of the compressed mode: `o` is what is left of the frame and `d` is what is left of its data, both before the decompressor. -/
structure Dec (P : List Phase) (T : List Packet) (s : State U) (A : List Phase) (ph : Phase) (Q : List Phase) (ps : List Packet)
    (x : U.D) (inp o d : Bytes) : Prop where
  split : P = (A ++ [ph]) ++ Q
  reader : s.reader = some (x, inp)
  within : U.inside x o d
  data : (s.hdr ++ s.acc) ++ d = encAll ps
  flow : inp ++ (stream P T).drop s.got = o ++ stream Q T
  order : s.delivered ++ ps = packets (A ++ [ph])
  packed : ∀ p ∈ ps, Ordinary p
  begun : (packets A).length < s.delivered.length
  starved : s.starved = true → inp = [] ∧ o ≠ [] ∧ s.acc.length < need s.hdr

/-- What holds in every state. -/
structure Inv (P : List Phase) (T : List Packet) (s : State U) : Prop where
  got : s.got ≤ s.sent
  sent : s.sent ≤ allowed P T s.delivered.length
  hdr : s.hdr = [] ∨ s.hdr.length = 4
  acc : s.acc.length ≤ need s.hdr
  mode : s.failed = false → (∃ A Q pl, Raw P T s A Q pl) ∨ ∃ A ph Q ps x inp o d, Dec P T s A ph Q ps x inp o d
  failed : s.failed = true → ∃ A ph Q, P = (A ++ [ph]) ++ Q ∧ s.delivered = packets (A ++ [ph]) ∧ (bytes (A ++ [ph])).length < s.sent

/-- The first packet of what comes, when some of its bytes have been read. -/
theorem head_of {h a z w : Bytes} {l : List Packet} (e : (h ++ a) ++ z = encAll l ++ w) (hw : l = [] → w = []) (hne : h ++ a ≠ []) :
    ∃ p l', l = p :: l' := by
  cases l with
  | nil =>
    rw [hw rfl] at e
    simp at e
    exact absurd (by rw [e.1, e.2.1]; rfl) hne
  | cons p l' => exact ⟨p, l', rfl⟩

theorem enc_eq (p : Packet) : enc p = header p.type p.data.length ++ p.data := rfl

theorem header_length (t : UInt8) (n : Nat) : (header t n).length = 4 := rfl

theorem need_header (t : UInt8) (n : Nat) (hn : n ≤ maxPacketSize) : need (header t n) = n := header_size n hn

/-- A header that has been read is that of the first packet. -/
theorem hdr_eq {h a z w : Bytes} {p : Packet} {l : List Packet} (e : (h ++ a) ++ z = encAll (p :: l) ++ w) (hl : h.length = 4) :
    h = header p.type p.data.length ∧ a ++ z = p.data ++ (encAll l ++ w) := by
  rw [encAll_cons, enc_eq, List.append_assoc, List.append_assoc, List.append_assoc] at e
  exact List.append_inj e (by rw [hl, header_length])

/-- A call fills the header: its four bytes are those of the first packet. -/
theorem acc_header {a z w : Bytes} {p : Packet} {l : List Packet} (e : ([] ++ a) ++ z = encAll (p :: l) ++ w) (hl : a.length = 4) :
    a = header p.type p.data.length ∧ z = p.data ++ (encAll l ++ w) := by
  have := hdr_eq (h := a) (a := []) (z := z) (w := w) (p := p) (l := l) (by simpa using e) hl
  simpa using this

/-- The packet is complete. -/
theorem payload_eq {h a z w : Bytes} {p : Packet} {l : List Packet} (e : (h ++ a) ++ z = encAll (p :: l) ++ w) (hl : h.length = 4)
    (hv : Valid p) (ha : a.length = need h) : h = header p.type p.data.length ∧ a = p.data ∧ z = encAll l ++ w := by
  obtain ⟨h1, h2⟩ := hdr_eq e hl
  rw [h1, need_header _ _ hv.2] at ha
  obtain ⟨h3, h4⟩ := List.append_inj h2 ha
  exact ⟨h1, h3, h4⟩

theorem Ordinary.valid {p : Packet} (h : Ordinary p) : Valid p := (sendable_iff p).mp h.1

theorem Raw.plainMark {P : List Phase} {T : List Packet} {s : State U} {A Q : List Phase} {pl : List Packet} (h : Raw P T s A Q pl) :
    ∀ p ∈ pl ++ mark Q, Valid p := by
  intro p hp
  rcases List.mem_append.mp hp with h1 | h1
  · exact (h.plain p h1).valid
  · cases Q with
    | nil => simp [mark] at h1
    | cons => simp only [mark, List.mem_singleton] at h1; subst h1; exact valid_toggle

theorem raw_empty {pl : List Packet} {Q : List Phase} {T : List Packet} (h : pl ++ mark Q = []) : after Q T = [] := by
  cases Q with
  | nil => rfl
  | cons => simp [mark] at h

/-- The decompressor behaves on its input as on what is left of the frame. -/
theorem Dec.call {P : List Phase} {T : List Packet} {s : State U} {A Q : List Phase} {ph : Phase} {ps : List Packet} {x x' : U.D}
    {inp o d out : Bytes} {cap k r : Nat} (hU : Stops U) (h : Dec P T s A ph Q ps x inp o d) (hc : 0 < cap)
    (hcall : U.call x inp cap x' k out r) :
    k ≤ inp.length ∧ k ≤ o.length ∧ out.length ≤ cap ∧ out <+: d ∧ (r = 0 → k = o.length ∧ out = d) ∧
    (r ≠ 0 → U.inside x' (o.drop k) (d.drop out.length) ∧ (k = inp.length ∨ out.length = cap) ∧ (k = o.length → out.length = cap)) := by
  have h1 : inp <+: o ++ stream Q T := ⟨_, h.flow⟩
  rcases List.prefix_or_prefix_of_prefix h1 (List.prefix_append o _) with hp | hp
  · obtain ⟨a1, a2, a3⟩ := U.bounds h.within hp hc hcall
    have := hp.length_le
    refine ⟨a1, by omega, a2, a3, ?_, ?_⟩
    · rintro rfl; exact U.done h.within hp hc hcall
    · intro hr
      refine ⟨U.goes_on h.within hp hc hcall hr, U.greedy h.within hp hc hcall hr, fun hk => ?_⟩
      refine Classical.byContradiction fun hne => hr ?_
      exact U.complete h.within hp hc hcall hk (by omega)
  · have hcall' := hU.call h.within hp hc hcall
    obtain ⟨a1, a2, a3⟩ := U.bounds h.within (List.prefix_refl _) hc hcall'
    have := hp.length_le
    have hcomp : r ≠ 0 → k = o.length → out.length = cap := by
      intro hr hk
      refine Classical.byContradiction fun hne => hr ?_
      exact U.complete h.within (List.prefix_refl _) hc hcall' hk (by omega)
    refine ⟨by omega, a1, a2, a3, ?_, ?_⟩
    · rintro rfl; exact U.done h.within (List.prefix_refl _) hc hcall'
    · intro hr
      refine ⟨U.goes_on h.within (List.prefix_refl _) hc hcall' hr, ?_, hcomp hr⟩
      rcases U.greedy h.within (List.prefix_refl _) hc hcall' hr with e | e
      · exact .inr (hcomp hr e)
      · exact .inr e

theorem Dec.no_fail {P : List Phase} {T : List Packet} {s : State U} {A Q : List Phase} {ph : Phase} {ps : List Packet} {x : U.D}
    {inp o d : Bytes} {cap : Nat} (hU : Stops U) (h : Dec P T s A ph Q ps x inp o d) (hc : 0 < cap) :
    ¬ U.fails x inp cap ∧ ∃ x' k out r, U.call x inp cap x' k out r := by
  have h1 : inp <+: o ++ stream Q T := ⟨_, h.flow⟩
  rcases List.prefix_or_prefix_of_prefix h1 (List.prefix_append o _) with hp | hp
  · exact U.no_fail h.within hp hc
  · obtain ⟨a1, x', k, out, r, a2⟩ := U.no_fail h.within (List.prefix_refl _) hc
    exact ⟨fun hf => a1 (hU.fails h.within hp hc hf), x', k, out, r, hU.back h.within hp hc a2⟩

/-- If bytes behind the frame have been read, the client had the answer of the server. -/
theorem Dec.spanned {P : List Phase} {T : List Packet} {s : State U} {A Q : List Phase} {ph : Phase} {ps : List Packet} {x : U.D}
    {inp o d : Bytes} (hi : Inv P T s) (h : Dec P T s A ph Q ps x inp o d) (hs : o.length < inp.length) :
    ps = [] ∧ (bytes (A ++ [ph])).length < s.got := by
  have h1 := congrArg List.length h.flow
  have h2 : (stream P T).length = (bytes (A ++ [ph])).length + (stream Q T).length := by
    rw [h.split]; simp only [stream, bytes_append, List.length_append]; omega
  simp only [List.length_append, List.length_drop] at h1
  have h3 : (bytes (A ++ [ph])).length < s.got := by omega
  refine ⟨?_, h3⟩
  have h4 : ¬ s.delivered.length < (packets (A ++ [ph])).length := by
    intro hlt
    have h5 := allowed_lt (A ++ [ph]) Q T _ hlt
    rw [← h.split] at h5
    have := hi.got; have := hi.sent; omega
  have h5 := congrArg List.length h.order
  rw [List.length_append] at h5
  exact List.eq_nil_of_length_eq_zero (by omega)

theorem len4 {l : Bytes} (h : l.length = 4) : ∃ a b c d, l = [a, b, c, d] := by
  match l, h with
  | [a, b, c, d], _ => exact ⟨a, b, c, d, rfl⟩

theorem need_nil : need [] = 4 := rfl

theorem header_parts {t a b c : UInt8} {p : Packet} (h : [t, a, b, c] = header p.type p.data.length) (hv : Valid p) :
    t = p.type ∧ headerPayloadSize a b c = p.data.length := by
  have h1 : need [t, a, b, c] = p.data.length := by rw [h]; exact need_header _ _ hv.2
  exact ⟨by simpa [header] using (List.cons.inj h).1, h1⟩

theorem Inv.start {P : List Phase} {T : List Packet} (hs : Session K P T) : Inv P T ({} : State U) where
  got := Nat.le_refl _
  sent := Nat.zero_le _
  hdr := .inl rfl
  acc := Nat.zero_le _
  mode := fun _ => .inl ⟨[], P, here P T, rfl, rfl, rfl, by simp [stream_eq], by simp [packets], by
    cases P with
    | nil => exact hs.last
    | cons ph r => exact hs.plain ph (List.mem_cons_self ..), .inl (Nat.zero_le _)⟩
  failed := fun h => nomatch h

theorem Inv.step {P : List Phase} {T : List Packet} {s t : State U} (hU : Stops U) (hS : Session K P T) (hi : Inv P T s)
    (hs : Step P T s t) : Inv P T t := by
  obtain ⟨i1, i2, i3, i4, i5, i6⟩ := id hi
  cases hs with
  | send h1 h2 =>
    refine ⟨Nat.le_of_lt (Nat.lt_of_le_of_lt i1 h1), h2, i3, i4, ?_, ?_⟩
    · intro hf
      rcases i5 hf with ⟨A, Q, pl, h⟩ | ⟨A, ph, Q, ps, x, inp, o, d, h⟩
      · exact .inl ⟨A, Q, pl, h.split, h.reader, h.starved, h.flow, h.order, h.plain, h.edge⟩
      · exact .inr ⟨A, ph, Q, ps, x, inp, o, d, h.split, h.reader, h.within, h.data, h.flow, h.order, h.packed, h.begun, h.starved⟩
    · intro hf
      obtain ⟨A, ph, Q, a, b, c⟩ := i6 hf
      exact ⟨A, ph, Q, a, b, Nat.lt_trans c h1⟩
  | @raw b hf hr ha hg hb =>
    refine ⟨hg, i2, i3, by simp only [List.length_append, List.length_singleton]; omega, fun _ => ?_, fun h => ?_⟩
    · rcases i5 hf with ⟨A, Q, pl, h⟩ | ⟨A, ph, Q, ps, x, inp, o, d, h⟩
      · obtain ⟨hlt, hb⟩ := List.getElem?_eq_some_iff.mp hb
        have e : (stream P T).drop s.got = b :: (stream P T).drop (s.got + 1) := by
          rw [List.drop_eq_getElem_cons hlt, hb]
        refine .inl ⟨A, Q, pl, h.split, h.reader, h.starved, ?_, h.order, h.plain, ?_⟩
        · have h1 := h.flow
          rw [e] at h1
          rw [← h1]; simp
        · rcases h.edge with h1 | ⟨p, h1, h2⟩
          · exact .inl h1
          · exfalso
            have hv := (h.plain p (by rw [h2]; exact List.mem_cons_self ..)).valid
            have hlen := congrArg List.length h1
            rw [enc_length, List.length_append] at hlen
            unfold headerSize at hlen
            rcases i3 with h3 | h3
            · rw [h3] at ha hlen; rw [need_nil] at ha; simp at hlen; omega
            · have h4 := hdr_eq (h := s.hdr) (a := s.acc) (z := []) (p := p) (l := []) (w := []) (by simpa using h1) h3
              rw [h4.1, need_header _ _ hv.2] at ha
              omega
      · rw [h.reader] at hr; cases hr
    · rw [hf] at h; cases h
  | @receive x inp n hf hr hst hn hg =>
    refine ⟨hg, i2, i3, i4, fun _ => ?_, fun h => absurd (hf.symm.trans h) (by decide)⟩
    rcases i5 hf with ⟨A, Q, pl, h⟩ | ⟨A, ph, Q, ps, x', inp', o, d, h⟩
    · rw [h.reader] at hr; cases hr
    · rw [h.reader] at hr
      injection hr with hr; injection hr with hx hin; subst hx; subst hin
      obtain ⟨h1, h2, h3⟩ := h.starved hst
      refine .inr ⟨A, ph, Q, ps, x', _, o, d, h.split, rfl, h.within, h.data, ?_, h.order, h.packed, h.begun, fun h => nomatch h⟩
      have h4 := h.flow
      rw [h1, List.nil_append] at h4
      rw [← h4, ← List.drop_drop, List.take_append_drop]
  | @bad x inp hf hr hst ha hfail =>
    exfalso
    rcases i5 hf with ⟨A, Q, pl, h⟩ | ⟨A, ph, Q, ps, x', inp', o, d, h⟩
    · rw [h.reader] at hr; cases hr
    · rw [h.reader] at hr
      injection hr with hr; injection hr with hx hin; subst hx; subst hin
      exact (h.no_fail hU (by omega)).1 hfail
  | @trailing x inp x2 k out hf hr hst ha hcall hk =>
    refine ⟨i1, i2, i3, i4, (fun h => nomatch h), fun _ => ?_⟩
    rcases i5 hf with ⟨A, Q, pl, h⟩ | ⟨A, ph, Q, ps, x', inp', o, d, h⟩
    · rw [h.reader] at hr; cases hr
    · rw [h.reader] at hr
      injection hr with hr; injection hr with hx hin; subst hx; subst hin
      obtain ⟨_, _, _, _, h5, _⟩ := h.call hU (by omega) hcall
      obtain ⟨h6, h7⟩ := h.spanned hi (by rw [← (h5 rfl).1]; exact hk)
      refine ⟨A, ph, Q, h.split, ?_, Nat.lt_of_lt_of_le h7 i1⟩
      have := h.order
      rw [h6, List.append_nil] at this
      exact this
  | @ends x inp x2 k out hf hr hst ha hcall hk hfull =>
    rcases i5 hf with ⟨A, Q, pl, h⟩ | ⟨A, ph, Q, ps, x', inp', o, d, h⟩
    · rw [h.reader] at hr; cases hr
    · rw [h.reader] at hr
      injection hr with hr; injection hr with hx hin; subst hx; subst hin
      obtain ⟨h1, h2, h3, h4, h5, _⟩ := h.call hU (by omega) hcall
      obtain ⟨h6, rfl⟩ := h5 rfl
      have hio : inp' = o := by
        have := h.flow
        exact (List.append_inj this (by omega)).1
      have hfl : (stream P T).drop s.got = stream Q T := by
        have := h.flow
        exact (List.append_inj this (by omega)).2
      have hdat : s.hdr ++ (s.acc ++ out) = encAll ps := by rw [← List.append_assoc]; exact h.data
      refine ⟨i1, i2, i3, by show (s.acc ++ out).length ≤ need s.hdr; omega, fun _ => .inl ⟨A ++ [ph], Q, ps ++ here Q T, h.split, rfl, hst, ?_, ?_, ?_, ?_⟩,
        fun h => absurd (hf.symm.trans h) (by decide)⟩
      · show s.hdr ++ (s.acc ++ out) ++ _ = _
        rw [hdat, hfl, stream_eq Q T]; simp
      · rw [← h.order]; simp
      · intro p hp
        rcases List.mem_append.mp hp with h7 | h7
        · exact h.packed p h7
        · cases hQ : Q with
          | nil => rw [hQ] at h7; exact hS.last p h7
          | cons ph' r =>
            rw [hQ] at h7
            exact hS.plain ph' (by rw [h.split, hQ]; simp) p h7
      · cases hps : ps with
        | nil =>
          left
          have h8 := h.order
          rw [hps, List.append_nil] at h8
          rw [h8]; exact Nat.le_refl _
        | cons p l =>
          right
          have hv := (h.packed p (by rw [hps]; exact List.mem_cons_self ..)).valid
          rw [hps] at hdat
          have hlen := congrArg List.length hdat
          rw [encAll_cons, List.length_append, List.length_append (as := enc p), enc_length] at hlen
          unfold headerSize at hlen
          have hl : l = [] := by
            cases l with
            | nil => rfl
            | cons p' l' =>
              exfalso
              rw [encAll_cons, List.length_append (as := enc p'), enc_length] at hlen
              unfold headerSize at hlen
              rw [List.length_append] at hfull
              rw [List.length_append] at hlen
              rcases i3 with e | e
              · rw [e] at hlen hfull; rw [need_nil] at hfull; simp only [List.length_nil] at hlen; omega
              · have h9 := (hdr_eq (h := s.hdr) (a := s.acc ++ out) (z := []) (w := []) (p := p) (l := p' :: l') (by simpa using hdat) e).1
                rw [h9, need_header _ _ hv.2] at hfull
                rw [e] at hlen
                omega
          subst hl
          exact ⟨p, by show s.hdr ++ (s.acc ++ out) = _; rw [hdat]; simp, by simp⟩
  | @inside x inp x2 k out hf hr hst ha hcall hk hpos hlt =>
    exfalso
    rcases i5 hf with ⟨A, Q, pl, h⟩ | ⟨A, ph, Q, ps, x', inp', o, d, h⟩
    · rw [h.reader] at hr; cases hr
    · rw [h.reader] at hr
      injection hr with hr; injection hr with hx hin; subst hx; subst hin
      obtain ⟨h1, h2, h3, h4, h5, _⟩ := h.call hU (by omega) hcall
      obtain ⟨h6, rfl⟩ := h5 rfl
      have hdat : s.hdr ++ (s.acc ++ out) = encAll ps := by rw [← List.append_assoc]; exact h.data
      cases hps : ps with
      | nil =>
        rw [hps] at hdat
        have := congrArg List.length hdat
        simp only [List.length_append, encAll_nil, List.length_nil] at this hpos
        omega
      | cons p l =>
        have hv := (h.packed p (by rw [hps]; exact List.mem_cons_self ..)).valid
        rw [hps] at hdat
        have hlen := congrArg List.length hdat
        rw [encAll_cons, List.length_append, List.length_append (as := enc p), enc_length] at hlen
        unfold headerSize at hlen
        rcases i3 with e | e
        · rw [e] at hlen hlt; rw [need_nil] at hlt; simp only [List.length_nil] at hlen; omega
        · have h9 := (hdr_eq (h := s.hdr) (a := s.acc ++ out) (z := []) (w := []) (by simpa using hdat) e).1
          rw [h9, need_header _ _ hv.2] at hlt
          rw [e] at hlen
          omega
  | @more x inp x2 k out r hf hr hst ha hcall hr0 =>
    rcases i5 hf with ⟨A, Q, pl, h⟩ | ⟨A, ph, Q, ps, x', inp', o, d, h⟩
    · rw [h.reader] at hr; cases hr
    · rw [h.reader] at hr
      injection hr with hr; injection hr with hx hin; subst hx; subst hin
      obtain ⟨h1, h2, h3, h4, _, h5⟩ := h.call hU (by omega) hcall
      obtain ⟨h6, h7, h8⟩ := h5 hr0
      obtain ⟨d', hd'⟩ := h4
      have hdd : d.drop out.length = d' := by rw [← hd', List.drop_left]
      refine ⟨i1, i2, i3, by simp only [List.length_append]; omega,
        fun _ => .inr ⟨A, ph, Q, ps, x2, inp'.drop k, o.drop k, d.drop out.length, h.split, rfl, h6, ?_, ?_, h.order, h.packed, h.begun, ?_⟩,
        fun h => absurd (hf.symm.trans h) (by decide)⟩
      · show s.hdr ++ (s.acc ++ out) ++ _ = _
        rw [hdd, ← h.data, ← hd']; simp
      · show inp'.drop k ++ _ = _
        rw [← List.drop_append_of_le_length h1, h.flow, List.drop_append_of_le_length h2]
      · intro hst'
        have hst' : decide (k = inp'.length ∧ (s.acc ++ out).length < need s.hdr) = true := hst'
        obtain ⟨e1, e2⟩ := of_decide_eq_true hst'
        refine ⟨List.drop_eq_nil_of_le (by omega), fun e => ?_, e2⟩
        have e3 := congrArg List.length e
        rw [List.length_drop, List.length_nil] at e3
        have := h8 (by omega)
        rw [List.length_append] at e2; omega
  | @header t a b c hf hh hacc ht hsz =>
    refine ⟨i1, i2, .inr (by show s.acc.length = 4; rw [hacc]; rfl), Nat.zero_le _, fun _ => ?_,
      fun h => absurd (hf.symm.trans h) (by decide)⟩
    rcases i5 hf with ⟨A, Q, pl, h⟩ | ⟨A, ph, Q, ps, x', inp', o, d, h⟩
    · left
      refine ⟨A, Q, pl, h.split, h.reader, h.starved, ?_, h.order, h.plain, ?_⟩
      · have := h.flow
        rw [hh] at this
        show s.acc ++ [] ++ _ = _
        rw [List.append_nil, ← this, List.nil_append]
      · rcases h.edge with h1 | ⟨p, h1, h2⟩
        · exact .inl h1
        · refine .inr ⟨p, ?_, h2⟩
          rw [hh] at h1
          show s.acc ++ [] = _
          rw [← h1]; simp
    · right
      refine ⟨A, ph, Q, ps, x', inp', o, d, h.split, h.reader, h.within, ?_, h.flow, h.order, h.packed, h.begun, ?_⟩
      · have := h.data
        rw [hh] at this
        show s.acc ++ [] ++ _ = _
        rw [List.append_nil, ← this, List.nil_append]
      · intro hst
        exfalso
        have h3 := (h.starved hst).2.2
        rw [hh, hacc] at h3
        exact absurd h3 (by decide : ¬ (4 < 4))
  | @badHeader t a b c hf hh hacc hbad =>
    exfalso
    apply hbad
    have key : ∀ p : Packet, Valid p → [t, a, b, c] = Verif.Pump.header p.type p.data.length →
        t < kCount ∧ headerPayloadSize a b c ≤ maxPacketSize := by
      intro p hv he
      obtain ⟨e1, e2⟩ := header_parts he hv
      rw [e1, e2]; exact hv
    rcases i5 hf with ⟨A, Q, pl, h⟩ | ⟨A, ph, Q, ps, x', inp', o, d, h⟩
    · have h1 := h.flow
      obtain ⟨p, l', hl⟩ := head_of h1 (fun e => raw_empty e) (by rw [hh, hacc]; simp)
      have hv := h.plainMark p (by rw [hl]; exact List.mem_cons_self ..)
      rw [hl, hh] at h1
      have h2 := (acc_header h1 (by rw [hacc]; rfl)).1
      rw [hacc] at h2
      exact key p hv h2
    · have h1 := h.data
      rw [← List.append_nil (encAll ps)] at h1
      obtain ⟨p, l', hl⟩ := head_of h1 (fun _ => rfl) (by rw [hh, hacc]; simp)
      have hv := (h.packed p (by rw [hl]; exact List.mem_cons_self ..)).valid
      rw [hl, hh] at h1
      have h2 := (acc_header h1 (by rw [hacc]; rfl)).1
      rw [hacc] at h2
      exact key p hv h2
  | @payload t a b c hf hh hacc =>
    have h4 : s.hdr.length = 4 := by rw [hh]; rfl
    refine ⟨i1, Nat.le_trans i2 (allowed_mono _ _ _ _ (by simp)), .inl rfl, Nat.zero_le _, fun _ => ?_,
      fun h => absurd (hf.symm.trans h) (by decide)⟩
    rcases i5 hf with ⟨A, Q, pl, h⟩ | ⟨A, ph, Q, ps, x', inp', o, d, h⟩
    · have h1 := h.flow
      obtain ⟨p, l', hl⟩ := head_of h1 (fun e => raw_empty e) (by rw [hh]; simp)
      have hv := h.plainMark p (by rw [hl]; exact List.mem_cons_self ..)
      rw [hl] at h1
      obtain ⟨e1, e2, e3⟩ := payload_eq h1 h4 hv hacc
      rw [hh] at e1
      have e4 := (header_parts e1 hv).1
      have e5 : (⟨t, s.acc⟩ : Packet) = p := by rw [e4, e2]
      cases pl with
      | cons p' pl' =>
        have hpp : p' = p ∧ pl' ++ mark Q = l' := by simpa using hl
        obtain ⟨rfl, hl'⟩ := hpp
        have hne : t ≠ toggleType := by rw [e4]; exact (h.plain p' (List.mem_cons_self ..)).2
        left
        refine ⟨A, Q, pl', h.split, ?_, h.starved, ?_, ?_, fun q hq => h.plain q (List.mem_cons_of_mem _ hq), .inl ?_⟩
        · show (if t = toggleType ∧ s.reader = none then _ else s.reader) = none
          rw [if_neg (fun hh => hne hh.1)]; exact h.reader
        · show [] ++ [] ++ _ = _
          rw [hl']; exact e3
        · show s.delivered ++ [_] ++ pl' = _
          rw [e5, ← h.order]; simp
        · show _ ≤ (s.delivered ++ [_]).length
          rcases h.edge with h6 | ⟨q, h6, h7⟩
          · simp; omega
          · have h8 := h.order
            rw [h7] at h8
            have := congrArg List.length h8
            simp only [List.length_append, List.length_cons] at this
            simp only [List.length_append, List.length_singleton]; omega
      | nil =>
        cases hQ : Q with
        | nil => rw [hQ] at hl; simp [mark] at hl
        | cons ph r =>
          rw [hQ] at hl e3
          have hpp : toggle = p ∧ [] = l' := by simpa [mark] using hl
          obtain ⟨rfl, rfl⟩ := hpp
          have hord := h.order
          rw [hQ, List.append_nil] at hord
          have hPs : P = (A ++ [ph]) ++ r := by rw [h.split, hQ]; simp
          have hmem : ph ∈ P := by rw [hPs]; simp
          right
          refine ⟨A, ph, r, ph.packed, U.init, [], ph.frame, encAll ph.packed, hPs, ?_, ?_, rfl, ?_, ?_, hS.packed ph hmem, ?_, ?_⟩
          · show (if t = toggleType ∧ s.reader = none then _ else s.reader) = _
            rw [if_pos ⟨by rw [e4]; rfl, h.reader⟩]
          · refine U.inside_init ?_
            have := hS.frame ph hmem
            rw [wireFormat_all] at this
            exact this
          · show [] ++ (stream P T).drop s.got = _
            rw [e3]; rfl
          · show s.delivered ++ [_] ++ ph.packed = _
            rw [e5, hord, packets_append]; simp [here, packets]
          · show _ < (s.delivered ++ [_]).length
            rw [hord]; simp
          · intro hst
            have : s.starved = true := hst
            rw [h.starved] at this; cases this
    · have h1 := h.data
      rw [← List.append_nil (encAll ps)] at h1
      obtain ⟨p, l', hl⟩ := head_of h1 (fun _ => rfl) (by rw [hh]; simp)
      have hv := (h.packed p (by rw [hl]; exact List.mem_cons_self ..)).valid
      rw [hl] at h1
      obtain ⟨e1, e2, e3⟩ := payload_eq h1 h4 hv hacc
      rw [hh] at e1
      have e4 := (header_parts e1 hv).1
      have e5 : (⟨t, s.acc⟩ : Packet) = p := by rw [e4, e2]
      right
      refine ⟨A, ph, Q, l', x', inp', o, d, h.split, ?_, h.within, ?_, h.flow, ?_,
        fun q hq => h.packed q (by rw [hl]; exact List.mem_cons_of_mem _ hq), ?_, ?_⟩
      · show (if t = toggleType ∧ s.reader = none then _ else s.reader) = _
        rw [if_neg (fun hh => by rw [h.reader] at hh; exact nomatch hh.2)]; exact h.reader
      · show [] ++ [] ++ d = _
        rw [e3]; simp
      · show s.delivered ++ [_] ++ l' = _
        rw [e5, ← h.order, hl]; simp
      · have := h.begun
        show _ < (s.delivered ++ [_]).length
        simp; omega
      · intro hst
        exfalso
        have := (h.starved hst).2.2
        omega

theorem Reach.inv {P : List Phase} {T : List Packet} {s : State U} (hU : Stops U) (hS : Session K P T) (h : Reach P T s) : Inv P T s := by
  induction h with
  | refl => exact Inv.start hS
  | step _ hs ih => exact ih.step hU hS hs

theorem here_prefix (Q : List Phase) (T : List Packet) : here Q T <+: packets Q ++ T := by
  cases Q with
  | nil => exact List.prefix_refl _
  | cons ph r => exact ⟨[toggle] ++ ph.packed ++ packets r ++ T, by simp [here, packets]⟩

theorem Inv.in_order {P : List Phase} {T : List Packet} {s : State U} (hi : Inv P T s) : s.delivered <+: packets P ++ T := by
  cases hf : s.failed with
  | false =>
    rcases hi.mode hf with ⟨A, Q, pl, h⟩ | ⟨A, ph, Q, ps, x, inp, o, d, h⟩
    · have h1 : s.delivered <+: packets A ++ here Q T := ⟨pl, h.order⟩
      refine h1.trans ?_
      rw [h.split, packets_append, List.append_assoc]
      exact (List.prefix_append_right_inj _).mpr (here_prefix Q T)
    · have h1 : s.delivered <+: packets (A ++ [ph]) := ⟨ps, h.order⟩
      refine h1.trans ?_
      rw [h.split, packets_append (A ++ [ph]) Q, List.append_assoc]
      exact List.prefix_append _ _
  | true =>
    obtain ⟨A, ph, Q, h1, h2, _⟩ := hi.failed hf
    rw [h1, h2, packets_append (A ++ [ph]), List.append_assoc]
    exact List.prefix_append _ _

/-- **C193**, in order: whatever the sizes of the pieces in which the bytes arrive, and whenever they arrive, the packets the server gets are
those the client sent, in the same order, from the first one on: none is lost, changed or repeated when compression is switched on or off. -/
theorem C193_in_order {P : List Phase} {T : List Packet} {s : State U} (hU : Stops U) (hS : Session K P T) (h : Reach P T s) :
    s.delivered <+: sentPackets P T := by
  rw [sentPackets_eq]; exact (h.inv hU hS).in_order

/-- **C194**, when it fails: only when all packets of a compressed part have been delivered and the client, which has the answer, has gone
on sending. -/
theorem C194_fails_only_then {P : List Phase} {T : List Packet} {s : State U} (hU : Stops U) (hS : Session K P T) (h : Reach P T s)
    (hf : s.failed = true) :
    ∃ j < P.length, s.delivered = sentPackets (P.take (j + 1)) [] ∧ (bytes (P.take (j + 1))).length < s.sent := by
  obtain ⟨A, ph, Q, h1, h2, h3⟩ := (h.inv hU hS).failed hf
  have e : P.take (A.length + 1) = A ++ [ph] := by
    rw [h1]
    exact List.take_left' (by simp)
  refine ⟨A.length, by rw [h1]; simp, ?_, ?_⟩
  · rw [e, sentPackets_eq, List.append_nil]; exact h2
  · rw [e]; exact h3

/-! ### Progress -/

def State.sub (s : State U) : Nat := if s.reader = none then 0 else if s.starved then 1 else if s.acc.length < need s.hdr then 2 else 0

/-- What is left to do. -/
def State.work (P : List Phase) (T : List Packet) (s : State U) : Nat :=
  (if s.failed then 0 else 1) + (8 * ((packets P ++ T).length - s.delivered.length) - (if s.hdr = [] then 0 else 4)) +
    2 * ((stream P T).length - s.got) + ((stream P T).length - s.sent) + s.sub

theorem Inv.undelivered {P : List Phase} {T : List Packet} {s : State U} (hi : Inv P T s) (hf : s.failed = false) (hh : s.hdr ≠ []) :
    s.delivered.length < (packets P ++ T).length := by
  have hpre := hi.in_order
  refine Nat.lt_of_le_of_ne hpre.length_le fun e => ?_
  have he : s.delivered = packets P ++ T := hpre.eq_of_length e
  rcases hi.mode hf with ⟨A, Q, pl, h⟩ | ⟨A, ph, Q, ps, x, inp, o, d, h⟩
  · obtain ⟨p, l', hl⟩ := head_of h.flow (fun e => raw_empty e) (by simp [hh])
    have h1 := congrArg List.length h.order
    rw [h.split, packets_append] at he
    rw [he] at h1
    cases Q with
    | nil =>
      simp only [mark, List.append_nil] at hl
      rw [hl] at h1
      simp [here, packets] at h1
    | cons ph r => simp [here, packets] at h1
  · have h1 := h.data
    rw [← List.append_nil (encAll ps)] at h1
    obtain ⟨p, l', hl⟩ := head_of h1 (fun _ => rfl) (by simp [hh])
    have h2 := congrArg List.length h.order
    rw [h.split, packets_append (A ++ [ph])] at he
    rw [he, hl] at h2
    simp at h2

theorem sub_le (s : State U) : s.sub ≤ 2 := by
  unfold State.sub
  split
  · omega
  · split
    · omega
    · split <;> omega

theorem work_step {P : List Phase} {T : List Packet} {s t : State U} (hU : Stops U) (hS : Session K P T) (hi : Inv P T s)
    (hs : Step P T s t) : t.work P T < s.work P T := by
  have hj := hi.step hU hS hs
  have hL := allowed_le P T s.delivered.length
  have hL' := allowed_le P T t.delivered.length
  obtain ⟨i1, i2, i3, i4, i5, i6⟩ := id hi
  have k1 := hj.undelivered
  have k2 := hi.undelivered
  have k3 := sub_le s
  have k4 := sub_le t
  obtain ⟨u, hu⟩ : ∃ u, t.sub = u := ⟨_, rfl⟩
  rw [hu] at k4
  cases hs with
  | send h1 h2 => simp only [State.work, State.sub]; omega
  | raw hf hr ha hg hb =>
    obtain ⟨hlt, _⟩ := List.getElem?_eq_some_iff.mp hb
    simp only [State.work, State.sub, hr, if_true]; omega
  | receive hf hr hst hn hg =>
    have e : s.sub = 1 := by simp [State.sub, hr, hst]
    simp only [State.work, e]
    have := hj.got; have := hj.sent
    simp only at this hg k4
    omega
  | bad hf => simp only [State.work, State.sub, hf]; simp
  | trailing hf => simp only [State.work, State.sub, hf]; simp
  | inside hf => simp only [State.work, State.sub, hf]; simp
  | badHeader hf => simp only [State.work, State.sub, hf]; simp
  | ends hf hr hst ha _ _ _ =>
    have e : s.sub = 2 := by simp [State.sub, hr, hst, ha]
    simp only [State.work, e]
    simp only [State.sub, if_true]; omega
  | @more x inp x2 k out r hf hr hst ha hcall hr0 =>
    have e : s.sub = 2 := by simp [State.sub, hr, hst, ha]
    rcases i5 hf with ⟨A, Q, pl, h⟩ | ⟨A, ph, Q, ps, x', inp', o, d, h⟩
    · rw [h.reader] at hr; cases hr
    · rw [h.reader] at hr
      injection hr with hr; injection hr with hx hin; subst hx; subst hin
      obtain ⟨h1, h2, h3, h4, _, h5⟩ := h.call hU (by omega) hcall
      obtain ⟨h6, h7, h8⟩ := h5 hr0
      simp only [State.work, e]
      have : State.sub ({ s with reader := some (x2, inp'.drop k), acc := s.acc ++ out, starved := decide (k = inp'.length ∧ (s.acc ++ out).length < need s.hdr) } : State U) ≤ 1 := by
        simp only [State.sub]
        rw [if_neg (by simp)]
        split
        · omega
        · rename_i hn
          rw [if_neg]
          · omega
          · intro hlt
            simp only [decide_eq_true_eq, not_and] at hn
            rcases h7 with e | e
            · exact hn e hlt
            · rw [List.length_append] at hlt; omega
      omega
  | @header t a b c hf hh hacc ht hsz =>
    have k5 := k1 hf (by show s.acc ≠ []; rw [hacc]; simp)
    unfold State.work
    rw [hu, if_pos hh]
    dsimp only at k5 ⊢
    rw [if_neg (by rw [hacc]; simp : ¬ s.acc = [])]
    omega
  | payload hf hh hacc =>
    have k5 := k2 hf (by rw [hh]; simp)
    unfold State.work
    rw [hu, if_neg (by rw [hh]; simp : ¬ s.hdr = [])]
    dsimp only
    rw [if_pos rfl]
    simp only [List.length_append, List.length_singleton] at k5 ⊢
    omega

/-- **C194**, progress: the steps run out, and when none is left every packet has been delivered, unless it has failed. -/
theorem C194_all_delivered_partial {P : List Phase} {T : List Packet} {s : State U} (hU : Stops U) (hS : Session K P T) (h : Reach P T s) :
    Acc (fun t s : State U => Step P T s t) s ∧ ((∀ t, ¬ Step P T s t) → s.failed = false → s.delivered = sentPackets P T) := by
  have hi := h.inv hU hS
  constructor
  · have key : ∀ n (s : State U), s.work P T ≤ n → Inv P T s → Acc (fun t s : State U => Step P T s t) s := by
      intro n
      induction n with
      | zero => intro s hn hi; exact ⟨_, fun t ht => absurd (work_step hU hS hi ht) (by omega)⟩
      | succ n ih => intro s hn hi; exact ⟨_, fun t ht => ih t (by have := work_step hU hS hi ht; omega) (hi.step hU hS ht)⟩
    exact key _ s (Nat.le_refl _) hi
  · intro hstuck hf
    rw [sentPackets_eq]
    obtain ⟨i1, i2, i3, i4, i5, i6⟩ := id hi
    -- a complete buffer can be taken
    have full : ∀ p l z w, (s.hdr ++ s.acc) ++ z = encAll (p :: l) ++ w → Valid p → s.acc.length ≠ need s.hdr := by
      intro p l z w e hv hn
      rcases i3 with h3 | h3
      · rw [h3, need_nil] at hn
        rw [h3] at e
        obtain ⟨a, b, c, d, h4⟩ := len4 hn
        have h5 := (acc_header e hn).1
        rw [h4] at h5
        obtain ⟨e1, e2⟩ := header_parts h5 hv
        exact hstuck _ (.header hf h3 h4 (by rw [e1]; exact hv.1) (by rw [e2]; exact hv.2))
      · obtain ⟨a, b, c, d, h4⟩ := len4 h3
        exact hstuck _ (.payload hf h4 hn)
    have nosend : s.sent = allowed P T s.delivered.length := by
      refine Classical.byContradiction fun hne => ?_
      exact hstuck _ (.send (m := allowed P T s.delivered.length) (by omega) (Nat.le_refl _))
    rcases i5 hf with ⟨A, Q, pl, h⟩ | ⟨A, ph, Q, ps, x, inp, o, d, h⟩
    · cases hup : pl ++ mark Q with
      | nil =>
        have hpl : pl = [] := by cases pl with | nil => rfl | cons => simp at hup
        have hQ : Q = [] := by cases Q with | nil => rfl | cons => simp [mark] at hup
        have h1 := h.order
        have h2 := h.split
        rw [hpl, hQ, List.append_nil] at h1
        rw [hQ, List.append_nil] at h2
        rw [h1, h2]; rfl
      | cons p l =>
        exfalso
        have hv := h.plainMark p (by rw [hup]; exact List.mem_cons_self ..)
        have hfl := h.flow
        rw [hup] at hfl
        have hnf := full p l _ _ hfl hv
        have hedge : (packets A).length ≤ s.delivered.length := by
          rcases h.edge with h1 | ⟨q, h1, h2⟩
          · exact h1
          · exfalso
            have hvq := (h.plain q (by rw [h2]; exact List.mem_cons_self ..)).valid
            apply full q [] [] [] (by simpa using h1) hvq
            have hlen := congrArg List.length h1
            rw [enc_length, List.length_append] at hlen
            unfold headerSize at hlen
            rcases i3 with e | e
            · rw [e] at hlen i4 ⊢; rw [need_nil] at i4 ⊢; simp at hlen; omega
            · have h9 := (hdr_eq (h := s.hdr) (a := s.acc) (z := []) (w := []) (p := q) (l := []) (by simpa using h1) e).1
              rw [e] at hlen
              rw [h9, need_header _ _ hvq.2]
              omega
        have hge := allowed_ge A Q T _ hedge
        rw [← h.split] at hge
        have hhead : (encAll (here Q T ++ mark Q)).length ≤ allowed Q T (s.delivered.length - (packets A).length) := by
          cases Q with
          | nil => simp [here, mark, allowed]
          | cons ph r =>
            rw [allowed]
            have : (bytes [ph]).length = (encAll (here (ph :: r) T ++ mark (ph :: r))).length + ph.frame.length := by
              simp [bytes, here, mark]; try omega
            split <;> omega
        have hstr : (stream P T).length = (bytes A).length + ((encAll (here Q T ++ mark Q)).length + (after Q T).length) := by
          have : stream P T = bytes A ++ stream Q T := by rw [h.split, stream, bytes_append, List.append_assoc]; rfl
          rw [this, stream_eq Q T, List.length_append, List.length_append]
        have hlenf := congrArg List.length hfl
        simp only [List.length_append, List.length_drop] at hlenf
        have hshort : s.hdr.length + s.acc.length < (encAll (p :: l)).length := by
          rw [encAll_cons, List.length_append, enc_length]
          unfold headerSize
          rcases i3 with e | e
          · rw [e] at i4 hnf ⊢; rw [need_nil] at i4 hnf; simp; omega
          · have h9 := (hdr_eq hfl e).1
            rw [h9, need_header _ _ hv.2] at i4 hnf
            rw [e]; omega
        have hgot : s.got < s.sent := by omega
        obtain ⟨b, hb⟩ : ∃ b, (stream P T)[s.got]? = some b := by
          have : s.got < (stream P T).length := by omega
          exact ⟨_, List.getElem?_eq_getElem this⟩
        exact hstuck _ (.raw hf h.reader (by omega) hgot hb)
    · exfalso
      cases hst : s.starved with
      | true =>
        obtain ⟨h1, h2, h3⟩ := h.starved hst
        have hA : (packets A).length ≤ s.delivered.length := Nat.le_of_lt h.begun
        have hsp : P = A ++ (ph :: Q) := by rw [h.split]; simp
        have hge := allowed_ge A (ph :: Q) T _ hA
        rw [← hsp, allowed] at hge
        have hph : (bytes A).length + (bytes [ph]).length ≤ allowed P T s.delivered.length := by
          rw [hge]; split <;> omega
        have hstr : (stream P T).length = (bytes A).length + (bytes [ph]).length + (stream Q T).length := by
          rw [h.split]; simp only [stream, bytes_append, List.length_append]; omega
        have hlenf := congrArg List.length h.flow
        rw [h1, List.nil_append, List.length_append, List.length_drop] at hlenf
        have ho : 0 < o.length := List.length_pos_iff.mpr h2
        have hgot : s.got < s.sent := by omega
        exact hstuck _ (.receive (n := 1) hf h.reader hst (by decide) hgot)
      | false =>
        by_cases ha : s.acc.length < need s.hdr
        · obtain ⟨_, x', k, out, r, hcall⟩ := h.no_fail hU (cap := need s.hdr - s.acc.length) (by omega)
          by_cases hr : r = 0
          · subst hr
            by_cases hk : k < inp.length
            · exact hstuck _ (.trailing hf h.reader hst ha hcall hk)
            · by_cases h0 : (s.acc ++ out).length = 0 ∨ (s.acc ++ out).length = need s.hdr
              · exact hstuck _ (.ends hf h.reader hst ha hcall hk h0)
              · obtain ⟨_, _, h3, _⟩ := h.call hU (by omega) hcall
                have : (s.acc ++ out).length ≤ need s.hdr := by rw [List.length_append]; omega
                exact hstuck _ (.inside hf h.reader hst ha hcall hk (by omega) (by omega))
          · exact hstuck _ (.more hf h.reader hst ha hcall hr)
        · have hn : s.acc.length = need s.hdr := by omega
          rcases i3 with e | e
          · have h1 := h.data
            rw [← List.append_nil (encAll ps)] at h1
            obtain ⟨p, l', hl⟩ := head_of h1 (fun _ => rfl) (by
              intro he
              have : s.acc.length = 0 := by rw [(List.append_eq_nil_iff.mp he).2]; rfl
              rw [e, need_nil] at hn; omega)
            rw [hl] at h1
            exact full p l' _ _ h1 (h.packed p (by rw [hl]; exact List.mem_cons_self ..)).valid hn
          · obtain ⟨a, b, c, d, h4⟩ := len4 e
            exact hstuck _ (.payload hf h4 hn)

/-- **C194** is false of the code: if the decompressor has read beyond the end of the frame when all packets of the part have been
delivered, nothing is ever delivered again. -/
theorem C194_read_too_far_violated {P : List Phase} {T : List Packet} {s t : State U} (hU : Stops U) (hS : Session K P T) (h : Reach P T s)
    {j : Nat} (hj : j < P.length) (hr : s.reader ≠ none) (hd : s.delivered = sentPackets (P.take (j + 1)) [])
    (hg : (bytes (P.take (j + 1))).length < s.got) (ht : Steps P T s t) : t.delivered = s.delivered := by
  -- in a part, beyond its frame, with nothing left of it
  have far : ∀ u : State U, Inv P T u → u.failed = false → u.reader ≠ none → u.delivered = packets (P.take (j + 1)) →
      (bytes (P.take (j + 1))).length < u.got → ∃ A ph Q x inp o d, Dec P T u A ph Q [] x inp o d ∧ o.length < inp.length := by
    intro u hi hf hr hd hg
    rcases hi.mode hf with ⟨A, Q, pl, h1⟩ | ⟨A, ph, Q, ps, x, inp, o, d, h1⟩
    · exact absurd h1.reader hr
    · have hlenP : (packets (P.take (j + 1))).length = u.delivered.length := by rw [hd]
      have hsplit : P = P.take (j + 1) ++ P.drop (j + 1) := (List.take_append_drop _ _).symm
      have hlen : (P.take (j + 1)).length = (A ++ [ph]).length := by
        have hb := h1.begun
        have ho := congrArg List.length h1.order
        rw [List.length_append] at ho
        rcases Nat.lt_trichotomy (P.take (j + 1)).length (A ++ [ph]).length with hlt | he | hgt
        · exfalso
          have hp : P.take (j + 1) <+: A := by
            have h2 : P.take (j + 1) <+: (A ++ [ph]) ++ Q := by rw [← h1.split]; exact List.take_prefix _ _
            have h3 : A <+: (A ++ [ph]) ++ Q := ⟨[ph] ++ Q, by simp⟩
            exact List.prefix_of_prefix_length_le h2 h3 (by simp at hlt ⊢; omega)
          obtain ⟨w, hw⟩ := hp
          rw [← hw, packets_append, List.length_append] at hb
          omega
        · exact he
        · exfalso
          have hp : A ++ [ph] <+: P.take (j + 1) := by
            have h2 : P.take (j + 1) <+: P := List.take_prefix _ _
            have h3 : A ++ [ph] <+: P := ⟨Q, h1.split.symm⟩
            exact List.prefix_of_prefix_length_le h3 h2 (by omega)
          obtain ⟨w, hw⟩ := hp
          cases w with
          | nil => rw [List.append_nil] at hw; rw [hw] at hgt; omega
          | cons q w =>
            rw [← hw, packets_append, List.length_append] at hlenP
            simp only [packets, List.length_append, List.length_singleton] at hlenP
            omega
      have hA : P.take (j + 1) = A ++ [ph] := by
        have h2 : P.take (j + 1) <+: P := List.take_prefix _ _
        have h3 : A ++ [ph] <+: P := ⟨Q, h1.split.symm⟩
        exact (List.prefix_of_prefix_length_le h2 h3 (by omega)).eq_of_length hlen
      have hps : ps = [] := by
        have ho := h1.order
        rw [hd, hA] at ho
        have := congrArg List.length ho
        rw [List.length_append] at this
        exact List.eq_nil_of_length_eq_zero (by omega)
      subst hps
      refine ⟨A, ph, Q, x, inp, o, d, h1, ?_⟩
      have hstr : (stream P T).length = (bytes (A ++ [ph])).length + (stream Q T).length := by
        rw [h1.split]; simp only [stream, bytes_append, List.length_append]; omega
      have hlenf := congrArg List.length h1.flow
      simp only [List.length_append, List.length_drop] at hlenf
      rw [hA] at hg
      have := hi.got; have := hi.sent; have := allowed_le P T u.delivered.length
      omega
  rw [sentPackets_eq, List.append_nil] at hd
  suffices hx : Inv P T t ∧ t.delivered = s.delivered ∧ (t.failed = true ∨ (t.reader ≠ none ∧ (bytes (P.take (j + 1))).length < t.got)) from
    hx.2.1
  induction ht with
  | refl => exact ⟨h.inv hU hS, rfl, .inr ⟨hr, hg⟩⟩
  | @step u v _ hs ih =>
    obtain ⟨hi, h1, h2⟩ := ih
    refine ⟨hi.step hU hS hs, ?_⟩
    cases hf : u.failed with
    | true => cases hs <;> simp_all
    | false =>
      have h3 := h2.resolve_left (by rw [hf]; decide)
      obtain ⟨A, ph, Q, x, inp, o, d, hD, hlt⟩ := far u hi hf h3.1 (h1.trans hd) h3.2
      have hdat := hD.data
      simp only [encAll_nil, List.append_eq_nil_iff] at hdat
      obtain ⟨⟨hh, ha⟩, hd0⟩ := hdat
      cases hs with
      | send => exact ⟨h1, .inr h3⟩
      | raw _ hr' => exact absurd hr' h3.1
      | receive _ hr' hst =>
        exfalso
        rw [(hD.starved hst).1] at hlt
        simp at hlt
      | bad => exact ⟨h1, .inl rfl⟩
      | trailing => exact ⟨h1, .inl rfl⟩
      | inside => exact ⟨h1, .inl rfl⟩
      | badHeader => exact ⟨h1, .inl rfl⟩
      | @ends x1 inp1 x2 k out _ hr' hst hacc hcall hk _ =>
        exfalso
        rw [hD.reader] at hr'
        injection hr' with hr'; injection hr' with hx hin; subst hx; subst hin
        have := ((hD.call hU (by omega) hcall).2.2.2.2.1 rfl).1
        omega
      | @more x1 inp1 x2 k out r _ hr' hst hacc hcall hr0 =>
        exfalso
        rw [hD.reader] at hr'
        injection hr' with hr'; injection hr' with hx hin; subst hx; subst hin
        obtain ⟨c1, c2, c3, c4, _, c5⟩ := hD.call hU (by omega) hcall
        obtain ⟨_, c6, _⟩ := c5 hr0
        have hout : out.length = 0 := by
          have := c4.length_le; rw [hd0] at this; simpa using this
        rcases c6 with e | e <;> omega
      | header _ _ hacc => rw [ha] at hacc; exact nomatch hacc
      | payload _ hh' => rw [hh] at hh'; exact nomatch hh'

/-! ## Examples -/

open Verif.Threads.Zstd (toy)

/-- A decompressor for the toy codec of C49 (each byte becomes two, a zero ends the frame) that leaves bytes behind the end of the frame
alone: (a byte is pending, bytes consumed, output, 0 at the end of the frame). -/
def unpack : Bool → Bytes → Nat → Bool × Nat × Bytes × Nat
  | b, _, 0 => (b, 0, [], 1)
  | b, [], _ + 1 => (b, 0, [], 1)
  | true, y :: i, n + 1 => ((unpack false i n).1, (unpack false i n).2.1 + 1, y :: (unpack false i n).2.2.1, (unpack false i n).2.2.2)
  | false, y :: i, n + 1 =>
    if y = 0 then (false, 1, [], 0)
    else ((unpack true i (n + 1)).1, (unpack true i (n + 1)).2.1 + 1, (unpack true i (n + 1)).2.2.1, (unpack true i (n + 1)).2.2.2)

/-- What is left of a frame. -/
def left : Bool → Bytes → Bytes → Prop
  | false, o, d => o = Verif.Threads.Zstd.enc d ++ [0]
  | true, o, d => ∃ y d', d = y :: d' ∧ o = y :: (Verif.Threads.Zstd.enc d' ++ [0])

theorem unpack_zero (b : Bool) (i : Bytes) : unpack b i 0 = (b, 0, [], 1) := by cases i <;> cases b <;> rfl
theorem unpack_nil (b : Bool) (n : Nat) : unpack b [] (n + 1) = (b, 0, [], 1) := by cases b <;> rfl
theorem unpack_true (y : UInt8) (i : Bytes) (n : Nat) : unpack true (y :: i) (n + 1) =
    ((unpack false i n).1, (unpack false i n).2.1 + 1, y :: (unpack false i n).2.2.1, (unpack false i n).2.2.2) := by
  conv => lhs; unfold unpack
theorem unpack_one (i : Bytes) (n : Nat) : unpack false (1 :: i) (n + 1) =
    ((unpack true i (n + 1)).1, (unpack true i (n + 1)).2.1 + 1, (unpack true i (n + 1)).2.2.1, (unpack true i (n + 1)).2.2.2) := by
  conv => lhs; unfold unpack
  rfl
theorem unpack_end (i : Bytes) (n : Nat) : unpack false (0 :: i) (n + 1) = (false, 1, [], 0) := by
  unfold unpack; rfl

/-- What holds of one call. -/
structure Good (o d inp : Bytes) (cap : Nat) (r : Bool × Nat × Bytes × Nat) : Prop where
  k : r.2.1 ≤ inp.length
  room : r.2.2.1.length ≤ cap
  out : r.2.2.1 <+: d
  done : r.2.2.2 = 0 → r.2.1 = o.length ∧ r.2.2.1 = d
  on : r.2.2.2 ≠ 0 → left r.1 (o.drop r.2.1) (d.drop r.2.2.1.length)
  greedy : r.2.2.2 ≠ 0 → r.2.1 = inp.length ∨ r.2.2.1.length = cap
  complete : r.2.1 = o.length → r.2.2.1.length < cap → r.2.2.2 = 0

theorem good_stop {b : Bool} {o d inp : Bytes} {cap : Nat} (h : left b o d) (hs : inp = [] ∨ cap = 0) : Good o d inp cap (b, 0, [], 1) := by
  have ho : 0 < o.length := by
    cases b with
    | false => rw [show o = _ from h]; simp
    | true => obtain ⟨y, d', _, rfl⟩ := h; simp
  refine ⟨Nat.zero_le _, Nat.zero_le _, List.nil_prefix, fun e => absurd e (by simp), fun _ => by simpa using h, fun _ => ?_, fun e => ?_⟩
  · rcases hs with rfl | rfl
    · exact .inl rfl
    · exact .inr rfl
  · have : 0 = o.length := e
    omega

theorem unpack_good : ∀ (d : Bytes) (b : Bool) (o inp : Bytes) (cap : Nat), left b o d → inp <+: o → Good o d inp cap (unpack b inp cap) := by
  have half : ∀ (y : UInt8) (d : Bytes), (∀ (o inp : Bytes) (cap : Nat), left false o d → inp <+: o → Good o d inp cap (unpack false inp cap)) →
      ∀ (inp : Bytes) (cap : Nat), inp <+: y :: (Verif.Threads.Zstd.enc d ++ [0]) →
      Good (y :: (Verif.Threads.Zstd.enc d ++ [0])) (y :: d) inp cap (unpack true inp cap) := by
    intro y d ih inp cap hp
    have hl : left true (y :: (Verif.Threads.Zstd.enc d ++ [0])) (y :: d) := ⟨y, d, rfl, rfl⟩
    cases cap with
    | zero => rw [unpack_zero]; exact good_stop hl (.inr rfl)
    | succ n =>
      cases inp with
      | nil => rw [unpack_nil]; exact good_stop hl (.inl rfl)
      | cons z i =>
        obtain ⟨rfl, hp'⟩ := List.cons_prefix_cons.mp hp
        have g := ih _ i n rfl hp'
        rw [unpack_true]
        refine ⟨Nat.succ_le_succ g.k, Nat.succ_le_succ g.room, List.cons_prefix_cons.mpr ⟨rfl, g.out⟩, fun e => ?_, fun e => ?_, fun e => ?_,
          fun e h => ?_⟩
        · obtain ⟨h1, h2⟩ := g.done e
          exact ⟨congrArg (· + 1) h1, congrArg (z :: ·) h2⟩
        · exact g.on e
        · rcases g.greedy e with h | h
          · exact .inl (congrArg (· + 1) h)
          · exact .inr (congrArg (· + 1) h)
        · exact g.complete (Nat.succ.inj e) (Nat.lt_of_succ_lt_succ h)
  intro d
  induction d with
  | nil =>
    intro b o inp cap hl hp
    cases b with
    | true => obtain ⟨y, d', h, _⟩ := hl; exact nomatch h
    | false =>
      have ho : o = [0] := hl
      subst ho
      cases cap with
      | zero => rw [unpack_zero]; exact good_stop hl (.inr rfl)
      | succ n =>
        cases inp with
        | nil => rw [unpack_nil]; exact good_stop hl (.inl rfl)
        | cons z i =>
          obtain ⟨rfl, hp'⟩ := List.cons_prefix_cons.mp hp
          rw [unpack_end]
          exact ⟨by simp, by simp, by simp, fun _ => ⟨rfl, rfl⟩, fun e => absurd rfl e, fun e => absurd rfl e, fun _ _ => rfl⟩
  | cons y d ih =>
    have ht := half y d (ih false)
    intro b o inp cap hl hp
    cases b with
    | true =>
      obtain ⟨y', d', h, rfl⟩ := hl
      injection h with h1 h2; subst h1; subst h2
      exact ht inp cap hp
    | false =>
      have ho : o = 1 :: (y :: (Verif.Threads.Zstd.enc d ++ [0])) := hl
      subst ho
      cases cap with
      | zero => rw [unpack_zero]; exact good_stop hl (.inr rfl)
      | succ n =>
        cases inp with
        | nil => rw [unpack_nil]; exact good_stop hl (.inl rfl)
        | cons z i =>
          obtain ⟨rfl, hp'⟩ := List.cons_prefix_cons.mp hp
          have g := ht i (n + 1) hp'
          rw [unpack_one]
          refine ⟨Nat.succ_le_succ g.k, g.room, g.out, fun e => ?_, fun e => ?_, fun e => ?_, fun e h => ?_⟩
          · obtain ⟨h1, h2⟩ := g.done e
            exact ⟨congrArg (· + 1) h1, h2⟩
          · exact g.on e
          · rcases g.greedy e with h | h
            · exact .inl (congrArg (· + 1) h)
            · exact .inr h
          · exact g.complete (Nat.succ.inj e) h

/-- Bytes behind the end of the frame make no difference. -/
theorem unpack_append : ∀ (d : Bytes) (b : Bool) (o w : Bytes) (cap : Nat), left b o d → unpack b (o ++ w) cap = unpack b o cap := by
  have half : ∀ (y : UInt8) (d w : Bytes) (cap : Nat),
      (∀ cap, unpack false (Verif.Threads.Zstd.enc d ++ [0] ++ w) cap = unpack false (Verif.Threads.Zstd.enc d ++ [0]) cap) →
      unpack true (y :: (Verif.Threads.Zstd.enc d ++ [0]) ++ w) cap = unpack true (y :: (Verif.Threads.Zstd.enc d ++ [0])) cap := by
    intro y d w cap ih
    cases cap with
    | zero => rw [unpack_zero, unpack_zero]
    | succ n => rw [List.cons_append, unpack_true, unpack_true, ih]
  intro d
  induction d with
  | nil =>
    intro b o w cap hl
    cases b with
    | true => obtain ⟨y, d', h, _⟩ := hl; exact nomatch h
    | false =>
      have ho : o = [0] := hl
      subst ho
      cases cap with
      | zero => rw [unpack_zero, unpack_zero]
      | succ n => rw [List.cons_append, unpack_end, unpack_end]
  | cons y d ih =>
    intro b o w cap hl
    have ht := fun cap => half y d w cap (fun c => ih false _ w c rfl)
    cases b with
    | true =>
      obtain ⟨y', d', h, rfl⟩ := hl
      injection h with h1 h2; subst h1; subst h2
      exact ht cap
    | false =>
      have ho : o = 1 :: (y :: (Verif.Threads.Zstd.enc d ++ [0])) := hl
      subst ho
      cases cap with
      | zero => rw [unpack_zero, unpack_zero]
      | succ n => rw [List.cons_append, unpack_one, unpack_one, ht]

/-- The promises of zstd can be kept. -/
def tight : Decoder toy where
  D := Bool
  init := false
  call := fun x inp cap x' k out r => unpack x inp cap = (x', k, out, r)
  fails := fun _ _ _ => False
  inside := left
  inside_init := fun h => h
  no_fail := fun _ _ _ => ⟨fun h => h, _, _, _, _, rfl⟩
  bounds := by
    intro x o d inp cap x' k out r hi hp _ hc
    have g := unpack_good d x o inp cap hi hp
    rw [hc] at g
    exact ⟨g.k, g.room, g.out⟩
  done := by
    intro x o d inp cap x' k out hi hp _ hc
    have g := unpack_good d x o inp cap hi hp
    rw [hc] at g
    exact g.done rfl
  goes_on := by
    intro x o d inp cap x' k out r hi hp _ hc
    have g := unpack_good d x o inp cap hi hp
    rw [hc] at g
    exact g.on
  greedy := by
    intro x o d inp cap x' k out r hi hp _ hc
    have g := unpack_good d x o inp cap hi hp
    rw [hc] at g
    exact g.greedy
  complete := by
    intro x o d inp cap x' k out r hi hp _ hc
    have g := unpack_good d x o inp cap hi hp
    rw [hc] at g
    exact g.complete

theorem tight_stops : Stops tight where
  call := by
    rintro x o d inp cap x' k out r hi ⟨w, rfl⟩ _ hc
    exact (unpack_append d x o w cap hi).symm.trans hc
  back := by
    rintro x o d inp cap x' k out r hi ⟨w, rfl⟩ _ hc
    exact (unpack_append d x o w cap hi).trans hc
  fails := fun _ _ _ h => h

theorem tight_call {x x' : Bool} {inp out : Bytes} {cap k r : Nat} (h : unpack x inp cap = (x', k, out, r)) :
    tight.call x inp cap x' k out r := h

/-- After an error nothing is delivered. -/
theorem Steps.failed {P : List Phase} {T : List Packet} {s t : State U} (h : Steps P T s t) (hf : s.failed = true) :
    t.failed = true ∧ t.delivered = s.delivered := by
  induction h with
  | refl => exact ⟨hf, rfl⟩
  | step _ hs ih => obtain ⟨h1, h2⟩ := ih; cases hs <;> simp_all

/-- A session: one empty packet compressed, one packet after that. -/
def exP : List Phase := [⟨[], [⟨4, []⟩], [1, 4, 1, 0, 1, 0, 1, 0, 0]⟩]
def exT : List Packet := [⟨5, [9]⟩]

theorem ex_session : Session toy exP exT where
  plain := by
    intro ph hph p hp
    simp only [exP, List.mem_singleton] at hph; subst hph
    exact nomatch hp
  packed := by
    intro ph hph p hp
    simp only [exP, List.mem_singleton] at hph; subst hph
    simp only [List.mem_singleton] at hp; subst hp
    exact ⟨⟨by decide, by decide⟩, by decide⟩
  frame := by
    intro ph hph
    simp only [exP, List.mem_singleton] at hph; subst hph
    rfl
  last := by
    intro p hp
    simp only [exT, List.mem_singleton] at hp; subst hp
    exact ⟨⟨by decide, by decide⟩, by decide⟩

theorem ex_stream : stream exP exT = [3, 0, 0, 0, 1, 4, 1, 0, 1, 0, 1, 0, 0, 5, 1, 0, 0, 9] := by decide +kernel

/-- The last data byte of the frame has been read and the packet has been delivered, but not the end of the frame; the client goes on. -/
theorem ex_run : Reach exP exT (⟨18, 12, some (false, []), true, [], [], [⟨3, []⟩, ⟨4, []⟩], false⟩ : State tight) := by
  have h0 : Reach exP exT ({} : State tight) := .refl
  have h1 := Steps.step h0 (.send (m := 13) (by decide) (by decide +kernel))
  have h2 := Steps.step h1 (.raw (b := 3) rfl rfl (by decide) (by decide) (by rw [ex_stream]; rfl))
  have h3 := Steps.step h2 (.raw (b := 0) rfl rfl (by decide) (by decide) (by rw [ex_stream]; rfl))
  have h4 := Steps.step h3 (.raw (b := 0) rfl rfl (by decide) (by decide) (by rw [ex_stream]; rfl))
  have h5 := Steps.step h4 (.raw (b := 0) rfl rfl (by decide) (by decide) (by rw [ex_stream]; rfl))
  have h6 := Steps.step h5 (.header (t := 3) (a := 0) (b := 0) (c := 0) rfl rfl rfl (by decide) (by decide))
  have h7 := Steps.step h6 (.payload (t := 3) (a := 0) (b := 0) (c := 0) rfl rfl (by decide))
  have h7 : Reach exP exT (⟨13, 4, some (false, []), false, [], [], [⟨3, []⟩], false⟩ : State tight) := h7
  have h8 := Steps.step h7 (.more (x' := false) (k := 0) (out := []) (r := 1) rfl rfl rfl (by decide) (tight_call rfl) (by decide))
  have h8 : Reach exP exT (⟨13, 4, some (false, []), true, [], [], [⟨3, []⟩], false⟩ : State tight) := h8
  have h9 := Steps.step h8 (.receive (n := 8) rfl rfl rfl (by decide) (by decide))
  rw [ex_stream] at h9
  have h9 : Reach exP exT (⟨13, 12, some (false, [1, 4, 1, 0, 1, 0, 1, 0]), false, [], [], [⟨3, []⟩], false⟩ : State tight) := h9
  have h10 := Steps.step h9 (.more (x' := false) (k := 8) (out := [4, 0, 0, 0]) (r := 1) rfl rfl rfl (by decide) (tight_call rfl) (by decide))
  have h10 : Reach exP exT (⟨13, 12, some (false, []), false, [], [4, 0, 0, 0], [⟨3, []⟩], false⟩ : State tight) := h10
  have h11 := Steps.step h10 (.header (t := 4) (a := 0) (b := 0) (c := 0) rfl rfl rfl (by decide) (by decide))
  have h12 := Steps.step h11 (.payload (t := 4) (a := 0) (b := 0) (c := 0) rfl rfl (by decide))
  have h12 : Reach exP exT (⟨13, 12, some (false, []), false, [], [], [⟨3, []⟩, ⟨4, []⟩], false⟩ : State tight) := h12
  have h13 := Steps.step h12 (.send (m := 18) (by decide) (by decide +kernel))
  have h13 : Reach exP exT (⟨18, 12, some (false, []), false, [], [], [⟨3, []⟩, ⟨4, []⟩], false⟩ : State tight) := h13
  exact Steps.step h13 (.more (x' := false) (k := 0) (out := []) (r := 1) rfl rfl rfl (by decide) (tight_call rfl) (by decide))

/-- The hypotheses of **C193** are met by a run that delivers everything across the end of the frame. -/
theorem example_switch : ∃ s : State tight, Reach exP exT s ∧ s.failed = false ∧ s.delivered = sentPackets exP exT := by
  have h1 := Steps.step ex_run (.receive (n := 1) rfl rfl rfl (by decide) (by decide))
  rw [ex_stream] at h1
  have h1 : Reach exP exT (⟨18, 13, some (false, [0]), false, [], [], [⟨3, []⟩, ⟨4, []⟩], false⟩ : State tight) := h1
  have h2 := Steps.step h1 (.ends (x' := false) (k := 1) (out := []) rfl rfl rfl (by decide) (tight_call rfl) (by decide) (.inl rfl))
  have h3 := Steps.step h2 (.raw (b := 5) rfl rfl (by decide) (by decide) (by rw [ex_stream]; rfl))
  have h4 := Steps.step h3 (.raw (b := 1) rfl rfl (by decide) (by decide) (by rw [ex_stream]; rfl))
  have h5 := Steps.step h4 (.raw (b := 0) rfl rfl (by decide) (by decide) (by rw [ex_stream]; rfl))
  have h6 := Steps.step h5 (.raw (b := 0) rfl rfl (by decide) (by decide) (by rw [ex_stream]; rfl))
  have h7 := Steps.step h6 (.header (t := 5) (a := 1) (b := 0) (c := 0) rfl rfl rfl (by decide) (by decide))
  have h8 := Steps.step h7 (.raw (b := 9) rfl rfl (by decide) (by decide) (by rw [ex_stream]; rfl))
  have h9 := Steps.step h8 (.payload (t := 5) (a := 1) (b := 0) (c := 0) rfl rfl (by decide))
  exact ⟨_, h9, rfl, rfl⟩

/-- The hypotheses of `C194_read_too_far_violated` are met. -/
theorem example_too_far : ∃ s : State tight, Reach exP exT s ∧ s.reader ≠ none ∧ s.delivered = sentPackets (exP.take 1) [] ∧
    (bytes (exP.take 1)).length < s.got := by
  have h1 := Steps.step ex_run (.receive (n := 2) rfl rfl rfl (by decide) (by decide))
  exact ⟨_, h1, (fun e => nomatch e), rfl, by decide +kernel⟩

/-- **C194** is false of the code: this session, with a client that waits for the answer, ends in an error, and nothing more is ever
delivered, when the end of the frame and the bytes after it arrive together after the last packet of the frame. -/
theorem C194_answered_too_early_violated : ∃ s : State tight, Session toy exP exT ∧ Reach exP exT s ∧ s.failed = true ∧
    s.delivered ≠ sentPackets exP exT ∧ ∀ t, Steps exP exT s t → t.delivered = s.delivered := by
  have h1 := Steps.step ex_run (.receive (n := 2) rfl rfl rfl (by decide) (by decide))
  rw [ex_stream] at h1
  have h1 : Reach exP exT (⟨18, 14, some (false, [0, 5]), false, [], [], [⟨3, []⟩, ⟨4, []⟩], false⟩ : State tight) := h1
  have h2 := Steps.step h1 (.trailing (x' := false) (k := 1) (out := []) rfl rfl rfl (by decide) (tight_call rfl) (by decide))
  refine ⟨_, ex_session, h2, rfl, ?_, fun t ht => ?_⟩
  · intro e
    have := congrArg List.length e
    exact absurd this (by decide)
  · exact (ht.failed rfl).2

end Verif.Pump.Switch
