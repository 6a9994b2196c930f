/-!
# Model of the message pump (`cdc_rsync/base/message_pump.cc`)

Part 1: packet framing, a pure function on bytes.
Part 2: one direction of a connection, from the application threads that queue packets on side A to
the application threads that dequeue them on side B, as a transition system. Each `Act` is one atomic
step of one thread (a critical section, or the transfer of some bytes by a blocking socket call);
a schedule is any list of `Act`s.
-/
namespace Verif.Pump

abbrev Bytes := List UInt8

/-! ## Framing -/

/-- `MessagePump::Packet`, message_pump.h:196-211. `type` is the byte on the wire. -/
structure Packet where
  type : UInt8
  data : Bytes
deriving DecidableEq, Repr

/-- `kMaxPacketSize`, message_pump.cc:36. -/
def maxPacketSize : Nat := 256 * 256 * 256 - 1

/-- `kHeaderSize`, message_pump.cc:33. -/
def headerSize : Nat := 4

/-- `PacketType::kCount`, message_pump.h:40-103. -/
def kCount : UInt8 := 12

/-- The header bytes, message_pump.cc:53-57. -/
def header (type : UInt8) (size : Nat) : Bytes :=
  [type, UInt8.ofNat (size &&& 0xFF), UInt8.ofNat ((size >>> 8) &&& 0xFF),
    UInt8.ofNat ((size >>> 16) &&& 0xFF)]

/-- `CreateSerializedPacket` followed by appending the payload, message_pump.cc:39-59 and 133-163.
`none` is the error "Max packet size exceeded". Failing protobuf serialisation is not modelled. -/
def serialize (p : Packet) : Option Bytes :=
  if p.data.length > maxPacketSize then none
  else some (header p.type p.data.length ++ p.data)

/-- What the receiver can tell about the bytes received so far. -/
inductive Parse where
  /-- more bytes are needed -/
  | more
  /-- the packet is rejected -/
  | bad
  /-- a complete packet and the bytes after it -/
  | done (p : Packet) (rest : Bytes)
deriving DecidableEq, Repr

/-- The size field, message_pump.cc:291-293. -/
def headerPayloadSize (s0 s1 s2 : UInt8) : Nat :=
  s0.toNat ||| (s1.toNat <<< 8) ||| (s2.toNat <<< 16)

/-- `ThreadDoReceivePacket`, message_pump.cc:279-315, as a function of the bytes available: the
header is checked as soon as its four bytes are there. -/
def parse : Bytes → Parse
  | t :: s0 :: s1 :: s2 :: rest =>
    if kCount ≤ t then .bad
    else
      let n := headerPayloadSize s0 s1 s2
      if n > maxPacketSize then .bad
      else if rest.length < n then .more
      else .done ⟨t, rest.take n⟩ (rest.drop n)
  | _ => .more

/-- Why a receive loop stopped. -/
inductive Stop where
  /-- the stream ended (`Socket::Receive` fails) -/
  | endOfStream
  /-- a packet was rejected -/
  | rejected
deriving DecidableEq, Repr

theorem parse_rest_lt {b : Bytes} {p : Packet} {r : Bytes} (h : parse b = .done p r) :
    r.length < b.length := by
  unfold parse at h
  split at h
  · dsimp only at h
    split at h
    · cases h
    · split at h
      · cases h
      · split at h
        · cases h
        · cases h; simp; omega
  · cases h

/-- `ThreadReceiverMain` (message_pump.cc:434-471) run on a whole byte stream: the packets received
and why it stopped. -/
def receiveAll (stream : Bytes) : List Packet × Stop :=
  match h : parse stream with
  | .more => ([], .endOfStream)
  | .bad => ([], .rejected)
  | .done p rest =>
    have := parse_rest_lt h
    let r := receiveAll rest
    (p :: r.1, r.2)
termination_by stream.length

/-- `MessagePump::ReceiveMessage` / `ReceiveRawData`, message_pump.cc:216-251, on the queue of
incoming packets: the packet is consumed even when its type is not the expected one, and then no
data is returned. Protobuf parsing is left to the caller. -/
def receiveTyped (expected : UInt8) : List Packet → Option Bytes × List Packet
  | [] => (none, [])
  | p :: q => (if p.type = expected then some p.data else none, q)

/-! ## Threads -/

/-- What the sender thread of side A does, message_pump.cc:394-432. -/
inductive Sender where
  /-- at the top of the loop -/
  | idle
  /-- has popped a packet (line 412) but not yet looked at `receive_error_`; `mode` is a ghost: the
  output mode when the packet was queued -/
  | popped (pkt : Bytes) (mode : Nat)
  /-- inside `socket_->Send` or the output handler with `rest` still to be handed over; `size` is
  the size of the whole packet -/
  | sending (rest : Bytes) (size : Nat)
  /-- has left the loop -/
  | exited
deriving DecidableEq, Repr

/-- What the receiver thread of side B does, message_pump.cc:434-471. -/
inductive Receiver where
  /-- at the top of the loop, waiting for queue space -/
  | waiting
  /-- in `ThreadDoReceivePacket`, with the bytes of the current packet received so far -/
  | reading (got : Bytes)
  | exited
deriving DecidableEq, Repr

/-- One direction of a connection. Fields marked ghost do not influence any step. -/
structure State where
  /-- ghost: packets accepted by `QueuePacket`, in order -/
  queued : List Packet := []
  /-- `outgoing_packets_`, with the ghost output mode at queueing time -/
  outQ : List (Bytes × Nat) := []
  /-- `outgoing_packets_byte_size_` -/
  outBytes : Nat := 0
  sender : Sender := .idle
  /-- A's `send_error_` -/
  sendErr : Bool := false
  /-- A's `receive_error_` -/
  aRecvErr : Bool := false
  /-- A's `shutdown_` -/
  aShutdown : Bool := false
  /-- which `output_handler_` is installed -/
  mode : Nat := 0
  /-- ghost: (mode when queued, mode when handed over) of every packet handed over -/
  modes : List (Nat × Nat) := []
  /-- ghost: all bytes ever handed to the output -/
  output : Bytes := []
  /-- bytes in the network -/
  wire : Bytes := []
  /-- the network stopped carrying new bytes -/
  broken : Bool := false
  /-- ghost: all bytes the receiver thread got from the network -/
  arrived : Bytes := []
  receiver : Receiver := .waiting
  /-- `incoming_packets_` -/
  inQ : List Packet := []
  /-- `incoming_packets_byte_size_` -/
  inBytes : Nat := 0
  /-- B's `receive_error_` -/
  recvErr : Bool := false
  /-- B's `send_error_` -/
  bSendErr : Bool := false
  /-- B's `shutdown_` -/
  bShutdown : Bool := false
  /-- packets returned by `DequeuePacket`, in order -/
  delivered : List Packet := []
deriving Repr

/-- Atomic steps. -/
inductive Act where
  /-- some application thread on A completes `SendRawData`/`SendMessage` -/
  | enqueue (p : Packet)
  /-- A: `RedirectOutput` -/
  | redirect (mode : Nat)
  /-- A: `StopMessagePump` up to setting the flag -/
  | stopA
  /-- sender thread: pops a packet, or leaves on shutdown -/
  | pop
  /-- sender thread: enters `ThreadDoSendPacket` -/
  | begin
  /-- sender thread: the next `n` bytes are handed over -/
  | push (n : Nat)
  /-- sender thread: `ThreadDoSendPacket` returns OK and the counter is decremented -/
  | finish
  /-- sender thread: the send fails -/
  | sendFails
  /-- A's receiver thread fails -/
  | aRecvFails
  /-- the network drops everything but the first `n` bytes in flight and all later bytes -/
  | breakWire (n : Nat)
  /-- receiver thread: passes the gate, or leaves on shutdown -/
  | gate
  /-- receiver thread: gets the next byte -/
  | recvByte
  /-- receiver thread: completes (or rejects) the current packet -/
  | complete
  /-- receiver thread: `Socket::Receive` fails -/
  | recvFails
  /-- B's sender thread fails -/
  | bSendFails
  | stopB
  /-- some application thread on B completes `DequeuePacket` successfully -/
  | dequeue
deriving Repr

/-- Waking condition of `FlushOutgoingQueue`, message_pump.cc:358-364. -/
def State.flushReturns (s : State) : Bool :=
  s.outBytes == 0 || s.sendErr || s.aRecvErr

/-- Waking condition of `QueuePacket`, message_pump.cc:168-172. -/
def State.queueReturns (limit : Nat) (s : State) : Bool :=
  decide (s.outBytes < limit) || s.sendErr || s.aRecvErr

/-- Waking condition of `DequeuePacket`, message_pump.cc:256-259. -/
def State.dequeueReturns (s : State) : Bool :=
  !s.inQ.isEmpty || s.bSendErr || s.recvErr

/-- `DequeuePacket` returns an error, message_pump.cc:264. -/
def State.dequeueFails (s : State) : Bool :=
  s.bSendErr || (s.recvErr && s.inQ.isEmpty)

/-- One step; `none` when the step is not enabled. `limit` is `kInOutBufferSize`
(message_pump.cc:30, 8 MiB; the tests change it). -/
def step (limit : Nat) (s : State) : Act → Option State
  -- QueuePacket, message_pump.cc:165-187; a refused packet changes nothing.
  | .enqueue p =>
    match serialize p with
    | none => none
    | some b =>
      if decide (s.outBytes < limit) && !s.sendErr && !s.aRecvErr && decide (p.type < kCount) then
        some { s with queued := s.queued ++ [p], outBytes := s.outBytes + b.length,
                      outQ := s.outQ ++ [(b, s.mode)] }
      else none
  -- RedirectOutput, message_pump.cc:378-381. Flush and assignment are one step: the header
  -- (message_pump.h:179-180) requires that no other thread sends meanwhile.
  | .redirect m => if s.flushReturns then some { s with mode := m } else none
  -- StopMessagePump, message_pump.cc:112-122.
  | .stopA => if s.flushReturns then some { s with aShutdown := true } else none
  -- ThreadSenderMain, message_pump.cc:395-413.
  | .pop =>
    match s.sender with
    | .idle =>
      if s.aShutdown then some { s with sender := .exited }
      else match s.outQ with
        | [] => none
        | (b, m) :: q => some { s with outQ := q, sender := .popped b m }
    | _ => none
  -- ThreadDoSendPacket, message_pump.cc:189-201.
  | .begin =>
    match s.sender with
    | .popped b m =>
      if s.aRecvErr then some { s with sender := .sending [] b.length }
      else some { s with sender := .sending b b.length, modes := s.modes ++ [(m, s.mode)] }
    | _ => none
  -- Socket::Send or output handler, message_pump.cc:198-204.
  | .push n =>
    match s.sender with
    | .sending rest size =>
      some { s with sender := .sending (rest.drop n) size, output := s.output ++ rest.take n,
                    wire := if s.broken then s.wire else s.wire ++ rest.take n }
    | _ => none
  -- ThreadSenderMain, message_pump.cc:428-430.
  | .finish =>
    match s.sender with
    | .sending [] size => some { s with sender := .idle, outBytes := s.outBytes - size }
    | _ => none
  -- ThreadSenderMain, message_pump.cc:417-426.
  | .sendFails =>
    match s.sender with
    | .sending _ _ => some { s with sender := .exited, sendErr := true }
    | _ => none
  -- ThreadReceiverMain on side A, message_pump.cc:451-460.
  | .aRecvFails => some { s with aRecvErr := true }
  | .breakWire n => some { s with wire := s.wire.take n, broken := true }
  -- ThreadReceiverMain, message_pump.cc:435-446.
  | .gate =>
    match s.receiver with
    | .waiting =>
      if s.bShutdown then some { s with receiver := .exited }
      else if s.inBytes < limit then some { s with receiver := .reading [] }
      else none
    | _ => none
  -- Socket::Receive without partial reads, called from ThreadDoReceivePacket.
  | .recvByte =>
    match s.receiver, s.wire with
    | .reading got, b :: w =>
      match parse got with
      | .more => some { s with receiver := .reading (got ++ [b]), wire := w, arrived := s.arrived ++ [b] }
      | _ => none
    | _, _ => none
  -- ThreadReceiverMain, message_pump.cc:450-469.
  | .complete =>
    match s.receiver with
    | .reading got =>
      match parse got with
      | .more => none
      | .bad => some { s with receiver := .exited, recvErr := true }
      | .done p _ =>
        some { s with receiver := .waiting, inQ := s.inQ ++ [p],
                      inBytes := s.inBytes + (headerSize + p.data.length) }
    | _ => none
  -- ThreadReceiverMain, message_pump.cc:451-460: the socket reports an error, which happens once
  -- the network is broken and everything still in flight was read.
  | .recvFails =>
    match s.receiver with
    | .reading got =>
      if s.broken && s.wire.isEmpty && decide (parse got = .more) then
        some { s with receiver := .exited, recvErr := true }
      else none
    | _ => none
  | .bSendFails => some { s with bSendErr := true }
  | .stopB => some { s with bShutdown := true }
  -- DequeuePacket, message_pump.cc:253-277.
  | .dequeue =>
    match s.inQ with
    | [] => none
    | p :: q =>
      if s.bSendErr then none
      else some { s with inQ := q, delivered := s.delivered ++ [p],
                         inBytes := s.inBytes - (headerSize + p.data.length) }

/-- A state some schedule leads to. -/
inductive Reachable (limit : Nat) : State → Prop where
  | init : Reachable limit {}
  | step {s s' : State} (a : Act) : Reachable limit s → step limit s a = some s' → Reachable limit s'

end Verif.Pump
