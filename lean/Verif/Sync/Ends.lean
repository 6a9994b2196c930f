import Verif.Pump.Listen

/-!
# How a sync begins and ends (C195 to C197): cdc_rsync/cdc_rsync_client.cc, cdc_rsync_server/cdc_rsync_server.cc, message_pump.cc

The client starts the server, connects to it, syncs, and both processes end: because the sync is finished, because the server fails, because
the client fails, or because the connection breaks.
-/

namespace Verif.Sync.Ends

open Verif.Pump.Listen (Client Attempt Waited waitForConnection waitLoop Accepted C177_waiting)

/-! ## The beginning -/

/-- What the end of `CdcRsyncClient::StartServer` leaves behind, cdc_rsync_client.cc:303-311, if it succeeds: the socket of the client
(`socket_`) when the message pump starts to use it, and the connections to the port of the server, in order; true: the client's end is open.
`attempts` is what the attempts to connect meet (C177). -/
def startServer (timeout : Nat) (attempts : List (Option (List Attempt) × Nat)) : Option (Client × List Bool) :=
  match waitForConnection timeout attempts with
  | (.ok, local_) => some ({}, [local_.socket.isSome])
  | _ => none

/-- The first send or receive of the client: `socket_info_->socket` (client_socket.cc:131-134, 142-153) needs a connected socket. -/
def usable (c : Client) : Bool := c.socket.isSome

/-- **C195**, the part that holds: the start succeeds only if an attempt to connect was accepted, and before the time was over. -/
theorem C195_accepted_partial (timeout : Nat) (attempts : List (Option (List Attempt) × Nat)) {r : Client × List Bool}
    (h : startServer timeout attempts = some r) :
    ∃ a x t b, attempts = a ++ (x, t) :: b ∧ Accepted x ∧ ∀ y ∈ a, ¬ Accepted y.1 ∧ y.2 ≤ timeout := by
  unfold startServer at h
  cases hw : (waitForConnection timeout attempts).1 with
  | ok => exact (C177_waiting timeout attempts).1.mp hw
  | timeout =>
    rw [show waitForConnection timeout attempts = (.timeout, (waitForConnection timeout attempts).2) from Prod.ext hw rfl] at h
    exact nomatch h
  | waiting =>
    rw [show waitForConnection timeout attempts = (.waiting, (waitForConnection timeout attempts).2) from Prod.ext hw rfl] at h
    exact nomatch h

/-- **C195** is false of the code: whenever the start succeeds, the socket the message pump uses is not connected, and the only connection the
server can accept has been closed by the client. -/
theorem C195_never_connected_violated (timeout : Nat) (attempts : List (Option (List Attempt) × Nat)) {c : Client} {conns : List Bool}
    (h : startServer timeout attempts = some (c, conns)) : usable c = false ∧ conns = [false] := by
  unfold startServer at h
  have hl := (C177_waiting timeout attempts).2.2
  rcases hw : waitForConnection timeout attempts with ⟨_ | _ | _, d⟩ <;> rw [hw] at h
  · injection h with h
    injection h with h1 h2
    subst h1
    refine ⟨rfl, ?_⟩
    rw [← h2]
    have hd : d = (waitLoop timeout attempts {}).2.disconnect := by
      unfold waitForConnection at hw
      exact (Prod.ext_iff.mp hw).2.symm
    have : d.socket = none := by
      rw [hd]; unfold Client.disconnect
      split
      · assumption
      · rfl
    rw [this]; rfl
  · exact nomatch h
  · exact nomatch h

/-- The start can succeed. -/
example : startServer 100 [(none, 0), (some [⟨some 3, true⟩], 50)] = some ({}, [false]) := rfl

/-! ## The end: model

The rest is about a client and a server that are connected, as they would be if the client connected its socket. -/

/-- Where the main thread of the client is: in `Sync` (cdc_rsync_client.cc:389-445), in `StopServer` (313-332), in `StopMessagePump`
(message_pump.cc:109-132, called at cdc_rsync_client.cc:118-121), at its end. -/
inductive CPc
  | sync | stopSend | waitExit | flush | setDown | joinSender | joinReceiver | disconnect | over
  deriving DecidableEq, Repr

/-- Where the main thread of the server is: in `Sync`, in `ShutdownSendingEnd` after it failed (cdc_rsync_server.cc:315-323), in
`StopMessagePump`, which the destructor of the server calls when `main` returns, at its end. -/
inductive SPc
  | sync | shutSend | flush | setDown | joinSender | joinReceiver | close | over
  deriving DecidableEq, Repr

/-- What `Sync` of the client returned: OK, an error with `Tag::kSocketEof`, another error. -/
inductive Res
  | ok | eof | other
  deriving DecidableEq, Repr

/-- The receiver thread of a message pump: running, ended by an end of file, by another error, by `shutdown_`. -/
inductive Recv
  | on | eof | failed | stopped
  deriving DecidableEq, Repr

/-- Both processes. -/
structure State where
  /-- packets that will still be exchanged if nothing fails, and what the server will do on its own until it waits for the next one -/
  left : Nat
  work : Nat
  c : CPc := .sync
  s : SPc := .sync
  /-- what `Sync` returned -/
  cRes : Option Res := none
  sOk : Option Bool := none
  /-- `shutdown_` of the message pumps, and their threads -/
  cDown : Bool := false
  sDown : Bool := false
  cSender : Bool := true
  sSender : Bool := true
  cRecv : Recv := .on
  sRecv : Recv := .on
  /-- the sending end of the connection is shut down, or the socket closed -/
  cFin : Bool := false
  sFin : Bool := false
  broken : Bool := false
  deriving DecidableEq

/-- What is special about a step: the client fails by itself; the server fails by itself; the connection breaks; a packet arrives at a message
pump that is being stopped. -/
inductive Label
  | normal | client | server | broke | late
  deriving DecidableEq, Repr

/-- One step.  Simplified: the packets and queues (C12 to C14, C91); a flush of the queue is assumed to return (C13). -/
inductive Step : State → Label → State → Prop
  /-- the sync goes on -/
  | exchange {s} {n w : Nat} : s.c = .sync → s.s = .sync → s.cRecv = .on → s.sRecv = .on → s.left = n + 1 → s.work = 0 →
      Step s .normal { s with left := n, work := w }
  | work {s} {w : Nat} : s.s = .sync → s.work = w + 1 → Step s .normal { s with work := w }
  | serverFails {s} {w : Nat} : s.s = .sync → s.work = w + 1 → Step s .server { s with s := .shutSend, sOk := some false }
  /-- the server gets the last packet (`kShutdown`) and answers it -/
  | serverDone {s} : s.s = .sync → s.c = .sync → s.sRecv = .on → s.left = 0 → s.work = 0 → Step s .normal { s with s := .flush, sOk := some true }
  /-- the server gets an error instead of a packet, message_pump.cc:259-265 -/
  | serverLost {s} : s.s = .sync → (s.sRecv = .eof ∨ s.sRecv = .failed) → Step s .normal { s with s := .shutSend, sOk := some false }
  /-- cdc_rsync_server.cc:318 -/
  | serverShut {s} : s.s = .shutSend → Step s .normal { s with s := .flush, sFin := true }
  | serverFlush {s} : s.s = .flush → Step s .normal { s with s := .setDown }
  | serverDown {s} : s.s = .setDown → Step s .normal { s with s := .joinSender, sDown := true }
  | serverJoin {s} : s.s = .joinSender → s.sSender = false → Step s .normal { s with s := .joinReceiver }
  | serverJoin2 {s} : s.s = .joinReceiver → s.sRecv ≠ .on → Step s .normal { s with s := .close }
  /-- `socket_` is destroyed, `main` returns -/
  | serverClose {s} : s.s = .close → Step s .normal { s with s := .over, sFin := true }
  /-- the sender thread of the server, message_pump.cc:404-407 -/
  | serverSender {s} : s.sSender = true → s.sDown = true → Step s .normal { s with sSender := false }
  /-- the receiver thread of the server, message_pump.cc:440-465 -/
  | serverEof {s} : s.sRecv = .on → s.cFin = true → Step s .normal { s with sRecv := .eof }
  | serverError {s} : s.sRecv = .on → s.broken = true → Step s .normal { s with sRecv := .failed }
  | serverLate {s} : s.sRecv = .on → s.sDown = true → s.sOk = some false → Step s .late { s with sRecv := .stopped }
  /-- the client gets the answer to the last packet -/
  | clientDone {s} : s.c = .sync → s.sOk = some true → s.s ≠ .flush → Step s .normal { s with c := .stopSend, cRes := some .ok }
  /-- the client gets an error instead of a packet or cannot send: it goes on to `StopServer` only for the end of file,
  cdc_rsync_client.cc:165-173 -/
  | clientEof {s} : s.c = .sync → s.cRecv = .eof → Step s .normal { s with c := .stopSend, cRes := some .eof }
  | clientLost {s} : s.c = .sync → s.cRecv = .failed → Step s .normal { s with c := .flush, cRes := some .other }
  /-- something else fails, for example a file cannot be read -/
  | clientFails {s} : s.c = .sync → Step s .client { s with c := .flush, cRes := some .other }
  /-- cdc_rsync_client.cc:316-320 -/
  | clientShut {s} : s.c = .stopSend → Step s .normal { s with c := .waitExit, cFin := true }
  | clientShutFails {s} : s.c = .stopSend → s.broken = true → Step s .normal { s with c := .flush, cRes := some .other }
  /-- `RunUntilExit`, cdc_rsync_client.cc:322 -/
  | clientWait {s} : s.c = .waitExit → s.s = .over → Step s .normal { s with c := .flush }
  | clientFlush {s} : s.c = .flush → Step s .normal { s with c := .setDown }
  | clientDown {s} : s.c = .setDown → Step s .normal { s with c := .joinSender, cDown := true }
  | clientJoin {s} : s.c = .joinSender → s.cSender = false → Step s .normal { s with c := .joinReceiver }
  | clientJoin2 {s} : s.c = .joinReceiver → s.cRecv ≠ .on → Step s .normal { s with c := .disconnect }
  /-- cdc_rsync_client.cc:120 -/
  | clientClose {s} : s.c = .disconnect → Step s .normal { s with c := .over, cFin := true }
  | clientSender {s} : s.cSender = true → s.cDown = true → Step s .normal { s with cSender := false }
  | clientRecvEof {s} : s.cRecv = .on → s.sFin = true → Step s .normal { s with cRecv := .eof }
  | clientError {s} : s.cRecv = .on → s.broken = true → Step s .normal { s with cRecv := .failed }
  | clientLate {s} : s.cRecv = .on → s.cDown = true → (s.s = .sync ∨ s.sOk = some true) → Step s .late { s with cRecv := .stopped }
  | breaks {s} : s.broken = false → Step s .broke { s with broken := true }

/-- Any number of steps from the start of a sync with `n` packets, with their labels. -/
inductive Run (n w : Nat) : List Label → State → Prop
  | start : Run n w [] { left := n, work := w }
  | step {l s x t} : Run n w l s → Step s x t → Run n w (l ++ [x]) t

/-! ## Proof -/

/-- What holds in every run. -/
structure Inv (l : List Label) (s : State) : Prop where
  sNone : s.s = .sync → s.sOk = none
  sSome : s.s ≠ .sync → s.sOk ≠ none
  sShut : s.s = .shutSend → s.sOk = some false
  sFin1 : s.sOk = some false → s.s ≠ .shutSend → s.sFin = true
  sFin2 : s.s = .over → s.sFin = true
  sFin3 : s.sFin = true → (s.sOk = some false ∧ s.s ≠ .sync ∧ s.s ≠ .shutSend) ∨ s.s = .over
  sDown1 : s.s = .joinSender ∨ s.s = .joinReceiver ∨ s.s = .close ∨ s.s = .over → s.sDown = true
  sDown2 : s.sDown = true → s.s = .joinSender ∨ s.s = .joinReceiver ∨ s.s = .close ∨ s.s = .over
  sEnd : s.s = .close ∨ s.s = .over → s.sRecv ≠ .on
  sEof : s.sRecv = .eof → s.cFin = true
  sFailed : s.sRecv = .failed → s.broken = true
  sStopped : s.sRecv = .stopped → s.sOk = some false ∧ s.sDown = true
  cNone : s.c = .sync → s.cRes = none
  cSome : s.c ≠ .sync → s.cRes ≠ none
  cFin1 : s.c = .waitExit ∨ s.c = .over → s.cFin = true
  cFin2 : s.cFin = true → s.c ≠ .sync ∧ s.c ≠ .stopSend
  cFin3 : s.cRes = some .ok ∨ s.cRes = some .eof → s.c ≠ .stopSend → s.cFin = true
  cOk : s.cRes = some .ok → s.sOk = some true
  cEof : s.cRes = some .eof → s.cRecv = .eof
  cRecv : s.cRecv = .eof → s.sFin = true
  cFailed : s.cRecv = .failed → s.broken = true
  cStopped : s.cRecv = .stopped → s.cDown = true ∧ .late ∈ l
  cDown1 : s.c = .joinSender ∨ s.c = .joinReceiver ∨ s.c = .disconnect ∨ s.c = .over → s.cDown = true
  cDown2 : s.cDown = true → s.c = .joinSender ∨ s.c = .joinReceiver ∨ s.c = .disconnect ∨ s.c = .over
  cStop : s.c = .stopSend ∨ s.c = .waitExit → s.cRes = some .ok ∨ s.cRes = some .eof
  cEnd : s.c = .disconnect ∨ s.c = .over → s.cRecv ≠ .on
  waited : (s.cRes = some .ok ∨ s.cRes = some .eof) → s.c = .stopSend ∨ s.c = .waitExit ∨ s.s = .over
  other : s.cRes = some .other → s.cRecv ≠ .on ∨ s.broken = true ∨ .client ∈ l
  alone : .client ∈ l → s.cRes = some .other
  intact : s.broken = true → .broke ∈ l
  overOk : s.sOk = some true → s.sRecv ≠ .on → s.c ≠ .sync ∨ s.broken = true
  eofFalse : s.cRes = some .eof → s.sOk = some false ∨ s.broken = true
  otherWhy : s.cRes = some .other → s.broken = true ∨ .client ∈ l

theorem Run.inv {n w : Nat} {l : List Label} {s : State} (h : Run n w l s) : Inv l s := by
  induction h with
  | start => constructor <;> simp
  | @step l s x t _ hs ih =>
    obtain ⟨h1, h2, h3, h4, h5, h6, h7, h8, h9, h10, h11, h12, h13, h14, h15, h16, h17, h18, h19, h20, h21, h22, h23, h24, h25, h26, h27,
      h28, h29, h30, h31, h32, h33⟩ := ih
    have hb : s.sOk = none ∨ s.sOk = some true ∨ s.sOk = some false := by
      rcases s.sOk with _ | _ | _ <;> simp
    cases hs <;> constructor <;> first | assumption | grind

/-! ### Every run ends -/

/-- How far the main threads are from their end. -/
def CPc.rank : CPc → Nat
  | .sync => 9 | .stopSend => 8 | .waitExit => 7 | .flush => 6 | .setDown => 5 | .joinSender => 4 | .joinReceiver => 3 | .disconnect => 2
  | .over => 1
def SPc.rank : SPc → Nat
  | .sync => 8 | .shutSend => 7 | .flush => 6 | .setDown => 5 | .joinSender => 4 | .joinReceiver => 3 | .close => 2 | .over => 1

/-- What remains besides the packets and the work of the server. -/
def State.rest (s : State) : Nat :=
  s.c.rank + s.s.rank + s.cSender.toNat + s.sSender.toNat + (if s.cRecv = .on then 1 else 0) + (if s.sRecv = .on then 1 else 0) +
    (!s.broken).toNat

theorem step_smaller {s t : State} {x : Label} (h : Step s x t) :
    t.left < s.left ∨ (t.left = s.left ∧ (t.work < s.work ∨ (t.work = s.work ∧ t.rest < s.rest))) := by
  cases h <;> simp_all [State.rest, CPc.rank, SPc.rank] <;> omega

theorem ends (s : State) : Acc (fun t s => ∃ x, Step s x t) s := by
  have key : ∀ a b c (s : State), s.left ≤ a → s.work ≤ b ∨ s.left < a → s.rest ≤ c ∨ s.work < b ∨ s.left < a →
      Acc (fun t s => ∃ x, Step s x t) s := by
    intro a
    induction a using Nat.strongRecOn with
    | ind a iha =>
      intro b
      induction b using Nat.strongRecOn with
      | ind b ihb =>
        intro c
        induction c using Nat.strongRecOn with
        | ind c ihc =>
          intro s h1 h2 h3
          by_cases hl : s.left < a
          · exact iha s.left hl s.work s.rest s (Nat.le_refl _) (.inl (Nat.le_refl _)) (.inl (Nat.le_refl _))
          by_cases hw : s.work < b
          · exact ihb s.work hw s.rest s h1 (.inl (Nat.le_refl _)) (.inl (Nat.le_refl _))
          refine ⟨_, fun t ⟨x, ht⟩ => ?_⟩
          rcases step_smaller ht with h | ⟨h, h' | ⟨h', h''⟩⟩
          · exact iha t.left (by omega) t.work t.rest t (Nat.le_refl _) (.inl (Nat.le_refl _)) (.inl (Nat.le_refl _))
          · exact ihb t.work (by omega) t.rest t (by omega) (.inl (Nat.le_refl _)) (.inl (Nat.le_refl _))
          · exact ihc t.rest (by omega) t (by omega) (.inl (by omega)) (.inl (Nat.le_refl _))
  exact key s.left s.work s.rest s (Nat.le_refl _) (.inl (Nat.le_refl _)) (.inl (Nat.le_refl _))

/-- **C196**, the part that holds: whatever happens, in any order, the steps run out; and as long as the client does not fail by itself,
something can always happen, without a chance event, until both processes have ended: also when the server fails or the connection breaks.
Missing: failures of the client. -/
theorem C196_both_end_partial {n w : Nat} {l : List Label} {s : State} (h : Run n w l s) :
    Acc (fun t s => ∃ x, Step s x t) s ∧ (.client ∉ l → (∀ t, ¬ Step s .normal t) → s.c = .over ∧ s.s = .over) := by
  refine ⟨ends s, fun hl hstuck => ?_⟩
  have hi := h.inv
  have hsend : s.sDown = true → s.sSender = false := fun hd => by
    cases he : s.sSender with
    | false => rfl
    | true => exact absurd (.serverSender he hd) (hstuck _)
  have csend : s.cDown = true → s.cSender = false := fun hd => by
    cases he : s.cSender with
    | false => rfl
    | true => exact absurd (.clientSender he hd) (hstuck _)
  have srecv : s.sRecv = .on → s.cFin = false ∧ s.broken = false := fun hr => by
    constructor
    · cases he : s.cFin with
      | false => rfl
      | true => exact absurd (.serverEof hr he) (hstuck _)
    · cases he : s.broken with
      | false => rfl
      | true => exact absurd (.serverError hr he) (hstuck _)
  have crecv : s.cRecv = .on → s.sFin = false ∧ s.broken = false := fun hr => by
    constructor
    · cases he : s.sFin with
      | false => rfl
      | true => exact absurd (.clientRecvEof hr he) (hstuck _)
    · cases he : s.broken with
      | false => rfl
      | true => exact absurd (.clientError hr he) (hstuck _)
  -- the places where the client can be
  have hc : s.c = .sync ∨ s.c = .waitExit ∨ (s.c = .joinReceiver ∧ s.cRecv = .on) ∨ s.c = .over := by
    cases hc : s.c with
    | sync => exact .inl rfl
    | stopSend => exact absurd (.clientShut hc) (hstuck _)
    | waitExit => exact .inr (.inl rfl)
    | flush => exact absurd (.clientFlush hc) (hstuck _)
    | setDown => exact absurd (.clientDown hc) (hstuck _)
    | joinSender => exact absurd (.clientJoin hc (csend (hi.cDown1 (.inl hc)))) (hstuck _)
    | joinReceiver =>
      by_cases hr : s.cRecv = .on
      · exact .inr (.inr (.inl ⟨rfl, hr⟩))
      · exact absurd (.clientJoin2 hc hr) (hstuck _)
    | disconnect => exact absurd (.clientClose hc) (hstuck _)
    | over => exact .inr (.inr (.inr rfl))
  have hs : s.s = .sync ∨ (s.s = .joinReceiver ∧ s.sRecv = .on) ∨ s.s = .over := by
    cases hs : s.s with
    | sync => exact .inl rfl
    | shutSend => exact absurd (.serverShut hs) (hstuck _)
    | flush => exact absurd (.serverFlush hs) (hstuck _)
    | setDown => exact absurd (.serverDown hs) (hstuck _)
    | joinSender => exact absurd (.serverJoin hs (hsend (hi.sDown1 (.inl hs)))) (hstuck _)
    | joinReceiver =>
      by_cases hr : s.sRecv = .on
      · exact .inr (.inl ⟨rfl, hr⟩)
      · exact absurd (.serverJoin2 hs hr) (hstuck _)
    | close => exact absurd (.serverClose hs) (hstuck _)
    | over => exact .inr (.inr rfl)
  have other : s.cRes = some .other → s.cRecv = .on → False := fun h1 h2 => by
    rcases hi.other h1 with h3 | h3 | h3
    · exact h3 h2
    · rw [(crecv h2).2] at h3; exact nomatch h3
    · exact hl h3
  have crec : s.c = .sync → s.cRecv = .on := fun hc => by
    cases hr : s.cRecv with
    | on => rfl
    | eof => exact absurd (.clientEof hc hr) (hstuck _)
    | failed => exact absurd (.clientLost hc hr) (hstuck _)
    | stopped =>
      have := hi.cDown2 (hi.cStopped hr).1
      rw [hc] at this; simp at this
  rcases hs with hs | ⟨hs, hr⟩ | hs
  · -- the server is in its sync
    exfalso
    have hw : s.work = 0 := by
      cases hw : s.work with
      | zero => rfl
      | succ w => exact absurd (.work hs hw) (hstuck _)
    have hr : s.sRecv = .on := by
      cases hr : s.sRecv with
      | on => rfl
      | eof => exact absurd (.serverLost hs (.inl hr)) (hstuck _)
      | failed => exact absurd (.serverLost hs (.inr hr)) (hstuck _)
      | stopped =>
        have := (hi.sStopped hr).1
        rw [hi.sNone hs] at this; exact nomatch this
    have hok := hi.sNone hs
    rcases hc with hc | hc | ⟨hc, hcr⟩ | hc
    · cases hn : s.left with
      | zero => exact absurd (.serverDone hs hc hr hn hw) (hstuck _)
      | succ n => exact absurd (.exchange (w := 0) hc hs (crec hc) hr hn hw) (hstuck _)
    · rw [hi.cFin1 (.inl hc)] at srecv; exact nomatch (srecv hr).1
    · have h1 := hi.cSome (by rw [hc]; decide)
      cases hres : s.cRes with
      | none => exact h1 hres
      | some r =>
        cases r with
        | ok => have := hi.cOk hres; rw [hok] at this; exact nomatch this
        | eof => have := hi.cEof hres; rw [hcr] at this; exact nomatch this
        | other => exact other hres hcr
    · rw [hi.cFin1 (.inr hc)] at srecv; exact nomatch (srecv hr).1
  · -- the server waits for its receiver
    exfalso
    have hcf := (srecv hr).1
    rcases hc with hc | hc | ⟨hc, hcr⟩ | hc
    · cases hok : s.sOk with
      | none => exact hi.sSome (by rw [hs]; decide) hok
      | some b =>
        cases b with
        | true => exact absurd (.clientDone hc hok (by rw [hs]; decide)) (hstuck _)
        | false =>
          have h1 := hi.sFin1 hok (by rw [hs]; decide)
          rw [(crecv (crec hc)).1] at h1; exact nomatch h1
    · rw [hi.cFin1 (.inl hc)] at hcf; exact nomatch hcf
    · have h1 := hi.cSome (by rw [hc]; decide)
      cases hres : s.cRes with
      | none => exact h1 hres
      | some r =>
        cases r with
        | ok => rw [hi.cFin3 (.inl hres) (by rw [hc]; decide)] at hcf; exact nomatch hcf
        | eof => rw [hi.cFin3 (.inr hres) (by rw [hc]; decide)] at hcf; exact nomatch hcf
        | other => exact other hres hcr
    · rw [hi.cFin1 (.inr hc)] at hcf; exact nomatch hcf
  · refine ⟨?_, hs⟩
    have hfin := hi.sFin2 hs
    rcases hc with hc | hc | ⟨hc, hcr⟩ | hc
    · have := (crecv (crec hc)).1; rw [hfin] at this; exact nomatch this
    · exact absurd (.clientWait hc hs) (hstuck _)
    · have := (crecv hcr).1; rw [hfin] at this; exact nomatch this
    · exact hc

/-- **C196** is false of the code: if the client fails by itself (for example because it cannot read a file) and neither the server fails nor
the connection breaks nor another packet of the server arrives, then neither process ever ends: the client waits for its receiver thread, which
waits for the server, which waits for the client. -/
theorem C196_hangs_violated {n w : Nat} {l : List Label} {s : State} (h : Run n w l s) (hc : .client ∈ l) (hs : .server ∉ l) (hb : .broke ∉ l)
    (hla : .late ∉ l) : s.c ≠ .over ∧ s.s ≠ .over ∧ s.cFin = false ∧ s.sFin = false := by
  suffices hx : .server ∉ l → .broke ∉ l → .late ∉ l →
      (s.cRecv = .on ∧ s.sRecv = .on ∧ s.cFin = false ∧ s.sFin = false ∧ s.broken = false ∧ s.sOk ≠ some false ∧ s.s ≠ .close ∧ s.s ≠ .over ∧
        s.c ≠ .disconnect ∧ s.c ≠ .over ∧ s.cRes ≠ some .eof ∧ (s.cRes = some .other → s.c ≠ .stopSend ∧ s.c ≠ .waitExit)) ∨
      (s.cRes = some .ok ∧ s.broken = false) by
    have hi := h.inv
    rcases hx hs hb hla with h1 | h1
    · exact ⟨h1.2.2.2.2.2.2.2.2.2.1, h1.2.2.2.2.2.2.2.1, h1.2.2.1, h1.2.2.2.1⟩
    · have h1 := h1.1; rw [hi.alone hc] at h1; exact nomatch h1
  clear hs hb hla hc
  induction h with
  | start => intro _ _ _; left; simp
  | @step l s x t hr hst ih =>
    intro h1 h2 h3
    have hi := hr.inv
    have h1' : Label.server ∉ l := fun h => h1 (List.mem_append_left _ h)
    have h2' : Label.broke ∉ l := fun h => h2 (List.mem_append_left _ h)
    have h3' : Label.late ∉ l := fun h => h3 (List.mem_append_left _ h)
    have := ih h1' h2' h3'
    have e1 := hi.cSome
    have e2 := hi.cStop
    have e3 := hi.intact
    have e4 := hi.cNone
    have e5 := hi.alone
    have e6 := hi.sShut
    clear ih hi hr
    cases hst <;> grind

/-- **C197.**  What the client reports: success only if the server has finished successfully and has ended; the error of the server only if
the server has failed and has ended, so that its exit code and its message are known.  If neither the client fails by itself nor the connection breaks, it is one of
these two, when the client has ended. -/
theorem C197_result {n w : Nat} {l : List Label} {s : State} (h : Run n w l s) (ho : s.c = .over) :
    (s.cRes = some .ok → s.sOk = some true ∧ s.s = .over) ∧ (s.cRes = some .eof → s.s = .over ∧ (.broke ∉ l → s.sOk = some false)) ∧
    (.client ∉ l → .broke ∉ l → s.cRes = some .ok ∨ s.cRes = some .eof) := by
  have hi := h.inv
  have hw : s.cRes = some .ok ∨ s.cRes = some .eof → s.s = .over := fun h1 => by
    have := hi.waited h1
    rw [ho] at this
    simpa using this
  refine ⟨fun h1 => ⟨hi.cOk h1, hw (.inl h1)⟩, fun h1 => ⟨hw (.inr h1), fun hb => ?_⟩, fun hc hb => ?_⟩
  · rcases hi.eofFalse h1 with h2 | h2
    · exact h2
    · exact absurd (hi.intact h2) hb
  · cases hres : s.cRes with
    | none => exact absurd hres (hi.cSome (by rw [ho]; decide))
    | some x =>
      cases x with
      | ok => exact .inl rfl
      | eof => exact .inr rfl
      | other =>
        rcases hi.otherWhy hres with h2 | h2
        · exact absurd (hi.intact h2) hb
        · exact absurd h2 hc

/-! ## Examples -/

/-- A sync of one packet that succeeds: both processes end, and the client reports success. -/
example : ∃ l s, Run 1 0 l s ∧ .client ∉ l ∧ .broke ∉ l ∧ s.c = .over ∧ s.s = .over ∧ s.cRes = some .ok := by
  have h := Run.start (n := 1) (w := 0)
  have h := h.step (Step.exchange (w := 1) rfl rfl rfl rfl rfl rfl)
  have h := h.step (Step.work rfl rfl)
  have h := h.step (Step.serverDone rfl rfl rfl rfl rfl)
  have h := h.step (Step.serverFlush rfl)
  have h := h.step (Step.clientDone rfl rfl (fun h => nomatch h))
  have h := h.step (Step.serverDown rfl)
  have h := h.step (Step.serverSender rfl rfl)
  have h := h.step (Step.serverJoin rfl rfl)
  have h := h.step (Step.clientShut rfl)
  have h := h.step (Step.serverEof rfl rfl)
  have h := h.step (Step.serverJoin2 rfl (fun h => nomatch h))
  have h := h.step (Step.serverClose rfl)
  have h := h.step (Step.clientWait rfl rfl)
  have h := h.step (Step.clientFlush rfl)
  have h := h.step (Step.clientDown rfl)
  have h := h.step (Step.clientSender rfl rfl)
  have h := h.step (Step.clientRecvEof rfl rfl)
  have h := h.step (Step.clientJoin rfl rfl)
  have h := h.step (Step.clientJoin2 rfl (fun h => nomatch h))
  have h := h.step (Step.clientClose rfl)
  exact ⟨_, _, h, by decide, by decide, rfl, rfl, rfl⟩

/-- The server fails: both processes end, and the client knows. -/
example : ∃ l s, Run 1 1 l s ∧ .client ∉ l ∧ .broke ∉ l ∧ s.c = .over ∧ s.s = .over ∧ s.cRes = some .eof ∧ s.sOk = some false := by
  have h := Run.start (n := 1) (w := 1)
  have h := h.step (Step.serverFails rfl rfl)
  have h := h.step (Step.serverShut rfl)
  have h := h.step (Step.clientRecvEof rfl rfl)
  have h := h.step (Step.clientEof rfl rfl)
  have h := h.step (Step.clientShut rfl)
  have h := h.step (Step.serverFlush rfl)
  have h := h.step (Step.serverDown rfl)
  have h := h.step (Step.serverSender rfl rfl)
  have h := h.step (Step.serverJoin rfl rfl)
  have h := h.step (Step.serverEof rfl rfl)
  have h := h.step (Step.serverJoin2 rfl (fun h => nomatch h))
  have h := h.step (Step.serverClose rfl)
  have h := h.step (Step.clientWait rfl rfl)
  have h := h.step (Step.clientFlush rfl)
  have h := h.step (Step.clientDown rfl)
  have h := h.step (Step.clientSender rfl rfl)
  have h := h.step (Step.clientJoin rfl rfl)
  have h := h.step (Step.clientJoin2 rfl (fun h => nomatch h))
  have h := h.step (Step.clientClose rfl)
  exact ⟨_, _, h, by decide, by decide, rfl, rfl, rfl, rfl⟩

/-- The client fails, for example because a file it should send has vanished, while the server waits for it: after five steps nothing can happen
any more unless the connection breaks or a packet was under way. -/
example : ∃ l s, Run 1 0 l s ∧ .client ∈ l ∧ .server ∉ l ∧ .broke ∉ l ∧ .late ∉ l ∧ s.c = .joinReceiver ∧ s.s = .sync ∧
    ∀ x t, Step s x t → x = .broke ∨ x = .late := by
  have h := Run.start (n := 1) (w := 0)
  have h := h.step (Step.clientFails rfl)
  have h := h.step (Step.clientFlush rfl)
  have h := h.step (Step.clientDown rfl)
  have h := h.step (Step.clientSender rfl rfl)
  have h := h.step (Step.clientJoin rfl rfl)
  refine ⟨_, _, h, by decide, by decide, by decide, by decide, rfl, rfl, fun x t ht => ?_⟩
  cases ht <;> simp_all

end Verif.Sync.Ends
