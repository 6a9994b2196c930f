/-!
# Opening and closing sockets

Model of the parts of `ServerSocket` and `ClientSocket` that open, bind, accept, connect and close sockets
(common/server_socket.cc:34-184, common/client_socket.cc:42-124, common/socket_internal.h:53-57 and 82-87).  The answers of the kernel
are inputs.  `live` is a ghost: the descriptors that were opened for the object and are not closed.
-/

namespace Verif.Pump.Listen

inductive Family
  | ip4
  | ip6
deriving DecidableEq

inductive Bind
  | ok
  /-- `EADDRINUSE` -/
  | inUse
  | failed
deriving DecidableEq

/-- The answers of the kernel to `StartListeningInternal`. -/
structure Answers where
  /-- the descriptor, if the socket can be created -/
  socket : Option Nat
  bind : Bind
  /-- the port that the kernel selects if the one asked for is 0 -/
  auto : Nat
  /-- `getsockname` succeeds -/
  named : Bool
  /-- `listen` succeeds -/
  listens : Bool

inductive Error
  | already
  | system
  /-- `Tag::kAddressInUse` -/
  | inUse
deriving DecidableEq

/-- `ServerSocketInfo`, server_socket.cc:23-29. -/
structure Server where
  listen : Option Nat := none
  conn : Option Nat := none
  live : List Nat := []
  /-- ghost: the port that `listen` is bound to -/
  port : Nat := 0

/-- `Close`, socket_internal.h:61-66 and 82-87, of the listening socket: nothing is done if there is none. -/
def Server.closeListen (s : Server) : Server := match s.listen with
  | none => s
  | some fd => { s with listen := none, live := s.live.erase fd }

/-- The same for the connection. -/
def Server.closeConn (s : Server) : Server := match s.conn with
  | none => s
  | some fd => { s with conn := none, live := s.live.erase fd }

/-- `StartListeningInternal`, server_socket.cc:84-162. `setsockopt` is only logged. -/
def startInternal (port : Nat) (a : Answers) (s : Server) : Except Error Nat × Server :=
  match a.socket with
  | none => (.error .system, { s with listen := none })
  | some fd =>
    let s1 : Server := { s with listen := some fd, live := fd :: s.live }
    match a.bind with
    | .inUse => (.error .inUse, s1.closeListen)
    | .failed => (.error .system, s1.closeListen)
    | .ok =>
      let s2 : Server := { s1 with port := if port = 0 then a.auto else port }
      if port = 0 ∧ a.named = false then (.error .system, s2.closeListen)
      else if a.listens = false then (.error .system, s2.closeListen)
      else (.ok (if port = 0 then a.auto else port), s2)

/-- `StartListening`, server_socket.cc:45-82. `addrs` is what `getaddrinfo` finds; `answers` are those for each family. -/
def startListening (port : Nat) (addrs : Option (List Family)) (answers : Family → Answers) (s : Server) : Except Error Nat × Server :=
  if s.listen.isSome then (.error .already, s)
  else match addrs with
    | none => (.error .system, s)
    | some l =>
      if .ip6 ∈ l then startInternal port (answers .ip6) s
      else if .ip4 ∈ l then startInternal port (answers .ip4) s
      else (.error .system, s)

/-- `WaitForConnection`, server_socket.cc:169-184. -/
def accept (answer : Option Nat) (s : Server) : Bool × Server :=
  if s.conn.isSome then (false, s)
  else if s.listen.isNone then (false, s)
  else match answer with
    | none => (false, s)
    | some fd => (true, { s with conn := some fd, live := fd :: s.live })

/-- `~ServerSocket`, server_socket.cc:34-37. -/
def Server.destroy (s : Server) : Server := s.closeConn.closeListen

/-- `FindAvailablePort`, server_socket.cc:40-43: the socket is a local variable. -/
def findAvailablePort (addrs : Option (List Family)) (answers : Family → Answers) : Except Error Nat × Server :=
  let r := startListening 0 addrs answers {}
  (r.1, r.2.destroy)

/-- What a user of the class can do; the kernel never gives a descriptor that is in use. -/
inductive Use : Server → Server → Prop
  | start {s} (port : Nat) (addrs : Option (List Family)) (answers : Family → Answers) :
      (∀ f fd, (answers f).socket = some fd → fd ∉ s.live) → Use s (startListening port addrs answers s).2
  | accept {s} (answer : Option Nat) : (∀ fd, answer = some fd → fd ∉ s.live) → Use s (accept answer s).2
  | disconnect {s} : Use s s.closeConn
  | stopListening {s} : Use s s.closeListen

inductive Reach : Server → Prop
  | init : Reach {}
  | use {s t} : Reach s → Use s t → Reach t

/-- The descriptors the object knows. -/
def Server.held (s : Server) : List Nat := s.listen.toList ++ s.conn.toList

structure Inv (s : Server) : Prop where
  nodup : s.live.Nodup
  held : s.live.Perm s.held

theorem Inv.init : Inv {} := ⟨List.nodup_nil, .refl _⟩

theorem Inv.closeListen {s : Server} (h : Inv s) : Inv s.closeListen ∧ s.closeListen.listen = none ∧ s.closeListen.conn = s.conn := by
  unfold Server.closeListen
  cases hl : s.listen with
  | none => exact ⟨h, hl, rfl⟩
  | some fd =>
    refine ⟨⟨h.nodup.erase _, ?_⟩, rfl, rfl⟩
    have := h.held
    rw [Server.held, hl] at this
    have := this.erase fd
    simpa [Server.held] using this

theorem Inv.closeConn {s : Server} (h : Inv s) : Inv s.closeConn ∧ s.closeConn.conn = none ∧ s.closeConn.listen = s.listen := by
  unfold Server.closeConn
  cases hc : s.conn with
  | none => exact ⟨h, hc, rfl⟩
  | some fd =>
    refine ⟨⟨h.nodup.erase _, ?_⟩, rfl, rfl⟩
    have := h.held
    rw [Server.held, hc] at this
    have := (this.trans List.perm_append_comm).erase fd
    simpa [Server.held] using this

theorem Inv.opened {s : Server} (h : Inv s) {fd : Nat} (hl : s.listen = none) (hf : fd ∉ s.live) (p : Nat) :
    Inv { s with listen := some fd, live := fd :: s.live, port := p } := by
  refine ⟨List.nodup_cons.2 ⟨hf, h.nodup⟩, ?_⟩
  have := h.held
  rw [Server.held, hl] at this
  exact (this.cons fd : _)

theorem Inv.startInternal {s : Server} (h : Inv s) (port : Nat) (a : Answers) (hl : s.listen = none)
    (hf : ∀ fd, a.socket = some fd → fd ∉ s.live) :
    Inv (startInternal port a s).2 ∧ (∀ e, (Listen.startInternal port a s).1 = .error e → (Listen.startInternal port a s).2.listen = none) := by
  unfold Listen.startInternal
  cases hs : a.socket with
  | none =>
    refine ⟨⟨h.nodup, ?_⟩, fun _ _ => rfl⟩
    have := h.held
    rwa [Server.held, hl] at this
  | some fd =>
    have hn := hf fd hs
    have h1 := h.opened hl hn s.port
    have h2 := h.opened hl hn (if port = 0 then a.auto else port)
    simp only
    split
    · exact ⟨h1.closeListen.1, fun _ _ => h1.closeListen.2.1⟩
    · exact ⟨h1.closeListen.1, fun _ _ => h1.closeListen.2.1⟩
    · split
      · exact ⟨h2.closeListen.1, fun _ _ => h2.closeListen.2.1⟩
      · split
        · exact ⟨h2.closeListen.1, fun _ _ => h2.closeListen.2.1⟩
        · exact ⟨h2, fun _ h => nomatch h⟩

theorem Inv.startListening {s : Server} (h : Inv s) (port : Nat) (addrs : Option (List Family)) (answers : Family → Answers)
    (hf : ∀ f fd, (answers f).socket = some fd → fd ∉ s.live) :
    Inv (startListening port addrs answers s).2 ∧ (∀ e, (Listen.startListening port addrs answers s).1 = .error e → e ≠ .already →
      (Listen.startListening port addrs answers s).2.listen = none) := by
  unfold Listen.startListening
  split
  · exact ⟨h, fun e he hne => absurd (by injection he with he; exact he.symm) hne⟩
  · rename_i hl
    have hl : s.listen = none := by simpa using hl
    split
    · exact ⟨h, fun _ _ _ => hl⟩
    · split
      · have := h.startInternal port (answers .ip6) hl (hf .ip6); exact ⟨this.1, fun e he _ => this.2 e he⟩
      · split
        · have := h.startInternal port (answers .ip4) hl (hf .ip4); exact ⟨this.1, fun e he _ => this.2 e he⟩
        · exact ⟨h, fun _ _ _ => hl⟩

theorem Inv.use {s t : Server} (h : Inv s) (u : Use s t) : Inv t := by
  cases u with
  | start port addrs answers hf => exact (h.startListening port addrs answers hf).1
  | accept answer hf =>
    unfold Listen.accept
    split
    · exact h
    · rename_i hc
      have hc : s.conn = none := by simpa using hc
      split
      · exact h
      · split
        · exact h
        · rename_i fd
          refine ⟨List.nodup_cons.2 ⟨hf fd rfl, h.nodup⟩, ?_⟩
          have := h.held
          rw [Server.held, hc, Option.toList_none, List.append_nil] at this
          show (fd :: s.live).Perm (s.listen.toList ++ [fd])
          exact (this.cons fd).trans (List.perm_append_comm (l₁ := [fd]))
  | disconnect => exact h.closeConn.1
  | stopListening => exact h.closeListen.1

theorem Reach.inv {s : Server} (h : Reach s) : Inv s := by
  induction h with
  | init => exact .init
  | use _ hu ih => exact ih.use hu

/-- C174: whatever is done with a server socket and whatever fails, once it is destroyed no descriptor is left open; before, at most
two are. -/
theorem C174_server_closes {s : Server} (h : Reach s) : s.destroy.live = [] ∧ s.live.length ≤ 2 := by
  have hi := h.inv
  obtain ⟨h1, h2, h3⟩ := hi.closeConn
  obtain ⟨h4, h5, h6⟩ := h1.closeListen
  constructor
  · have := h4.held
    rw [Server.held, h5, h6, h2] at this
    exact List.perm_nil.1 this
  · have := hi.held.length_eq
    rw [this, Server.held]
    cases s.listen <;> cases s.conn <;> simp

/-- C174: after an attempt to listen has failed, for example since the port is in use, the object can be used for another attempt: it
is not taken to be listening already. -/
theorem C174_retry {s : Server} (h : Reach s) (port port' : Nat) (addrs addrs' : Option (List Family)) (answers answers' : Family → Answers)
    (hf : ∀ f fd, (answers f).socket = some fd → fd ∉ s.live) (e : Error) (he : (startListening port addrs answers s).1 = .error e)
    (hne : e ≠ .already) : (startListening port' addrs' answers' (startListening port addrs answers s).2).1 ≠ .error .already := by
  have := (h.inv.startListening port addrs answers hf).2 e he hne
  generalize (startListening port addrs answers s).2 = t at this
  unfold startListening
  rw [this]
  simp only [Option.isSome_none, Bool.false_eq_true, if_false]
  have key : ∀ a, (startInternal port' a t).1 ≠ .error .already := by
    intro a h
    unfold startInternal at h
    split at h
    · cases h
    · simp only at h
      split at h
      · cases h
      · cases h
      · split at h
        · cases h
        · split at h <;> cases h
  split
  · intro h; cases h
  · split
    · exact key _
    · split
      · exact key _
      · intro h; cases h

/-- The port can be listened to with this family. -/
def Answers.Works (a : Answers) : Prop := a.socket ≠ none ∧ a.bind = .ok ∧ a.named = true ∧ a.listens = true

theorem startInternal_works {a : Answers} (h : a.Works) (port : Nat) (s : Server) :
    ∃ fd, a.socket = some fd ∧ (startInternal port a s).1 = .ok (if port = 0 then a.auto else port) ∧
      (startInternal port a s).2.listen = some fd := by
  obtain ⟨h1, h2, h3, h4⟩ := h
  obtain ⟨fd, h1⟩ := Option.ne_none_iff_exists'.1 h1
  refine ⟨fd, h1, ?_⟩
  simp [startInternal, h1, h2, h3, h4]

/-- C175: a server can listen if there is an address, and if it can listen with IPv6 or there is no address of IPv6 and it can
listen with IPv4. -/
theorem C175_listens_partial (port : Nat) (l : List Family) (answers : Family → Answers) (s : Server) (hs : s.listen = none)
    (h : (.ip6 ∈ l ∧ (answers .ip6).Works) ∨ (.ip6 ∉ l ∧ .ip4 ∈ l ∧ (answers .ip4).Works)) :
    ∃ p fd, (startListening port (some l) answers s).1 = .ok p ∧ (startListening port (some l) answers s).2.listen = some fd := by
  unfold startListening
  rw [hs]
  simp only [Option.isSome_none, Bool.false_eq_true, if_false]
  rcases h with ⟨h1, h2⟩ | ⟨h0, h1, h2⟩
  · rw [if_pos h1]
    obtain ⟨fd, _, e1, e2⟩ := startInternal_works h2 port s
    exact ⟨_, fd, e1, e2⟩
  · rw [if_neg h0, if_pos h1]
    obtain ⟨fd, _, e1, e2⟩ := startInternal_works h2 port s
    exact ⟨_, fd, e1, e2⟩

def working (fd auto : Nat) : Answers := ⟨some fd, .ok, auto, true, true⟩

/-- C175 does not hold if there is an address of IPv6, but sockets of IPv6 cannot be created (the system has it disabled): IPv4 is
not tried then. -/
theorem C175_no_fallback_violated : ∃ answers : Family → Answers, (answers .ip4).Works ∧
    (startListening 0 (some [.ip4, .ip6]) answers {}).1 = .error .system :=
  ⟨fun f => match f with
    | .ip4 => working 3 50000
    | .ip6 => { working 3 50000 with socket := none }, ⟨by simp [working], rfl, rfl, rfl⟩, rfl⟩

/-- C175: a connection is accepted if and only if the server listens, has no connection yet and the kernel has one for it. It is then the
one that is used, and nothing else changes; without success nothing changes at all. -/
theorem C175_accept (answer : Option Nat) (s : Server) :
    ((accept answer s).1 = true ↔ s.listen ≠ none ∧ s.conn = none ∧ answer ≠ none) ∧
    ((accept answer s).1 = true → (accept answer s).2.conn = answer ∧ (accept answer s).2.listen = s.listen ∧
      (accept answer s).2.port = s.port) ∧
    ((accept answer s).1 = false → (accept answer s).2 = s) := by
  unfold accept
  cases hc : s.conn <;> cases hl : s.listen <;> cases answer <;> simp [hc, hl]

example : (accept (some 4) { listen := some 3, live := [3] }).1 = true ∧
    (accept (some 5) (accept (some 4) { listen := some 3, live := [3] }).2).1 = false := by decide

/-- C176: the port that is returned is the one the socket listens to, and the one that was asked for unless that was 0. -/
theorem C176_port (port : Nat) (addrs : Option (List Family)) (answers : Family → Answers) (s : Server) (p : Nat)
    (h : (startListening port addrs answers s).1 = .ok p) :
    (startListening port addrs answers s).2.listen.isSome = true ∧ (startListening port addrs answers s).2.port = p ∧ (port ≠ 0 → p = port) := by
  have key : ∀ a, (startInternal port a s).1 = .ok p → (startInternal port a s).2.listen.isSome = true ∧
      (startInternal port a s).2.port = p ∧ (port ≠ 0 → p = port) := by
    intro a h
    unfold startInternal at h ⊢
    split at h
    · cases h
    · rename_i fd hs
      simp only at h ⊢
      split at h
      · cases h
      · cases h
      · split at h
        · cases h
        · rename_i h1
          split at h
          · cases h
          · rename_i h2
            injection h with h
            rw [if_neg h1, if_neg h2]
            exact ⟨rfl, h, fun hp => by rw [← h, if_neg hp]⟩
  unfold startListening at h ⊢
  split at h
  · cases h
  · rename_i h0
    rw [if_neg h0]
    split at h
    · cases h
    · split at h
      · rename_i h1; rw [if_pos h1]; exact key _ h
      · rename_i h1
        rw [if_neg h1]
        split at h
        · rename_i h2; rw [if_pos h2]; exact key _ h
        · cases h

/-- C176: looking for a port leaves no socket open. -/
theorem C176_find_closes (addrs : Option (List Family)) (answers : Family → Answers) : (findAvailablePort addrs answers).2.live = [] :=
  (C174_server_closes (.use .init (.start 0 addrs answers fun _ _ _ => List.not_mem_nil))).1

/-- C176: so the port that was found is not kept: nothing prevents the kernel from giving it to the next who asks, before it is used. -/
theorem C176_same_port_violated : ∃ answers answers' : Family → Answers,
    (findAvailablePort (some [.ip6]) answers).1 = .ok 50000 ∧ (findAvailablePort (some [.ip6]) answers').1 = .ok 50000 ∧
    (∀ fd, (answers' .ip6).socket = some fd → fd ∉ (findAvailablePort (some [.ip6]) answers).2.live) :=
  ⟨fun _ => working 3 50000, fun _ => working 3 50000, rfl, rfl, by intro fd _; rw [C176_find_closes]; exact List.not_mem_nil⟩

/-! ## The client -/

/-- `ClientSocketInfo`, client_socket.cc:41-45; `none` also for a null pointer. -/
structure Client where
  socket : Option Nat := none
  live : List Nat := []

/-- What happens with one address, client_socket.cc:90-109: the descriptor, and whether `connect` succeeds. -/
structure Attempt where
  socket : Option Nat
  connects : Bool

/-- The loop over the addresses, client_socket.cc:88-109. The socket of a failed attempt is closed at once. -/
def connectLoop : List Attempt → Option Nat
  | [] => none
  | a :: l => match a.socket with
    | none => connectLoop l
    | some fd => if a.connects then some fd else connectLoop l

/-- `ClientSocket::Connect`, client_socket.cc:72-120: `addrs` is `none` if `getaddrinfo` fails. The new `ClientSocketInfo` replaces
the old one, which does not close its socket. -/
def connect (addrs : Option (List Attempt)) (c : Client) : Bool × Client := match addrs with
  | none => (false, c)
  | some l => match connectLoop l with
    | none => (false, { c with socket := none })
    | some fd => (true, { socket := some fd, live := fd :: c.live })

/-- `ClientSocket::Disconnect`, client_socket.cc:122-129. -/
def Client.disconnect (c : Client) : Client := match c.socket with
  | none => c
  | some fd => { socket := none, live := c.live.erase fd }

/-- A result of the static `WaitForConnection`. -/
inductive Waited
  | ok
  /-- `Tag::kConnectionTimeout` -/
  | timeout
  /-- still waiting -/
  | waiting
deriving DecidableEq

/-- The loop of `ClientSocket::WaitForConnection`, client_socket.cc:57-69. Each element of the list is what one attempt meets, and the
time that has passed after it. -/
def waitLoop (timeout : Nat) : List (Option (List Attempt) × Nat) → Client → Waited × Client
  | [], c => (.waiting, c)
  | (addrs, t) :: l, c =>
    if (connect addrs c).1 then (.ok, (connect addrs c).2)
    else if timeout < t then (.timeout, (connect addrs c).2)
    else waitLoop timeout l (connect addrs c).2

/-- `WaitForConnection`: the socket is a local variable, which is destroyed at the end (client_socket.cc:49 and 55). -/
def waitForConnection (timeout : Nat) (l : List (Option (List Attempt) × Nat)) : Waited × Client :=
  ((waitLoop timeout l {}).1, (waitLoop timeout l {}).2.disconnect)

/-- An attempt finds somebody who accepts the connection. -/
def Accepted (addrs : Option (List Attempt)) : Prop := ∃ l, addrs = some l ∧ ∃ a ∈ l, a.socket ≠ none ∧ a.connects = true

theorem connectLoop_iff (l : List Attempt) : connectLoop l ≠ none ↔ ∃ a ∈ l, a.socket ≠ none ∧ a.connects = true := by
  induction l with
  | nil => simp [connectLoop]
  | cons a l ih =>
    rw [connectLoop]
    cases hs : a.socket with
    | none => simp only; rw [ih]; simp [hs]
    | some fd =>
      simp only
      by_cases hc : a.connects = true
      · rw [if_pos hc]; simp [hs, hc]
      · rw [if_neg hc, ih]; simp [hc]

theorem connect_iff (addrs : Option (List Attempt)) (c : Client) : (connect addrs c).1 = true ↔ Accepted addrs := by
  unfold connect Accepted
  cases addrs with
  | none => simp
  | some l =>
    have := connectLoop_iff l
    cases h : connectLoop l with
    | none =>
      rw [h] at this
      simp only [h, Bool.false_eq_true, false_iff]
      rintro ⟨l', e, ha⟩
      cases e
      exact this.2 ha rfl
    | some fd =>
      rw [h] at this
      simp only [h, true_iff]
      exact ⟨l, rfl, this.1 (by simp)⟩

/-- Uses of a client socket. With `tidy` it is never connected while it is connected. -/
inductive CUse (tidy : Bool) : Client → Client → Prop
  | connect {c} (addrs : Option (List Attempt)) : (tidy = true → c.socket = none) →
      (∀ l, addrs = some l → ∀ a ∈ l, ∀ fd, a.socket = some fd → fd ∉ c.live) → CUse tidy c (connect addrs c).2
  | disconnect {c} : CUse tidy c c.disconnect

inductive CReach (tidy : Bool) : Client → Prop
  | init : CReach tidy {}
  | use {c d} : CReach tidy c → CUse tidy c d → CReach tidy d

theorem CReach.inv {c : Client} (h : CReach true c) : c.live = c.socket.toList := by
  induction h with
  | init => rfl
  | use _ hu ih =>
    rename_i c d _
    cases hu with
    | connect addrs hn _ =>
      have hn := hn rfl
      rw [hn] at ih
      unfold Listen.connect
      split
      · rw [hn]; exact ih
      · split
        · exact ih
        · rename_i fd _; show fd :: c.live = [fd]; rw [ih]; rfl
    | disconnect =>
      unfold Client.disconnect
      cases hs : c.socket with
      | none => simp only; rw [ih]
      | some fd => simp only; rw [ih, hs]; simp

/-- C174: a client socket that is not connected again while it is connected leaves no descriptor open once it is destroyed. -/
theorem C174_client_closes_partial {c : Client} (h : CReach true c) : c.disconnect.live = [] := by
  have := h.inv
  unfold Client.disconnect
  cases hs : c.socket with
  | none => rw [hs] at this; simp only; rw [this]; rfl
  | some fd => rw [hs] at this; simp [this]

def answered (fd : Nat) : Option (List Attempt) := some [⟨some fd, true⟩]

/-- C174 does not hold for a client that connects again: the first connection is never closed. -/
theorem C174_connected_twice_violated : ∃ c, CReach false c ∧ c.disconnect.live = [3] := by
  refine ⟨_, .use (.use .init (.connect (answered 3) (by simp) ?_)) (.connect (answered 4) (by simp) ?_), rfl⟩
  · intro l _ a _ fd _; exact List.not_mem_nil
  · intro l e a ha fd hfd
    cases e
    rw [List.mem_singleton.1 ha] at hfd
    cases hfd
    decide

theorem waitLoop_spec (timeout : Nat) (l : List (Option (List Attempt) × Nat)) (c : Client) (hc : c.socket = none) (hl : c.live = []) :
    ((waitLoop timeout l c).1 = .ok ↔ ∃ a x t b, l = a ++ (x, t) :: b ∧ Accepted x ∧ ∀ y ∈ a, ¬ Accepted y.1 ∧ y.2 ≤ timeout) ∧
    ((waitLoop timeout l c).1 = .timeout ↔ ∃ a x t b, l = a ++ (x, t) :: b ∧ ¬ Accepted x ∧ timeout < t ∧ ∀ y ∈ a, ¬ Accepted y.1 ∧ y.2 ≤ timeout) ∧
    (waitLoop timeout l c).2.disconnect.live = [] := by
  induction l generalizing c with
  | nil => refine ⟨by simp [waitLoop], by simp [waitLoop], ?_⟩; simp [waitLoop, Client.disconnect, hc, hl]
  | cons p l ih =>
    obtain ⟨x, t⟩ := p
    rw [waitLoop]
    by_cases ha : Accepted x
    · have h1 := (connect_iff x c).2 ha
      rw [if_pos h1]
      refine ⟨⟨fun _ => ⟨[], x, t, l, rfl, ha, by simp⟩, fun _ => rfl⟩, ⟨fun h => (by cases h), ?_⟩, ?_⟩
      · rintro ⟨a, y, u, b, e, h2, _, h3⟩
        cases a with
        | nil => cases e; exact absurd ha h2
        | cons z a => cases e; exact absurd ha (h3 _ (List.mem_cons_self ..)).1
      · unfold Listen.connect
        split
        · simp [Client.disconnect, hc, hl]
        · split
          · simp [Client.disconnect, hl]
          · simp [Client.disconnect, hl]
    · have h1 : ¬ (connect x c).1 = true := fun h => ha ((connect_iff x c).1 h)
      have hcon : (connect x c).2.socket = none ∧ (connect x c).2.live = [] := by
        unfold Listen.connect at h1 ⊢
        cases x with
        | none => exact ⟨hc, hl⟩
        | some l' =>
          cases hx : connectLoop l' with
          | none => simp only [hx]; exact ⟨trivial, hl⟩
          | some fd => simp [hx] at h1
      rw [if_neg h1]
      by_cases ht : timeout < t
      · rw [if_pos ht]
        refine ⟨⟨fun h => (by cases h), ?_⟩, ⟨fun _ => ⟨[], x, t, l, rfl, ha, ht, by simp⟩, fun _ => rfl⟩, ?_⟩
        · rintro ⟨a, y, u, b, e, h2, h3⟩
          cases a with
          | nil => cases e; exact absurd h2 ha
          | cons z a => cases e; exact absurd (h3 _ (List.mem_cons_self ..)).2 (by simp only; omega)
        · simp [Client.disconnect, hcon.1, hcon.2]
      · rw [if_neg ht]
        obtain ⟨i1, i2, i3⟩ := ih _ hcon.1 hcon.2
        refine ⟨i1.trans ⟨?_, ?_⟩, i2.trans ⟨?_, ?_⟩, i3⟩
        · rintro ⟨a, y, u, b, e, h2, h3⟩
          refine ⟨(x, t) :: a, y, u, b, by rw [e]; rfl, h2, fun z hz => ?_⟩
          rcases List.mem_cons.1 hz with rfl | hz
          · exact ⟨ha, by simp only; omega⟩
          · exact h3 z hz
        · rintro ⟨a, y, u, b, e, h2, h3⟩
          cases a with
          | nil => cases e; exact absurd h2 ha
          | cons z a => cases e; exact ⟨a, y, u, b, rfl, h2, fun w hw => h3 w (List.mem_cons_of_mem _ hw)⟩
        · rintro ⟨a, y, u, b, e, h2, h4, h3⟩
          refine ⟨(x, t) :: a, y, u, b, by rw [e]; rfl, h2, h4, fun z hz => ?_⟩
          rcases List.mem_cons.1 hz with rfl | hz
          · exact ⟨ha, by simp only; omega⟩
          · exact h3 z hz
        · rintro ⟨a, y, u, b, e, h2, h4, h3⟩
          cases a with
          | nil => cases e; exact absurd h4 ht
          | cons z a => cases e; exact ⟨a, y, u, b, rfl, h2, h4, fun w hw => h3 w (List.mem_cons_of_mem _ hw)⟩

/-- C177: waiting for a connection succeeds with the first attempt that is accepted, if the time is not over before, fails with the
first attempt that is not accepted and after which the time is over, and leaves no descriptor open in any case. -/
theorem C177_waiting (timeout : Nat) (l : List (Option (List Attempt) × Nat)) :
    ((waitForConnection timeout l).1 = .ok ↔ ∃ a x t b, l = a ++ (x, t) :: b ∧ Accepted x ∧ ∀ y ∈ a, ¬ Accepted y.1 ∧ y.2 ≤ timeout) ∧
    ((waitForConnection timeout l).1 = .timeout ↔
      ∃ a x t b, l = a ++ (x, t) :: b ∧ ¬ Accepted x ∧ timeout < t ∧ ∀ y ∈ a, ¬ Accepted y.1 ∧ y.2 ≤ timeout) ∧
    (waitForConnection timeout l).2.live = [] := waitLoop_spec timeout l {} rfl rfl

/-- C177: so a program that listens as long as needed is found: if attempts go on until the time is over, the result is ok or a
timeout. -/
theorem C177_ends (timeout : Nat) (l : List (Option (List Attempt) × Nat)) (h : ∃ y ∈ l, timeout < y.2 ∨ Accepted y.1) :
    (waitForConnection timeout l).1 ≠ .waiting := by
  obtain ⟨y, hy, hp⟩ := h
  unfold waitForConnection
  simp only
  generalize ({} : Client) = c
  induction l generalizing c with
  | nil => cases hy
  | cons p l ih =>
    obtain ⟨x, t⟩ := p
    rw [waitLoop]
    split
    · simp
    · rename_i h1
      split
      · simp
      · rename_i h2
        rcases List.mem_cons.1 hy with rfl | hy
        · rcases hp with hp | hp
          · exact absurd hp h2
          · exact absurd ((connect_iff _ _).2 hp) h1
        · exact ih hy _

/-! ## Examples -/

/-- A server that listens, accepts, disconnects, accepts again. -/
example : ∃ s, Reach s ∧ s.live = [5, 3] ∧ s.listen = some 3 ∧ s.conn = some 5 := by
  refine ⟨_, .use (.use (.use (.use .init (.start 0 (some [.ip4, .ip6]) (fun _ => working 3 50000) ?_)) (.accept (some 4) ?_)) .disconnect)
    (.accept (some 5) ?_), rfl, rfl, rfl⟩
  · intro f fd _; exact List.not_mem_nil
  · intro fd h; cases h; decide
  · intro fd h; cases h; decide

/-- The port is in use, then not. -/
example : (startListening 7 (some [.ip6]) (fun _ => { working 3 0 with bind := .inUse }) {}).1 = .error .inUse ∧
    (startListening 7 (some [.ip6]) (fun _ => working 3 0) (startListening 7 (some [.ip6]) (fun _ => { working 3 0 with bind := .inUse }) {}).2).1 =
      .ok 7 := ⟨rfl, rfl⟩

/-- Three attempts: no address, refused, accepted at the second address. -/
example : waitForConnection 100 [(none, 0), (some [⟨some 3, false⟩], 50), (some [⟨none, false⟩, ⟨some 4, true⟩], 101)] = (.ok, {}) ∧
    waitForConnection 100 [(none, 0), (some [⟨some 3, false⟩], 101), (some [⟨none, false⟩, ⟨some 4, true⟩], 102)] = (.timeout, {}) := ⟨rfl, rfl⟩

end Verif.Pump.Listen
