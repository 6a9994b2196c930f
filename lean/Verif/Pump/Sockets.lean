/-! # C117, C118: the sockets between client and server (common/client_socket.cc, common/server_socket.cc)

The kernel's answers to `send` and `recv` are given by a script; every script is considered. A script that ends stands for a
call that blocks from then on. -/
namespace Verif.Pump.Sockets

abbrev Bytes := List UInt8

/-! ## Model -/

/-- Answer of the kernel to one `send` or `recv`. -/
inductive Answer
  /-- a signal interrupts the call before anything is transferred (`EINTR`) -/
  | interrupted
  /-- `EAGAIN` or `EWOULDBLOCK` -/
  | again
  | error
  /-- at most `n + 1` bytes are transferred: fewer if the buffer, or the data that is still to come, is shorter -/
  | bytes (n : Nat)
deriving DecidableEq

/-- How a call of `Send` or `Receive` ends. -/
inductive Result
  | ok | eof | error | blocked
deriving DecidableEq

/-- `ServerSocket::Send`, server_socket.cc:200-223: the result, the bytes the kernel has accepted and the rest of the script. -/
def serverSend : List Answer → Bytes → Result × Bytes × List Answer
  | as, [] => (.ok, [], as)
  | [], _ :: _ => (.blocked, [], [])
  | .interrupted :: as, c :: d => serverSend as (c :: d)
  | .again :: as, c :: d => serverSend as (c :: d)
  | .error :: as, _ :: _ => (.error, [], as)
  | .bytes n :: as, c :: d =>
    let r := serverSend as (d.drop n)
    (r.1, c :: d.take n ++ r.2.1, r.2.2)

/-- `ClientSocket::Send`, client_socket.cc:131-140: one call, whose count is not looked at. Sending nothing is a `send` of 0 bytes;
nothing is sent then whatever the answer. -/
def clientSend : List Answer → Bytes → Result × Bytes × List Answer
  | [], _ => (.blocked, [], [])
  | .interrupted :: as, d => clientSend as d
  | .again :: as, _ => (.error, [], as)
  | .error :: as, _ => (.error, [], as)
  | .bytes n :: as, d => (.ok, d.take (n + 1), as)

/-- What a call of `Receive` does: result, the bytes in the buffer, what is still to come, the rest of the script. -/
structure Got where
  result : Result
  data : Bytes
  rest : Bytes
  script : List Answer

/-- The loop of `ServerSocket::Receive`, server_socket.cc:237-268. `input` is all that is still to come from the other side until it
closes its end; `left` bytes of the buffer are free, and `any` tells whether some have been read. -/
def serverLoop (part : Bool) : List Answer → (left : Nat) → (any : Bool) → Bytes → Got
  | as, 0, _, input => ⟨.ok, [], input, as⟩
  | [], _ + 1, _, input => ⟨.blocked, [], input, []⟩
  | .interrupted :: as, left + 1, any, input => serverLoop part as (left + 1) any input
  | .again :: as, left + 1, any, input => serverLoop part as (left + 1) any input
  | .error :: as, _ + 1, _, input => ⟨.error, [], input, as⟩
  | .bytes n :: as, left + 1, any, input =>
    match input with
    | [] => ⟨if any then .error else .eof, [], [], as⟩
    | c :: input =>
      let k := min n left
      if part then ⟨.ok, c :: input.take k, input.drop k, as⟩
      else
        let r := serverLoop part as (left - (input.take k).length) true (input.drop k)
        ⟨r.result, c :: input.take k ++ r.data, r.rest, r.script⟩

/-- `ServerSocket::Receive`, server_socket.cc:225-270. -/
def serverReceive (part : Bool) (as : List Answer) (size : Nat) (input : Bytes) : Got := serverLoop part as size false input

/-- `ClientSocket::Receive`, client_socket.cc:142-170: one call; with `MSG_WAITALL` it can be short, too. The bytes of a short read
are in the buffer but are not counted. -/
def clientReceive (part : Bool) : List Answer → Nat → Bytes → Got
  | as, 0, input => ⟨.ok, [], input, as⟩
  | [], _ + 1, input => ⟨.blocked, [], input, []⟩
  | .interrupted :: as, size + 1, input => clientReceive part as (size + 1) input
  | .again :: as, _ + 1, input => ⟨.error, [], input, as⟩
  | .error :: as, _ + 1, input => ⟨.error, [], input, as⟩
  | .bytes n :: as, size + 1, input =>
    let d := input.take (min n size + 1)
    if d = [] then ⟨.eof, [], input, as⟩
    else if d.length ≠ size + 1 ∧ part = false then ⟨.error, [], input.drop (min n size + 1), as⟩
    else ⟨.ok, d, input.drop (min n size + 1), as⟩

/-- A sequence of calls of `Send` that stops after the first one that does not succeed: the number of buffers that were sent
successfully and everything the kernel has accepted. -/
def sendAll (send : List Answer → Bytes → Result × Bytes × List Answer) : List Answer → List Bytes → Nat × Bytes
  | _, [] => (0, [])
  | as, b :: bs => match send as b with
    | (.ok, w, as) => let r := sendAll send as bs; (r.1 + 1, w ++ r.2)
    | (_, w, _) => (0, w)

/-- A sequence of calls of `Receive` (size, partial reads allowed) that stops after the first one that does not succeed: the buffers
that were received and how it ended. -/
def receiveAll (recv : Bool → List Answer → Nat → Bytes → Got) : List Answer → List (Nat × Bool) → Bytes → List Bytes × Result
  | _, [], _ => ([], .ok)
  | as, (size, part) :: qs, input =>
    let g := recv part as size input
    match g.result with
    | .ok => let r := receiveAll recv g.script qs g.rest; (g.data :: r.1, r.2)
    | e => ([], e)

/-! ## Specification -/

/-- A received buffer fits what was asked for: exactly `size` bytes, or between one and `size` if partial reads are allowed. -/
def Fits : Bytes → Nat × Bool → Prop
  | d, (size, part) => if part ∧ size ≠ 0 then 1 ≤ d.length ∧ d.length ≤ size else d.length = size

/-! ## One call -/

theorem serverSend_spec (as : List Answer) (d : Bytes) :
    (serverSend as d).2.1 <+: d ∧ ((serverSend as d).1 = .ok → (serverSend as d).2.1 = d) ∧ (serverSend as d).1 ≠ .eof := by
  fun_induction serverSend as d with
  | case1 as => simp
  | case2 c d => simp
  | case3 as c d ih => exact ih
  | case4 as c d ih => exact ih
  | case5 as c d => simp
  | case6 n as c d r ih =>
    obtain ⟨h1, h2, h3⟩ := ih
    refine ⟨?_, ?_, h3⟩
    · obtain ⟨t, ht⟩ := h1
      refine ⟨t, ?_⟩
      show c :: d.take n ++ (serverSend as (d.drop n)).2.1 ++ t = _
      rw [List.append_assoc, ht, List.cons_append, List.take_append_drop]
    · intro e
      show c :: d.take n ++ (serverSend as (d.drop n)).2.1 = _
      rw [h2 e, List.cons_append, List.take_append_drop]

/-- The script has the kernel accept each buffer as a whole. -/
def Whole (as : List Answer) (size : Nat) : Prop := ∀ n, .bytes n ∈ as → size ≤ n + 1

theorem clientSend_spec (as : List Answer) (d : Bytes) :
    (clientSend as d).2.1 <+: d ∧ (Whole as d.length → (clientSend as d).1 = .ok → (clientSend as d).2.1 = d) ∧
    (clientSend as d).1 ≠ .eof ∧ (∀ a, a ∈ (clientSend as d).2.2 → a ∈ as) := by
  fun_induction clientSend as d with
  | case1 => simp
  | case2 as d ih =>
    obtain ⟨h1, h2, h3, h4⟩ := ih
    exact ⟨h1, fun hw => h2 (fun n hn => hw n (by simp [hn])), h3, fun a ha => by simp [h4 a ha]⟩
  | case3 as d => exact ⟨by simp, by simp, by simp, fun a ha => by simp [ha]⟩
  | case4 as d => exact ⟨by simp, by simp, by simp, fun a ha => by simp [ha]⟩
  | case5 n as d =>
    refine ⟨List.take_prefix _ _, ?_, by simp, fun a ha => by simp [ha]⟩
    intro hw _
    exact List.take_of_length_le (hw n (by simp))

theorem serverLoop_spec (part : Bool) (as : List Answer) (left : Nat) (som : Bool) (input : Bytes) :
    let g := serverLoop part as left som input
    g.data ++ g.rest = input ∧ g.data.length ≤ left ∧
    (g.result = .ok → (part = false → g.data.length = left) ∧ (left ≠ 0 → 1 ≤ g.data.length)) ∧
    (g.result = .eof → som = false ∧ input = [] ∧ left ≠ 0) := by
  fun_induction serverLoop part as left som input with
  | case1 as s input => simp
  | case2 l s input => simp
  | case3 as l s input ih => exact ih
  | case4 as l s input ih => exact ih
  | case5 as l s input => simp
  | case6 n as l s =>
    refine ⟨by simp, by simp, ?_, ?_⟩
    · intro e; cases s <;> cases e
    · intro e; cases s
      · simp
      · cases e
  | case7 n as l s c input k hp =>
    refine ⟨by simp, ?_, ?_, by simp⟩
    · simp only [List.length_cons, List.length_take]; omega
    · intro _
      exact ⟨fun e => absurd (hp.symm.trans e) (by decide), fun _ => by simp⟩
  | case8 n as l s c input k hp r ih =>
    obtain ⟨h1, h2, h3, h4⟩ := ih
    have hlen : (input.take k).length ≤ l := by simp only [List.length_take]; omega
    refine ⟨?_, ?_, ?_, ?_⟩
    · show c :: input.take k ++ r.data ++ r.rest = _
      rw [List.append_assoc, h1, List.cons_append, List.take_append_drop]
    · show (c :: input.take k ++ r.data).length ≤ _
      simp only [List.length_append, List.length_cons]
      have h2 : r.data.length ≤ _ := h2
      omega
    · intro e
      refine ⟨?_, fun _ => ?_⟩
      · intro hpf
        show (c :: input.take k ++ r.data).length = _
        simp only [List.length_append, List.length_cons]
        have h3 : r.data.length = _ := (h3 e).1 hpf
        omega
      · show 1 ≤ (c :: input.take k ++ r.data).length
        simp only [List.length_append, List.length_cons]
        omega
    · intro e
      have := (h4 e).1
      cases this

theorem clientReceive_spec (part : Bool) (as : List Answer) (size : Nat) (input : Bytes) :
    let g := clientReceive part as size input
    (g.result = .ok → g.data ++ g.rest = input ∧ Fits g.data (size, part)) ∧
    (g.result = .eof → input = [] ∧ size ≠ 0) := by
  fun_induction clientReceive part as size input with
  | case1 as input => simp [Fits]
  | case2 l input => simp
  | case3 as l input ih => exact ih
  | case4 as l input => simp
  | case5 as l input => simp
  | case6 n as l input d hd =>
    refine ⟨by simp, fun _ => ⟨?_, by simp⟩⟩
    cases input with
    | nil => rfl
    | cons c input => simp [d] at hd
  | case7 n as l input d hd h => simp
  | case8 n as l input d hd h =>
    refine ⟨fun _ => ⟨List.take_append_drop _ _, ?_⟩, by simp⟩
    have h1 : 1 ≤ d.length := by
      cases hdd : d with
      | nil => exact absurd hdd hd
      | cons => simp
    have h2 : d.length ≤ l + 1 := by simp only [d, List.length_take]; omega
    simp only [Fits]
    split
    · exact ⟨h1, h2⟩
    · rename_i hp
      have hp : part = false := by cases part <;> simp_all
      exact Decidable.byContradiction fun e => h ⟨e, hp⟩

theorem serverReceive_spec (part : Bool) (as : List Answer) (size : Nat) (input : Bytes) :
    let g := serverReceive part as size input
    (g.result = .ok → g.data ++ g.rest = input ∧ Fits g.data (size, part)) ∧
    (g.result = .eof → input = [] ∧ size ≠ 0) := by
  obtain ⟨h1, h2, h3, h4⟩ := serverLoop_spec part as size false input
  refine ⟨fun e => ⟨h1, ?_⟩, fun e => (h4 e).2⟩
  obtain ⟨h5, h6⟩ := h3 e
  unfold serverReceive
  simp only [Fits]
  split
  · rename_i hp; exact ⟨h6 hp.2, h2⟩
  · rename_i hp
    cases hpart : part with
    | false => subst hpart; exact h5 rfl
    | true =>
      have : size = 0 := Decidable.byContradiction fun e => hp ⟨hpart, e⟩
      subst hpart
      omega

/-! ## Sequences of calls -/

theorem sendAll_server (as : List Answer) (bs : List Bytes) :
    (sendAll serverSend as bs).2 <+: bs.flatten ∧
    (bs.take (sendAll serverSend as bs).1).flatten <+: (sendAll serverSend as bs).2 ∧
    ((sendAll serverSend as bs).1 = bs.length → (sendAll serverSend as bs).2 = bs.flatten) ∧
    (sendAll serverSend as bs).1 ≤ bs.length := by
  induction bs generalizing as with
  | nil => simp [sendAll]
  | cons b bs ih =>
    obtain ⟨h1, h2, h3⟩ := serverSend_spec as b
    rw [sendAll]
    generalize serverSend as b = r at *
    obtain ⟨res, w, as'⟩ := r
    cases res with
    | ok =>
      have hw : w = b := h2 rfl
      subst hw
      obtain ⟨i1, i2, i3, i4⟩ := ih as'
      refine ⟨?_, ?_, ?_, ?_⟩
      · simpa using i1
      · simpa using i2
      · intro e
        have e : (sendAll serverSend as' bs).1 + 1 = bs.length + 1 := e
        show w ++ (sendAll serverSend as' bs).2 = _
        rw [i3 (by omega)]; rfl
      · show (sendAll serverSend as' bs).1 + 1 ≤ bs.length + 1
        omega
    | eof => exact absurd rfl h3
    | error => exact ⟨by simpa using h1.trans (List.prefix_append _ _), by simp, by simp, by simp⟩
    | blocked => exact ⟨by simpa using h1.trans (List.prefix_append _ _), by simp, by simp, by simp⟩

theorem sendAll_client (as : List Answer) (bs : List Bytes) (hw : ∀ b ∈ bs, Whole as b.length) :
    (sendAll clientSend as bs).2 <+: bs.flatten ∧
    (bs.take (sendAll clientSend as bs).1).flatten <+: (sendAll clientSend as bs).2 ∧
    ((sendAll clientSend as bs).1 = bs.length → (sendAll clientSend as bs).2 = bs.flatten) ∧
    (sendAll clientSend as bs).1 ≤ bs.length := by
  induction bs generalizing as with
  | nil => simp [sendAll]
  | cons b bs ih =>
    obtain ⟨h1, h2, h3, h4⟩ := clientSend_spec as b
    have h2 := h2 (hw b (by simp))
    rw [sendAll]
    generalize clientSend as b = r at *
    obtain ⟨res, w, as'⟩ := r
    cases res with
    | ok =>
      have hww : w = b := h2 rfl
      subst hww
      obtain ⟨i1, i2, i3, i4⟩ := ih as' (fun b hb n hn => hw b (by simp [hb]) n (h4 _ hn))
      refine ⟨?_, ?_, ?_, ?_⟩
      · simpa using i1
      · simpa using i2
      · intro e
        have e : (sendAll clientSend as' bs).1 + 1 = bs.length + 1 := e
        show w ++ (sendAll clientSend as' bs).2 = _
        rw [i3 (by omega)]; rfl
      · show (sendAll clientSend as' bs).1 + 1 ≤ bs.length + 1
        omega
    | eof => exact absurd rfl h3
    | error => exact ⟨by simpa using h1.trans (List.prefix_append _ _), by simp, by simp, by simp⟩
    | blocked => exact ⟨by simpa using h1.trans (List.prefix_append _ _), by simp, by simp, by simp⟩

theorem receiveAll_spec (recv : Bool → List Answer → Nat → Bytes → Got)
    (hrecv : ∀ part as size input, let g := recv part as size input
      (g.result = .ok → g.data ++ g.rest = input ∧ Fits g.data (size, part)) ∧ (g.result = .eof → input = [] ∧ size ≠ 0))
    (as : List Answer) (qs : List (Nat × Bool)) (input : Bytes) :
    let r := receiveAll recv as qs input
    r.1.flatten <+: input ∧ r.1.length ≤ qs.length ∧
    (∀ (i : Nat) d q, r.1[i]? = some d → qs[i]? = some q → Fits d q) ∧
    (r.2 = .ok ↔ r.1.length = qs.length) ∧ (r.2 = .eof → r.1.flatten = input) := by
  induction qs generalizing as input with
  | nil => simp [receiveAll]
  | cons q qs ih =>
    obtain ⟨size, part⟩ := q
    obtain ⟨h1, h2⟩ := hrecv part as size input
    rw [receiveAll]
    generalize recv part as size input = g at *
    obtain ⟨res, data, rest, script⟩ := g
    cases res with
    | ok =>
      obtain ⟨e1, e2⟩ := h1 rfl
      have e1 : data ++ rest = input := e1
      obtain ⟨i1, i2, i3, i4, i5⟩ := ih script rest
      refine ⟨?_, ?_, ?_, ?_, ?_⟩
      · subst e1; simpa using i1
      · show (receiveAll recv script qs rest).1.length + 1 ≤ qs.length + 1
        omega
      · intro i d q hd hq
        cases i with
        | zero =>
          have hd : some data = some d := hd
          have hq : some (size, part) = some q := hq
          cases hd; cases hq; exact e2
        | succ i => exact i3 i d q (by simpa using hd) (by simpa using hq)
      · show (receiveAll recv script qs rest).2 = .ok ↔ (receiveAll recv script qs rest).1.length + 1 = qs.length + 1
        rw [i4]; omega
      · intro e
        show data ++ (receiveAll recv script qs rest).1.flatten = input
        rw [i5 e, e1]
    | eof =>
      obtain ⟨e1, _⟩ := h2 rfl
      subst e1
      exact ⟨by simp, by simp, by simp, by simp, by simp⟩
    | error => exact ⟨by simp, by simp, by simp, by simp, by simp⟩
    | blocked => exact ⟨by simp, by simp, by simp, by simp, by simp⟩

/-! ## Theorems -/

/-- C117: from server to client. Whatever the kernels on both sides do (interrupts, short transfers, errors), what the client gets from
its calls, up to the first one that fails, is a prefix of what the server sent, each buffer of the size asked for; the end of the
stream is reported only when everything the kernel of the server accepted has been delivered, which is everything if all its calls
succeeded. -/
theorem C117_server_to_client (as as' : List Answer) (bs : List Bytes) (qs : List (Nat × Bool)) :
    let s := sendAll serverSend as bs
    let r := receiveAll clientReceive as' qs s.2
    r.1.flatten <+: bs.flatten ∧
    (∀ (i : Nat) d q, r.1[i]? = some d → qs[i]? = some q → Fits d q) ∧
    (r.2 = .ok ↔ r.1.length = qs.length) ∧
    (r.2 = .eof → (bs.take s.1).flatten <+: r.1.flatten ∧ (s.1 = bs.length → r.1.flatten = bs.flatten)) := by
  intro s r
  obtain ⟨h1, h2, h3, h4⟩ := sendAll_server as bs
  obtain ⟨i1, i2, i3, i4, i5⟩ := receiveAll_spec clientReceive clientReceive_spec as' qs s.2
  exact ⟨i1.trans h1, i3, i4, fun e => ⟨by rw [i5 e]; exact h2, fun e2 => by rw [i5 e, h3 e2]⟩⟩

/-- C118: the same from client to server, if the kernel of the client always accepts a whole buffer (as a blocking socket does if no
signal interrupts it). Missing: the case that it doesn't, see `C118_short_send_violated`. -/
theorem C118_client_to_server_partial (as as' : List Answer) (bs : List Bytes) (qs : List (Nat × Bool))
    (hw : ∀ b ∈ bs, Whole as b.length) :
    let s := sendAll clientSend as bs
    let r := receiveAll serverReceive as' qs s.2
    r.1.flatten <+: bs.flatten ∧
    (∀ (i : Nat) d q, r.1[i]? = some d → qs[i]? = some q → Fits d q) ∧
    (r.2 = .ok ↔ r.1.length = qs.length) ∧
    (r.2 = .eof → (bs.take s.1).flatten <+: r.1.flatten ∧ (s.1 = bs.length → r.1.flatten = bs.flatten)) := by
  intro s r
  obtain ⟨h1, h2, h3, h4⟩ := sendAll_client as bs hw
  obtain ⟨i1, i2, i3, i4, i5⟩ := receiveAll_spec serverReceive serverReceive_spec as' qs s.2
  exact ⟨i1.trans h1, i3, i4, fun e => ⟨by rw [i5 e]; exact h2, fun e2 => by rw [i5 e, h3 e2]⟩⟩

/-- C118 is violated: the client does not look at how many bytes were sent. If a signal interrupts a `send` in the middle of a buffer,
the rest of the buffer is lost and both calls succeed; the server gets bytes that are not a prefix of what was sent. -/
theorem C118_short_send_violated : ∃ as as',
    (sendAll clientSend as [[1, 2, 3], [4, 5]]).1 = 2 ∧
    receiveAll serverReceive as' [(3, false)] (sendAll clientSend as [[1, 2, 3], [4, 5]]).2 = ([[1, 4, 5]], .ok) :=
  ⟨[.bytes 0, .bytes 7], [.bytes 7], by decide, by decide⟩

/-- Of each buffer a beginning, which is empty only if the buffer is. -/
inductive Beginnings : List Bytes → List Bytes → Prop
  | nil : Beginnings [] []
  | cons {b w : Bytes} {bs ws : List Bytes} : w <+: b → (b ≠ [] → w ≠ []) → Beginnings bs ws → Beginnings (b :: bs) (w :: ws)

theorem clientSend_ok (as : List Answer) (b : Bytes) (h : (clientSend as b).1 = .ok) :
    (clientSend as b).2.1 <+: b ∧ (b ≠ [] → (clientSend as b).2.1 ≠ []) := by
  fun_induction clientSend as b with
  | case1 => cases h
  | case2 _ _ ih => exact ih h
  | case3 => cases h
  | case4 => cases h
  | case5 n as d =>
    refine ⟨List.take_prefix _ _, fun hd => ?_⟩
    cases d with
    | nil => exact absurd rfl hd
    | cons c d => simp

/-- C118, exactly: if all calls of `Send` succeed, the bytes on the way to the server can be any beginnings of the buffers one after the
other, and nothing else. -/
theorem C118_exactly (bs : List Bytes) (wire : Bytes) :
    (∃ as, sendAll clientSend as bs = (bs.length, wire)) ↔ ∃ ws, Beginnings bs ws ∧ wire = ws.flatten := by
  constructor
  · rintro ⟨as, h⟩
    induction bs generalizing as wire with
    | nil =>
      rw [sendAll] at h
      cases h
      exact ⟨[], .nil, rfl⟩
    | cons b bs ih =>
      have hc := clientSend_ok as b
      rw [sendAll] at h
      generalize clientSend as b = r at h hc
      obtain ⟨res, w, as'⟩ := r
      cases res with
      | ok =>
        have h1 : (sendAll clientSend as' bs).1 + 1 = bs.length + 1 := congrArg Prod.fst h
        have h2 : w ++ (sendAll clientSend as' bs).2 = wire := congrArg Prod.snd h
        obtain ⟨ws, hb, hw⟩ := ih _ as' (Prod.ext (by simpa using h1) rfl)
        exact ⟨w :: ws, .cons (hc rfl).1 (hc rfl).2 hb, by rw [List.flatten_cons, ← hw, h2]⟩
      | eof => exact absurd (congrArg Prod.fst h) (by simp)
      | error => exact absurd (congrArg Prod.fst h) (by simp)
      | blocked => exact absurd (congrArg Prod.fst h) (by simp)
  · rintro ⟨ws, hb, rfl⟩
    induction hb with
    | nil => exact ⟨[], rfl⟩
    | @cons b w bs ws hp hn _ ih =>
      obtain ⟨as, ih⟩ := ih
      refine ⟨.bytes (w.length - 1) :: as, ?_⟩
      have hw : b.take (w.length - 1 + 1) = w := by
        by_cases hb : b = []
        · subst hb
          have : w = [] := List.prefix_nil.1 hp
          rw [this]; rfl
        · have : 0 < w.length := List.length_pos_iff.2 (hn hb)
          rw [Nat.sub_add_cancel this]
          exact (List.prefix_iff_eq_take.1 hp).symm
      rw [sendAll, clientSend]
      simp only [ih, hw]
      rfl

/-- C118: then the server gets what was sent if and only if no buffer was cut. -/
theorem C118_whole_iff (bs ws : List Bytes) (h : Beginnings bs ws) : ws.flatten = bs.flatten ↔ ws = bs := by
  refine ⟨fun e => ?_, fun e => by rw [e]⟩
  have hle : ∀ {bs ws : List Bytes}, Beginnings bs ws → ws.flatten.length ≤ bs.flatten.length := by
    intro bs ws h
    induction h with
    | nil => exact Nat.le_refl _
    | cons hp _ _ ih =>
      have := hp.length_le
      simp only [List.flatten_cons, List.length_append]
      omega
  have key : ws.flatten.length = bs.flatten.length → ws = bs := by
    clear e
    induction h with
    | nil => exact fun _ => rfl
    | cons hp _ h ih =>
      intro e
      have h1 := hp.length_le
      have h2 := hle h
      simp only [List.flatten_cons, List.length_append] at e
      rw [ih (by omega), hp.eq_of_length (by omega)]
  exact key (by rw [e])

/-- Three buffers, of which the first is cut. -/
example : Beginnings [[1, 2, 3], [], [4, 5]] [[1], [], [4, 5]] := by
  refine .cons ⟨[2, 3], rfl⟩ (by decide) (.cons ⟨[], rfl⟩ (by decide) (.cons ⟨[], rfl⟩ (by decide) .nil))

/-- Interrupts and short transfers on both sides; the last call finds the end of the stream. -/
theorem C117_example :
    let s := sendAll serverSend [.interrupted, .bytes 0, .again, .bytes 0, .bytes 9, .bytes 9] [[1, 2, 3], [], [4, 5]]
    s = (3, [1, 2, 3, 4, 5]) ∧
    receiveAll clientReceive [.interrupted, .bytes 9, .bytes 0, .bytes 3, .bytes 0] [(2, false), (9, true), (0, false), (2, true), (1, false)]
      s.2 = ([[1, 2], [3], [], [4, 5]], .eof) := by
  decide

theorem C118_example :
    let as : List Answer := [.interrupted, .bytes 2, .bytes 9]
    (∀ b ∈ [[1, 2, 3], [(4 : UInt8)]], Whole as b.length) ∧ sendAll clientSend as [[1, 2, 3], [4]] = (2, [1, 2, 3, 4]) ∧
    receiveAll serverReceive [.bytes 0, .again, .bytes 1, .interrupted, .bytes 0, .bytes 0] [(4, false), (1, false)] [1, 2, 3, 4] =
      ([[1, 2, 3, 4]], .eof) := by
  refine ⟨?_, by decide, by decide⟩
  intro b hb n hn
  simp only [List.mem_cons, List.not_mem_nil, or_false, reduceCtorEq, Answer.bytes.injEq, false_or] at hb hn
  rcases hb with rfl | rfl <;> rcases hn with rfl | rfl <;> decide

end Verif.Pump.Sockets
