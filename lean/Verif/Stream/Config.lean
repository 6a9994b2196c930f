/-!
# Telling the clients about new manifests (C75-C77)

The server's side is `ConfigStreamServiceImpl`, cdc_stream/grpc_asset_stream_server.cc:148-267; the client's side is
`ManifestIdReader` and `SendManifestAck`, cdc_fuse_fs/config_stream_client.cc:34-116, and `SetManifest`,
cdc_fuse_fs/cdc_fuse_fs.cc:1532-1619.

Each call of `GetManifestId` runs in a thread of its own on the server.  What the threads do between two acquisitions
of the mutex is one step; the steps of all threads, of the clients and of whoever sets manifests are interleaved
arbitrarily.  gRPC is assumed to deliver what was written with success, in order.  The empty id, which
both `id_` and `local_id` are initially, is `none`.
-/

namespace Verif.Config

set_option linter.unusedSectionVars false

variable {ι κ : Type} [DecidableEq ι] [DecidableEq κ]

/-! ## Model -/

/-- Where a call of `GetManifestId` is: in `WaitForUpdate`, in `stream->Write`, or returned. -/
inductive Phase
  | waiting
  | writing
  | done
  deriving DecidableEq

/-- A call of `GetManifestId` and the client that made it.  `κ` are instances, `ι` are manifest ids. -/
structure Conn (ι κ : Type) where
  /-- the instance the client runs on, `instance_` -/
  inst : κ
  phase : Phase := .waiting
  /-- `local_id` -/
  last : Option ι := none
  /-- the ids that were written with success -/
  sent : List ι := []
  /-- a write has failed -/
  failed : Bool := false
  /-- how many of the ids in `sent` the client has read -/
  read : Nat := 0
  /-- the manifests the client has shown, the newest at the end; initially there is an empty directory,
  `InitializeRootManifest`, cdc_fuse_fs.cc:1635-1643 -/
  shown : List ι := []
  /-- the manifest that is to be acknowledged -/
  toAck : Option ι := none

/-- The state of the server and of its clients. -/
structure State (ι κ : Type) where
  /-- `id_` -/
  id : Option ι := none
  /-- `running_` -/
  running : Bool := true
  /-- `acked_manifest_ids_` -/
  acked : κ → Option ι := fun _ => none
  /-- the calls of `GetManifestId` so far -/
  conn : Nat → Option (Conn ι κ) := fun _ => none
  /-- every id passed to `SetManifestId`, in order (a history) -/
  set : List ι := []

def State.put (s : State ι κ) (k : Nat) (c : Conn ι κ) : State ι κ :=
  { s with conn := fun j => if j = k then some c else s.conn j }

/-- The condition `WaitForUpdate` waits for, grpc_asset_stream_server.cc:248-250. -/
def State.awake (s : State ι κ) (c : Conn ι κ) : Bool := !s.running || c.last != s.id

/-- `WaitForUpdate` after the wait and the `break`, grpc_asset_stream_server.cc:161-163, 251-253. -/
def wake (s : State ι κ) (c : Conn ι κ) : Conn ι κ :=
  { c with last := s.id, phase := if s.running then .writing else .done }

/-- `stream->Write` and the rest of the loop, grpc_asset_stream_server.cc:166-176.  `local_id` is not empty here. -/
def write (s : State ι κ) (c : Conn ι κ) (ok : Bool) : Conn ι κ :=
  { c with
    sent := if ok then c.sent ++ c.last.toList else c.sent
    failed := c.failed || !ok
    phase := if s.running then .waiting else .done }

/-- The client reads an id and calls `SetManifest` until before `SendManifestAck`, config_stream_client.cc:59-70,
cdc_fuse_fs.cc:1532-1606.  If the manifest cannot be loaded, the error is logged and the next id is read. -/
def load (c : Conn ι κ) (i : ι) (ok : Bool) : Conn ι κ :=
  if ok then { c with read := c.read + 1, shown := c.shown ++ [i], toAck := some i }
  else { c with read := c.read + 1 }

/-- What goes wrong in a step. -/
inductive Kind
  | none
  /-- an id cannot be sent -/
  | writeFails
  /-- a client cannot load a manifest -/
  | loadFails
  /-- an acknowledgement is lost -/
  | ackFails
  deriving DecidableEq

inductive Step : Kind → State ι κ → State ι κ → Prop
  /-- `SetManifestId`, grpc_asset_stream_server.cc:204-209 -/
  | set (s : State ι κ) (i : ι) : Step .none s { s with id := some i, set := s.set ++ [i] }
  /-- `Shutdown`, grpc_asset_stream_server.cc:227-233 -/
  | shutdown (s : State ι κ) : Step .none s { s with running := false }
  /-- a client calls `GetManifestId`, grpc_asset_stream_server.cc:155-159, config_stream_client.cc:40-53 -/
  | connect (s : State ι κ) (k : Nat) (inst : κ) (hk : s.conn k = none) : Step .none s (s.put k { inst := inst })
  | wake (s : State ι κ) (k : Nat) (c : Conn ι κ) (hk : s.conn k = some c) (hp : c.phase = .waiting)
      (hw : s.awake c) : Step .none s (s.put k (wake s c))
  | write (s : State ι κ) (k : Nat) (c : Conn ι κ) (ok : Bool) (hk : s.conn k = some c) (hp : c.phase = .writing) :
      Step (if ok then .none else .writeFails) s (s.put k (write s c ok))
  | load (s : State ι κ) (k : Nat) (c : Conn ι κ) (i : ι) (ok : Bool) (hk : s.conn k = some c)
      (ha : c.toAck = none) (hr : c.sent[c.read]? = some i) :
      Step (if ok then .none else .loadFails) s (s.put k (load c i ok))
  /-- `SendManifestAck` and `AckManifestIdReceived`, config_stream_client.cc:105-116,
  grpc_asset_stream_server.cc:180-188 -/
  | ack (s : State ι κ) (k : Nat) (c : Conn ι κ) (i : ι) (hk : s.conn k = some c) (ha : c.toAck = some i) :
      Step .none s
        { s.put k { c with toAck := none } with acked := fun n => if n = c.inst then some i else s.acked n }
  | ackFails (s : State ι κ) (k : Nat) (c : Conn ι κ) (i : ι) (hk : s.conn k = some c) (ha : c.toAck = some i) :
      Step .ackFails s (s.put k { c with toAck := none })

/-- `WaitForManifestAck` returns OK, grpc_asset_stream_server.cc:211-225; it is called after a manifest was set,
multi_session.cc:147-161. -/
def WaitOk (s : State ι κ) (inst : κ) : Prop := ∃ i, s.id = some i ∧ s.acked inst = some i

/-- Reachable with steps whose kinds are allowed. -/
inductive Reach (ok : Kind → Prop) : State ι κ → Prop
  | init : Reach ok {}
  | step {s t : State ι κ} {k : Kind} (h : Reach ok s) (hk : ok k) (st : Step k s t) : Reach ok t

/-! ## Specification -/

/-- The last manifest that was set. -/
def current (s : State ι κ) : Option ι := s.set.getLast?

/-- The manifest a client shows. -/
def shows (c : Conn ι κ) : Option ι := c.shown.getLast?

/-- No two consecutive elements are equal. -/
def NoStutter {α : Type} (l : List α) : Prop := ∀ a b x y, l = a ++ x :: y :: b → x ≠ y

/-- A call of `GetManifestId` has nothing to do until something is set. -/
def Conn.idle (s : State ι κ) (c : Conn ι κ) : Prop := c.phase = .waiting ∧ s.awake c = false

/-- A client has nothing to do until something is sent. -/
def Conn.settled (c : Conn ι κ) : Prop := c.toAck = none ∧ c.read = c.sent.length

/-- Steps taken by the call `k`, for counting. -/
def OfConn (k : Nat) (s t : State ι κ) : Prop :=
  ∃ c c', s.conn k = some c ∧ t = s.put k c' ∧
    ((c.phase = .waiting ∧ s.awake c ∧ c' = wake s c) ∨ (c.phase = .writing ∧ ∃ ok, c' = write s c ok))

/-! ## Invariant -/

/-- The ids a call will have taken from `id_`: those sent, and the one it is about to send. -/
def Conn.taken (c : Conn ι κ) : List ι := if c.phase = .writing then c.sent ++ c.last.toList else c.sent

structure ConnInv (s : State ι κ) (c : Conn ι κ) : Prop where
  sub : ∃ p, p <+: s.set ∧ c.last = p.getLast? ∧ c.taken.Sublist p
  writing : c.phase = .writing → c.last ≠ none
  clean : c.failed = false → c.phase ≠ .done → c.last = c.taken.getLast?
  noStutter : c.failed = false → NoStutter c.taken
  stop : s.running = true → c.phase ≠ .done
  read : c.read ≤ c.sent.length
  shown : c.shown.Sublist (c.sent.take c.read)
  toAck : ∀ i, c.toAck = some i → c.shown.getLast? = some i

structure Inv (s : State ι κ) : Prop where
  id : s.id = s.set.getLast?
  conn : ∀ k c, s.conn k = some c → ConnInv s c
  acked : ∀ n i, s.acked n = some i → ∃ k c, s.conn k = some c ∧ c.inst = n ∧ i ∈ c.shown

theorem noStutter_nil {α : Type} : NoStutter ([] : List α) := by
  intro a b x y h
  cases a <;> simp at h

theorem NoStutter.concat {α : Type} {l : List α} (h : NoStutter l) {z : α} (hz : l.getLast? ≠ some z) :
    NoStutter (l ++ [z]) := by
  intro a b x y e
  rcases List.eq_nil_or_concat b with rfl | ⟨b', w, rfl⟩
  · have e1 : l ++ [z] = (a ++ [x]) ++ [y] := by rw [e]; simp
    obtain ⟨h1, h2⟩ := List.append_inj' e1 rfl
    rw [h1] at hz
    simp only [List.getLast?_append, List.getLast?_singleton, Option.some_or] at hz
    intro hxy
    apply hz
    rw [hxy]
    simp only [List.cons.injEq, and_true] at h2
    rw [h2]
  · have e1 : l ++ [z] = (a ++ x :: y :: b') ++ [w] := by rw [e]; simp
    obtain ⟨h1, _⟩ := List.append_inj' e1 rfl
    exact h a b' x y h1

theorem prefix_grow {α : Type} {p l : List α} (hp : p <+: l) (h : p.getLast? ≠ l.getLast?) :
    ∃ z, l.getLast? = some z ∧ ∀ q : List α, q.Sublist p → (q ++ [z]).Sublist l := by
  obtain ⟨r, rfl⟩ := hp
  rcases List.eq_nil_or_concat r with rfl | ⟨r', z, rfl⟩
  · simp at h
  · refine ⟨z, by simp, fun q hq => ?_⟩
    rw [List.concat_eq_append, ← List.append_assoc]
    exact (hq.trans (List.sublist_append_left p r')).append (List.Sublist.refl _)

theorem ConnInv.wake {s : State ι κ} (hs : Inv s) {c : Conn ι κ} (h : ConnInv s c) (hp : c.phase = .waiting)
    (hw : s.awake c) : ConnInv s (wake s c) := by
  obtain ⟨p, hp1, hp2, hp3⟩ := h.sub
  have ht : c.taken = c.sent := by simp [Conn.taken, hp]
  rw [ht] at hp3
  by_cases hr : s.running = true
  · have hne : c.last ≠ s.id := by simpa [State.awake, hr] using hw
    obtain ⟨z, hz, hq⟩ := prefix_grow hp1 (by rw [← hp2, ← hs.id]; exact hne)
    have hid : s.id = some z := hs.id.trans hz
    have ht' : (Config.wake s c).taken = c.sent ++ [z] := by simp [Conn.taken, Config.wake, hr, hid]
    exact {
      sub := ⟨s.set, List.prefix_rfl, hs.id, by rw [ht']; exact hq _ hp3⟩
      writing := fun _ => by simp [Config.wake, hid]
      clean := fun _ _ => by rw [ht']; simp [Config.wake, hid]
      noStutter := fun hf => by
        rw [ht']
        have h1 := h.noStutter hf
        have h2 := h.clean hf (by rw [hp]; decide)
        rw [ht] at h1 h2
        exact h1.concat (by rw [← h2, ← hid]; exact hne)
      stop := fun _ => by simp [Config.wake, hr]
      read := h.read
      shown := h.shown
      toAck := h.toAck }
  · have ht' : (Config.wake s c).taken = c.sent := by simp [Conn.taken, Config.wake, hr]
    exact {
      sub := ⟨s.set, List.prefix_rfl, hs.id, by rw [ht']; exact hp3.trans hp1.sublist⟩
      writing := fun e => by simp [Config.wake, hr] at e
      clean := fun _ e => by simp [Config.wake, hr] at e
      noStutter := fun hf => by
        have h1 := h.noStutter hf
        rw [ht] at h1
        rw [ht']
        exact h1
      stop := fun e => absurd e hr
      read := h.read
      shown := h.shown
      toAck := h.toAck }

theorem ConnInv.write {s : State ι κ} {c : Conn ι κ} (h : ConnInv s c) (hp : c.phase = .writing) (ok : Bool) :
    ConnInv s (write s c ok) := by
  have ht : c.taken = c.sent ++ c.last.toList := by simp [Conn.taken, hp]
  have hph : (Config.write s c ok).phase ≠ .writing := by
    simp only [Config.write]
    split <;> decide
  have ht' : (Config.write s c ok).taken = if ok then c.taken else c.sent := by
    rw [ht, Conn.taken, if_neg hph, Config.write]
  obtain ⟨p, hp1, hp2, hp3⟩ := h.sub
  exact {
    sub := ⟨p, hp1, hp2, by
      rw [ht']
      split
      · exact hp3
      · rw [ht] at hp3
        exact (List.sublist_append_left _ _).trans hp3⟩
    writing := fun e => absurd e hph
    clean := fun hf _ => by
      have hf' : c.failed = false ∧ ok = true := by simpa [Config.write] using hf
      rw [ht', if_pos hf'.2]
      exact h.clean hf'.1 (by rw [hp]; decide)
    noStutter := fun hf => by
      have hf' : c.failed = false ∧ ok = true := by simpa [Config.write] using hf
      rw [ht', if_pos hf'.2]
      exact h.noStutter hf'.1
    stop := fun e => by simp [Config.write, e]
    read := by
      have := h.read
      simp only [Config.write]
      split
      · rw [List.length_append]; omega
      · exact this
    shown := by
      refine h.shown.trans ?_
      simp only [Config.write]
      split
      · rw [List.take_append_of_le_length h.read]
        exact List.Sublist.refl _
      · exact List.Sublist.refl _
    toAck := h.toAck }

theorem ConnInv.load {s : State ι κ} {c : Conn ι κ} (h : ConnInv s c) (ha : c.toAck = none) {i : ι}
    (hr : c.sent[c.read]? = some i) (ok : Bool) : ConnInv s (load c i ok) := by
  have hlt : c.read < c.sent.length := (List.getElem?_eq_some_iff.mp hr).1
  have htake : c.sent.take (c.read + 1) = c.sent.take c.read ++ [i] := by
    rw [List.take_add_one, hr]
    rfl
  cases ok with
  | true =>
    exact {
      sub := h.sub, writing := h.writing, clean := h.clean, noStutter := h.noStutter, stop := h.stop
      read := hlt
      shown := by
        show (c.shown ++ [i]).Sublist (c.sent.take (c.read + 1))
        rw [htake]
        exact h.shown.append (List.Sublist.refl _)
      toAck := fun j hj => by
        simp only [Config.load, if_true, Option.some.injEq] at hj ⊢
        simp [hj] }
  | false =>
    exact {
      sub := h.sub, writing := h.writing, clean := h.clean, noStutter := h.noStutter, stop := h.stop
      read := hlt
      shown := by
        show c.shown.Sublist (c.sent.take (c.read + 1))
        rw [htake]
        exact h.shown.trans (List.sublist_append_left _ _)
      toAck := fun j hj => by
        have : c.toAck = some j := hj
        rw [ha] at this
        cases this }

theorem ConnInv.acked {s : State ι κ} {c : Conn ι κ} (h : ConnInv s c) : ConnInv s { c with toAck := none } :=
  { sub := h.sub, writing := h.writing, clean := h.clean, noStutter := h.noStutter, stop := h.stop, read := h.read
    shown := h.shown, toAck := fun _ e => by cases e }

theorem put_conn (s : State ι κ) (k : Nat) (c : Conn ι κ) (j : Nat) :
    (s.put k c).conn j = if j = k then some c else s.conn j := rfl

/-- Replacing a call by one that has shown at least as much. -/
theorem Inv.put {s : State ι κ} (h : Inv s) {k : Nat} {c c' : Conn ι κ} (hk : s.conn k = some c)
    (hc : ConnInv s c') (hi : c'.inst = c.inst) (hsh : ∀ i ∈ c.shown, i ∈ c'.shown) : Inv (s.put k c') where
  id := h.id
  conn := by
    intro j d hj
    rw [put_conn] at hj
    have : ConnInv s d := by
      by_cases e : j = k
      · rw [if_pos e, Option.some.injEq] at hj
        exact hj ▸ hc
      · rw [if_neg e] at hj
        exact h.conn j d hj
    exact { this with }
  acked := by
    intro n i hn
    obtain ⟨j, d, hj, hd, hm⟩ := h.acked n i hn
    by_cases e : j = k
    · rw [e, hk, Option.some.injEq] at hj
      refine ⟨k, c', by rw [put_conn, if_pos rfl], by rw [hi, hj, hd], hsh i (by rw [hj]; exact hm)⟩
    · exact ⟨j, d, by rw [put_conn, if_neg e]; exact hj, hd, hm⟩

theorem Inv.step {s t : State ι κ} {kd : Kind} (h : Inv s) (st : Step kd s t) : Inv t := by
  cases st with
  | set _ i =>
    exact {
      id := by simp
      conn := fun k c hk =>
        have hc := h.conn k c hk
        { hc with
          sub := by
            obtain ⟨p, h1, h2, h3⟩ := hc.sub
            exact ⟨p, h1.trans (List.prefix_append _ _), h2, h3⟩ }
      acked := h.acked }
  | shutdown _ =>
    exact {
      id := h.id
      conn := fun k c hk => { h.conn k c hk with stop := fun e => by cases e }
      acked := h.acked }
  | connect _ k inst hk =>
    exact {
      id := h.id
      conn := by
        intro j d hj
        rw [put_conn] at hj
        by_cases e : j = k
        · rw [if_pos e, Option.some.injEq] at hj
          subst hj
          exact {
            sub := ⟨[], List.nil_prefix, rfl, List.Sublist.refl _⟩
            writing := fun e => by cases e
            clean := fun _ _ => rfl
            noStutter := fun _ => noStutter_nil
            stop := fun _ => (by decide : Phase.waiting ≠ Phase.done)
            read := Nat.le_refl _
            shown := List.Sublist.refl _
            toAck := fun _ e => by cases e }
        · rw [if_neg e] at hj
          exact { h.conn j d hj with }
      acked := by
        intro n i hn
        obtain ⟨j, d, hj, hd, hm⟩ := h.acked n i hn
        refine ⟨j, d, ?_, hd, hm⟩
        rw [put_conn, if_neg]
        · exact hj
        · rintro rfl
          rw [hk] at hj
          cases hj }
  | wake _ k c hk hp hw => exact h.put hk ((h.conn k c hk).wake h hp hw) rfl fun _ hm => hm
  | write _ k c ok hk hp => exact h.put hk ((h.conn k c hk).write hp ok) rfl fun _ hm => hm
  | load _ k c i ok hk ha hr =>
    refine h.put hk ((h.conn k c hk).load ha hr ok) ?_ fun j hj => ?_
    · cases ok <;> rfl
    · cases ok
      · exact hj
      · exact List.mem_append_left _ hj
  | ackFails _ k c i hk ha => exact h.put hk (h.conn k c hk).acked rfl fun _ hm => hm
  | ack _ k c i hk ha =>
    have h1 := h.put hk (h.conn k c hk).acked rfl fun _ hm => hm
    exact {
      id := h1.id
      conn := fun j d hj => { h1.conn j d hj with }
      acked := by
        intro n j hn
        have hn : (if n = c.inst then some i else s.acked n) = some j := hn
        by_cases e : n = c.inst
        · rw [if_pos e, Option.some.injEq] at hn
          refine ⟨k, { c with toAck := none }, by rw [put_conn, if_pos rfl], e.symm, ?_⟩
          rw [← hn]
          exact List.mem_of_getLast? ((h.conn k c hk).toAck i ha)
        · rw [if_neg e] at hn
          exact h1.acked n j hn }

theorem Reach.inv {ok : Kind → Prop} {s : State ι κ} (h : Reach ok s) : Inv s := by
  induction h with
  | init => exact ⟨rfl, fun _ _ e => (by cases e), fun _ _ e => (by cases e)⟩
  | step _ _ st ih => exact ih.step st

/-! ## C75: every listening client is told the current manifest -/

/-- Whatever happens, the ids a client is told are ids that were set, in the order they were set, and unless
sending fails, never the same twice in a row. -/
theorem C75_in_order {s : State ι κ} (h : Reach (fun _ => True) s) {k : Nat} {c : Conn ι κ}
    (hk : s.conn k = some c) : c.sent.Sublist s.set ∧ (c.failed = false → NoStutter c.sent) := by
  have hc := h.inv.conn k c hk
  obtain ⟨p, h1, _, h3⟩ := hc.sub
  have hs : c.sent.Sublist c.taken := by
    unfold Conn.taken
    split
    · exact List.sublist_append_left _ _
    · exact List.Sublist.refl _
  refine ⟨(hs.trans h3).trans h1.sublist, fun hf a b x y e => ?_⟩
  have h4 := hc.noStutter hf
  unfold Conn.taken at h4
  split at h4
  · exact h4 a (b ++ c.last.toList) x y (by rw [e]; simp)
  · exact h4 a b x y e

/-- When a call has nothing more to do, the last id it has sent is the current one; manifests that were replaced
meanwhile may have been skipped, the current one is not. -/
theorem C75_told {s : State ι κ} (h : Reach (fun _ => True) s) {k : Nat} {c : Conn ι κ}
    (hk : s.conn k = some c) (hf : c.failed = false) (hi : c.idle s) : c.sent.getLast? = current s := by
  have hc := h.inv.conn k c hk
  have h1 := hc.clean hf (by rw [hi.1]; decide)
  have h2 : c.taken = c.sent := by simp [Conn.taken, hi.1]
  have h3 : s.running = true ∧ c.last = s.id := by simpa [State.awake] using hi.2
  rw [← h2, ← h1, h3.2, h.inv.id]
  rfl

/-- A call that has something to do can do it. -/
theorem C75_progress {s : State ι κ} {k : Nat} {c : Conn ι κ} (hk : s.conn k = some c) (hd : c.phase ≠ .done)
    (hi : ¬ c.idle s) : ∃ t, Step .none s t ∧ OfConn k s t := by
  cases hp : c.phase with
  | done => exact absurd hp hd
  | waiting =>
    have hw : s.awake c = true := by
      cases e : s.awake c with
      | true => rfl
      | false => exact absurd ⟨hp, e⟩ hi
    exact ⟨_, .wake s k c hk hp hw, c, _, hk, rfl, .inl ⟨hp, hw, rfl⟩⟩
  | writing => exact ⟨_, .write s k c true hk hp, c, _, hk, rfl, .inr ⟨hp, true, rfl⟩⟩

/-- A stretch of steps in which no manifest is set and the server is not shut down; `n` of the steps are steps of
the call `k`. -/
inductive Quiet (k : Nat) : Nat → State ι κ → State ι κ → Prop
  | refl (s : State ι κ) : Quiet k 0 s s
  | own {n : Nat} {s t u : State ι κ} (h : Quiet k n s t) (st : OfConn k t u) : Quiet k (n + 1) s u
  | other {n : Nat} {s t u : State ι κ} {kd : Kind} (h : Quiet k n s t) (st : Step kd t u) (hs : u.set = t.set)
      (hr : u.running = t.running) : Quiet k n s u

def rank : Phase → Bool → Nat
  | .waiting, true => 2
  | .waiting, false => 0
  | .writing, true => 3
  | .writing, false => 1
  | .done, _ => 0

/-- How many steps a call has to take until it is idle or has returned. -/
def todo (s : State ι κ) (c : Conn ι κ) : Nat := rank c.phase (s.awake c)

theorem todo_own {s t : State ι κ} {k : Nat} {c : Conn ι κ} (hk : s.conn k = some c) (st : OfConn k s t) :
    ∃ c', t.conn k = some c' ∧ todo t c' < todo s c ∧ t.set = s.set ∧ t.id = s.id := by
  obtain ⟨d, c', hd, rfl, h⟩ := st
  rw [hk, Option.some.injEq] at hd
  subst hd
  refine ⟨c', by rw [put_conn, if_pos rfl], ?_, rfl, rfl⟩
  show rank c'.phase (s.awake c') < rank c.phase (s.awake c)
  rcases h with ⟨hp, hw, rfl⟩ | ⟨hp, ok, rfl⟩
  · rw [hp, hw]
    by_cases hr : s.running = true
    · have h1 : s.awake (wake s c) = false := by simp [State.awake, wake, hr]
      have h2 : (wake s c).phase = .writing := by simp [wake, hr]
      rw [h1, h2]
      decide
    · have h2 : (wake s c).phase = .done := by simp [wake, hr]
      rw [h2]
      exact Nat.zero_lt_succ _
  · have h1 : s.awake (write s c ok) = s.awake c := rfl
    rw [hp, h1]
    by_cases hr : s.running = true
    · have h2 : (write s c ok).phase = .waiting := by simp [write, hr]
      rw [h2]
      cases s.awake c <;> decide
    · have h2 : (write s c ok).phase = .done := by simp [write, hr]
      rw [h2]
      cases s.awake c <;> decide

theorem todo_other {s t : State ι κ} {kd : Kind} {k : Nat} {c : Conn ι κ} (hk : s.conn k = some c) (st : Step kd s t)
    (hs : t.set = s.set) (hr : t.running = s.running) : ∃ c', t.conn k = some c' ∧ todo t c' ≤ todo s c := by
  have key : ∀ (j : Nat) (d d' : Conn ι κ), s.conn j = some d → (s.awake d' = s.awake d ∧ d'.phase = d.phase) ∨
      OfConn j s (s.put j d') → ∃ c', (s.put j d').conn k = some c' ∧ todo (s.put j d') c' ≤ todo s c := by
    intro j d d' hj h
    by_cases e : k = j
    · subst e
      rw [hk, Option.some.injEq] at hj
      subst hj
      rcases h with h | h
      · refine ⟨d', by rw [put_conn, if_pos rfl], ?_⟩
        show rank d'.phase (s.awake d') ≤ rank c.phase (s.awake c)
        rw [h.1, h.2]
        exact Nat.le_refl _
      · obtain ⟨c', h1, h2, _⟩ := todo_own hk h
        exact ⟨c', h1, Nat.le_of_lt h2⟩
    · exact ⟨c, by rw [put_conn, if_neg e]; exact hk, Nat.le_refl _⟩
  cases st with
  | set _ i => simp at hs
  | shutdown _ =>
    refine ⟨c, hk, ?_⟩
    have hr : false = s.running := hr
    rw [show ({ s with running := false } : State ι κ) = s by rw [hr]]
    exact Nat.le_refl _
  | connect _ j inst hj =>
    have e : k ≠ j := by
      rintro rfl
      rw [hk] at hj
      cases hj
    exact ⟨c, by rw [put_conn, if_neg e]; exact hk, Nat.le_refl _⟩
  | wake _ j d hj hp hw => exact key j d _ hj (.inr ⟨d, _, hj, rfl, .inl ⟨hp, hw, rfl⟩⟩)
  | write _ j d ok hj hp => exact key j d _ hj (.inr ⟨d, _, hj, rfl, .inr ⟨hp, ok, rfl⟩⟩)
  | load _ j d i ok hj ha hr' => exact key j d _ hj (.inl (by cases ok <;> exact ⟨rfl, rfl⟩))
  | ack _ j d i hj ha =>
    obtain ⟨c', h1, h2⟩ := key j d { d with toAck := none } hj (.inl ⟨rfl, rfl⟩)
    exact ⟨c', h1, h2⟩
  | ackFails _ j d i hj ha => exact key j d _ hj (.inl ⟨rfl, rfl⟩)

/-- While nothing is set, a call takes at most three steps, whatever else happens; then it is idle, and by
`C75_told` it has sent the current id. -/
theorem C75_bounded {s t : State ι κ} {k n : Nat} {c : Conn ι κ} (hk : s.conn k = some c) (h : Quiet k n s t) :
    n ≤ 3 := by
  have key : ∃ c', t.conn k = some c' ∧ n + todo t c' ≤ todo s c := by
    induction h with
    | refl => exact ⟨c, hk, by omega⟩
    | own h st ih =>
      obtain ⟨d, hd, h1⟩ := ih hk
      obtain ⟨c', h2, h3, _⟩ := todo_own hd st
      exact ⟨c', h2, by omega⟩
    | other h st hs hr ih =>
      obtain ⟨d, hd, h1⟩ := ih hk
      obtain ⟨c', h2, h3⟩ := todo_other hd st hs hr
      exact ⟨c', h2, by omega⟩
  obtain ⟨c', _, h1⟩ := key
  have : todo s c ≤ 3 := by
    unfold todo
    cases c.phase <;> cases s.awake c <;> decide
  omega

/-! ## C76: success of waiting for an acknowledgement means that the client has the manifest -/

/-- If waiting for an instance's acknowledgement succeeds, a client on that instance has shown the manifest that is
current now.  Missing: it may be an earlier client, see `C76_restart_violated`. -/
theorem C76_acked_partial {s : State ι κ} (h : Reach (fun _ => True) s) {inst : κ} (hw : WaitOk s inst) :
    ∃ i k c, current s = some i ∧ s.conn k = some c ∧ c.inst = inst ∧ i ∈ c.shown := by
  obtain ⟨i, h1, h2⟩ := hw
  obtain ⟨k, c, h3, h4, h5⟩ := h.inv.acked inst i h2
  exact ⟨i, k, c, by rw [← h1, h.inv.id]; rfl, h3, h4, h5⟩

theorem getLast_of_sublist {l a : List ι} (hs : l.Sublist a) (hn : a.Nodup) {i : ι} (hl : a.getLast? = some i)
    (hm : i ∈ l) : l.getLast? = some i := by
  rcases List.eq_nil_or_concat a with rfl | ⟨a', z, rfl⟩
  · simp at hl
  · rw [List.concat_eq_append] at *
    simp only [List.getLast?_append, List.getLast?_singleton, Option.some_or, Option.some.injEq] at hl
    subst hl
    obtain ⟨l1, l2, rfl, h1, h2⟩ := List.sublist_append_iff.mp hs
    have hz : z ∉ a' := by
      intro hz
      have := (List.nodup_append.mp hn).2.2 z hz z (by simp)
      exact this rfl
    have hm2 : z ∈ l2 := by
      rcases List.mem_append.mp hm with h | h
      · exact absurd (h1.subset h) hz
      · exact h
    have : l2 = [z] := by
      cases h2 with
      | cons _ h => cases h; cases hm2
      | cons_cons _ h => cases h; rfl
    rw [this]
    simp

/-- If only one client has ever connected from the instance, it is that one; and if no manifest was set twice, it
shows the current manifest now. -/
theorem C76_acked_one_partial {s : State ι κ} (h : Reach (fun _ => True) s) {inst : κ} (hw : WaitOk s inst) {k : Nat}
    {c : Conn ι κ} (hk : s.conn k = some c)
    (hu : ∀ j d, s.conn j = some d → d.inst = inst → j = k) :
    (∃ i, current s = some i ∧ i ∈ c.shown) ∧ (s.set.Nodup → shows c = current s) := by
  obtain ⟨i, j, d, h1, h2, h3, h4⟩ := C76_acked_partial h hw
  have hj := hu j d h2 h3
  rw [hj, hk, Option.some.injEq] at h2
  subst h2
  refine ⟨⟨i, h1, h4⟩, fun hn => ?_⟩
  have hs : c.shown.Sublist s.set :=
    ((h.inv.conn k c hk).shown.trans (List.take_sublist _ _)).trans (C75_in_order h hk).1
  rw [h1]
  exact getLast_of_sublist hs hn h1 h4

/-- A client stops and another one starts on the same instance: waiting for the acknowledgement succeeds at once, though the new
client has not been told anything. -/
theorem C76_restart_violated : ∃ s : State Nat Nat, Reach (fun k => k = .none) s ∧ WaitOk s 7 ∧
    ∃ c, s.conn 1 = some c ∧ c.inst = 7 ∧ c.sent = [] ∧ c.shown = [] := by
  have h0 : Reach (fun k => k = .none) ({} : State Nat Nat) := .init
  have h1 := h0.step rfl (.set _ 5)
  have h2 := h1.step rfl (.connect _ 0 7 rfl)
  have h3 := h2.step rfl (.wake _ 0 _ rfl rfl rfl)
  have h4 := h3.step rfl (.write _ 0 _ true rfl rfl)
  have h5 := h4.step rfl (.load _ 0 _ 5 true rfl rfl rfl)
  have h6 := h5.step rfl (.ack _ 0 _ 5 rfl rfl)
  have h7 := h6.step rfl (.connect _ 1 7 rfl)
  exact ⟨_, h7, ⟨5, rfl, rfl⟩, _, rfl, rfl, rfl, rfl⟩

/-! ## C77: the clients end up with the current manifest -/

/-- What holds if nothing fails. -/
structure CleanInv (s : State ι κ) (c : Conn ι κ) : Prop where
  failed : c.failed = false
  shown : c.shown = c.sent.take c.read

theorem clean_put {s : State ι κ} (h : ∀ k c, s.conn k = some c → CleanInv s c) {j : Nat} {d : Conn ι κ}
    (hd : CleanInv s d) : ∀ k c, (s.put j d).conn k = some c → CleanInv (s.put j d) c := by
  intro k c hk
  rw [put_conn] at hk
  by_cases e : k = j
  · rw [if_pos e, Option.some.injEq] at hk
    subst hk
    exact ⟨hd.failed, hd.shown⟩
  · rw [if_neg e] at hk
    exact ⟨(h k c hk).failed, (h k c hk).shown⟩

theorem Reach.clean {ok : Kind → Prop} {s : State ι κ} (hok : ∀ k, ok k → k ≠ .writeFails ∧ k ≠ .loadFails)
    (h : Reach ok s) : ∀ k c, s.conn k = some c → CleanInv s c := by
  induction h with
  | init => intro k c e; cases e
  | @step s t kd hs hk st ih =>
    have hi := hs.inv
    have hk := hok _ hk
    cases st with
    | set _ i => exact fun k c e => ⟨(ih k c e).failed, (ih k c e).shown⟩
    | shutdown _ => exact fun k c e => ⟨(ih k c e).failed, (ih k c e).shown⟩
    | connect _ j inst hj => exact clean_put ih ⟨rfl, rfl⟩
    | wake _ j d hj hp hw => exact clean_put ih ⟨(ih j d hj).failed, (ih j d hj).shown⟩
    | write _ j d ok hj hp =>
      cases ok with
      | false => exact absurd rfl hk.1
      | true =>
        refine clean_put ih ⟨by simp [Config.write, (ih j d hj).failed], ?_⟩
        show d.shown = (d.sent ++ _).take d.read
        rw [List.take_append_of_le_length (hi.conn j d hj).read]
        exact (ih j d hj).shown
    | load _ j d i ok hj ha hr =>
      cases ok with
      | false => exact absurd rfl hk.2
      | true =>
        refine clean_put ih ⟨(ih j d hj).failed, ?_⟩
        show d.shown ++ [i] = d.sent.take (d.read + 1)
        rw [List.take_add_one, hr, (ih j d hj).shown]
        rfl
    | ack _ j d i hj ha =>
      have := clean_put ih (j := j) (d := { d with toAck := none }) ⟨(ih j d hj).failed, (ih j d hj).shown⟩
      exact fun k c e => ⟨(this k c e).failed, (this k c e).shown⟩
    | ackFails _ j d i hj ha => exact clean_put ih ⟨(ih j d hj).failed, (ih j d hj).shown⟩

/-- If sending ids and loading manifests never fails, a client with nothing more to do shows the current manifest.
Missing: see the two violations below. -/
theorem C77_settled_partial {s : State ι κ} (h : Reach (fun k => k ≠ .writeFails ∧ k ≠ .loadFails) s) {k : Nat}
    {c : Conn ι κ} (hk : s.conn k = some c) (hi : c.idle s) (hs : c.settled) : shows c = current s := by
  have hc := h.clean (fun _ h => h) k c hk
  have ht : Reach (fun _ => True) s := by
    clear hk hi hs hc
    induction h with
    | init => exact .init
    | step _ _ st ih => exact ih.step trivial st
  rw [← C75_told ht hk hc.failed hi]
  unfold shows
  rw [hc.shown, hs.2, List.take_length]

/-- A client fails to load a manifest once, for example since the connection was interrupted: it is not told
again, and it keeps showing the previous manifest for as long as no other manifest is set. -/
theorem C77_load_violated : ∃ s : State Nat Nat, Reach (fun k => k = .none ∨ k = .loadFails) s ∧
    ∃ c, s.conn 0 = some c ∧ c.idle s ∧ c.settled ∧ shows c = some 5 ∧ current s = some 6 := by
  have h0 : Reach (fun k => k = .none ∨ k = .loadFails) ({} : State Nat Nat) := .init
  have h1 := h0.step (.inl rfl) (.set _ 5)
  have h2 := h1.step (.inl rfl) (.connect _ 0 7 rfl)
  have h3 := h2.step (.inl rfl) (.wake _ 0 _ rfl rfl rfl)
  have h4 := h3.step (.inl rfl) (.write _ 0 _ true rfl rfl)
  have h5 := h4.step (.inl rfl) (.load _ 0 _ 5 true rfl rfl rfl)
  have h6 := h5.step (.inl rfl) (.ack _ 0 _ 5 rfl rfl)
  have h7 := h6.step (.inl rfl) (.set _ 6)
  have h8 := h7.step (.inl rfl) (.wake _ 0 _ rfl rfl rfl)
  have h9 := h8.step (.inl rfl) (.write _ 0 _ true rfl rfl)
  have h10 := h9.step (.inr rfl) (.load _ 0 _ 6 false rfl rfl rfl)
  exact ⟨_, h10, _, rfl, ⟨rfl, rfl⟩, ⟨rfl, rfl⟩, rfl, rfl⟩

/-- An id that could not be sent is not sent again. -/
theorem C77_write_violated : ∃ s : State Nat Nat, Reach (fun k => k = .none ∨ k = .writeFails) s ∧
    ∃ c, s.conn 0 = some c ∧ c.idle s ∧ c.settled ∧ shows c = none ∧ current s = some 5 := by
  have h0 : Reach (fun k => k = .none ∨ k = .writeFails) ({} : State Nat Nat) := .init
  have h1 := h0.step (.inl rfl) (.set _ 5)
  have h2 := h1.step (.inl rfl) (.connect _ 0 7 rfl)
  have h3 := h2.step (.inl rfl) (.wake _ 0 _ rfl rfl rfl)
  have h4 := h3.step (.inr rfl) (.write _ 0 _ false rfl rfl)
  exact ⟨_, h4, _, rfl, ⟨rfl, rfl⟩, ⟨rfl, rfl⟩, rfl, rfl⟩

/-! ### Waiting does not fail without reason -/

/-- The call `k` is the only one from its instance. -/
def Only (s : State ι κ) (k : Nat) (c : Conn ι κ) : Prop := ∀ j d, s.conn j = some d → d.inst = c.inst → j = k

/-- What a call has acknowledged: all that it has shown but what is still to be acknowledged. -/
def Conn.acks (c : Conn ι κ) : Option ι := if c.toAck = none then c.shown.getLast? else c.shown.dropLast.getLast?

theorem Reach.acks {ok : Kind → Prop} {s : State ι κ} (hok : ∀ k, ok k → k ≠ .ackFails) (h : Reach ok s) :
    ∀ k c, s.conn k = some c → Only s k c → s.acked c.inst = c.acks := by
  induction h with
  | init => intro k c e; cases e
  | @step s t kd hs hkd st ih =>
    have hi := hs.inv
    have hkd := hok _ hkd
    have key : ∀ (j : Nat) (d d' : Conn ι κ), s.conn j = some d → d'.inst = d.inst → d'.acks = d.acks →
        ∀ k c, (s.put j d').conn k = some c → Only (s.put j d') k c → s.acked c.inst = c.acks := by
      intro j d d' hj hin hac k c hk ho
      have ho' : ∀ i e, s.conn i = some e → e.inst = c.inst → i = k := by
        intro i e hie hei
        by_cases hij : i = j
        · rw [hij, hj, Option.some.injEq] at hie
          refine ho i d' (by rw [put_conn, if_pos hij]) ?_
          rw [hin, hie, hei]
        · exact ho i e (by rw [put_conn, if_neg hij]; exact hie) hei
      rw [put_conn] at hk
      by_cases e : k = j
      · rw [if_pos e, Option.some.injEq] at hk
        subst hk
        rw [hin, hac]
        refine ih j d hj fun i f hif hfi => ?_
        rw [← e]
        exact ho' i f hif (by rw [hfi, hin])
      · rw [if_neg e] at hk
        exact ih k c hk ho'
    cases st with
    | set _ i => exact ih
    | shutdown _ => exact ih
    | wake _ j d hj hp hw => exact key j d _ hj rfl rfl
    | write _ j d ok hj hp => exact key j d _ hj rfl rfl
    | load _ j d i ok hj ha hr =>
      cases ok with
      | false => exact key j d _ hj rfl rfl
      | true =>
        refine key j d _ hj rfl ?_
        simp [Conn.acks, Config.load, ha]
    | ackFails _ j d i hj ha => exact absurd rfl hkd
    | connect _ j inst hj =>
      intro k c hk ho
      rw [put_conn] at hk
      show s.acked c.inst = c.acks
      by_cases e : k = j
      · rw [if_pos e, Option.some.injEq] at hk
        have hinst : c.inst = inst := by rw [← hk]
        have hacks : c.acks = none := by rw [← hk]; rfl
        rw [hacks]
        cases hac : s.acked c.inst with
        | none => rfl
        | some i =>
          obtain ⟨k', c', h1, h2, _⟩ := hi.acked c.inst i hac
          have hne : k' ≠ j := by
            rintro rfl
            rw [hj] at h1
            cases h1
          have := ho k' c' (by rw [put_conn, if_neg hne]; exact h1) h2
          exact absurd (this.trans e) hne
      · rw [if_neg e] at hk
        refine ih k c hk fun i f hif hfi => ?_
        have hne : i ≠ j := by
          rintro rfl
          rw [hj] at hif
          cases hif
        exact ho i f (by rw [put_conn, if_neg hne]; exact hif) hfi
    | ack _ j d i hj ha =>
      intro k c hk ho
      have hk : (if k = j then some { d with toAck := none } else s.conn k) = some c := hk
      show (if c.inst = d.inst then some i else s.acked c.inst) = c.acks
      by_cases e : k = j
      · rw [if_pos e, Option.some.injEq] at hk
        have hinst : c.inst = d.inst := by rw [← hk]
        rw [if_pos hinst, ← hk]
        exact ((hi.conn j d hj).toAck i ha).symm
      · rw [if_neg e] at hk
        have hne : c.inst ≠ d.inst := by
          intro he
          exact e (ho j { d with toAck := none } (if_pos rfl) he.symm).symm
        rw [if_neg hne]
        refine ih k c hk fun i' f hif hfi => ?_
        have hne' : i' ≠ j := by
          rintro rfl
          rw [hj, Option.some.injEq] at hif
          rw [← hif] at hfi
          exact hne hfi.symm
        exact ho i' f (by show (if i' = j then _ else s.conn i') = _; rw [if_neg hne']; exact hif) hfi

/-- If nothing fails and only one client has connected from the instance, waiting for its acknowledgement succeeds
as soon as the client has nothing more to do. -/
theorem C76_complete_partial {s : State ι κ} (h : Reach (fun k => k = .none) s) {k : Nat} {c : Conn ι κ}
    (hk : s.conn k = some c) (hu : ∀ j d, s.conn j = some d → d.inst = c.inst → j = k) (hi : c.idle s)
    (hs : c.settled) (hset : s.set ≠ []) : WaitOk s c.inst := by
  have h1 := h.acks (fun _ e => by rw [e]; decide) k c hk hu
  have h2 : shows c = current s := by
    refine C77_settled_partial ?_ hk hi hs
    clear hk hi hs hset h1 hu
    induction h with
    | init => exact .init
    | step _ hk st ih => exact ih.step (by rw [hk]; decide) st
  have h3 : c.acks = shows c := if_pos hs.1
  obtain ⟨i, hi'⟩ : ∃ i, s.set.getLast? = some i := by
    cases e : s.set.getLast? with
    | none => exact absurd (List.getLast?_eq_none_iff.mp e) hset
    | some i => exact ⟨i, rfl⟩
  refine ⟨i, h.inv.id.trans hi', ?_⟩
  rw [h1, h3, h2]
  exact hi'

/-! ## The hypotheses are met -/

/-- Two clients; the first has got both manifests, the second only the newer one; both are settled. -/
example : ∃ s : State Nat Nat, Reach (fun k => k = .none) s ∧ s.set = [5, 6] ∧ WaitOk s 7 ∧ WaitOk s 8 ∧
    (∃ c, s.conn 0 = some c ∧ c.idle s ∧ c.settled ∧ c.failed = false ∧ c.sent = [5, 6]) ∧
    ∃ c, s.conn 1 = some c ∧ c.idle s ∧ c.settled ∧ c.failed = false ∧ c.sent = [6] := by
  have h0 : Reach (fun k => k = .none) ({} : State Nat Nat) := .init
  have h1 := h0.step rfl (.set _ 5)
  have h2 := h1.step rfl (.connect _ 0 7 rfl)
  have h2 := h2.step rfl (.connect _ 1 8 rfl)
  have h3 := h2.step rfl (.wake _ 0 _ rfl rfl rfl)
  have h4 := h3.step rfl (.write _ 0 _ true rfl rfl)
  have h5 := h4.step rfl (.set _ 6)
  have h6 := h5.step rfl (.wake _ 1 _ rfl rfl rfl)
  have h6 := h6.step rfl (.wake _ 0 _ rfl rfl rfl)
  have h6 := h6.step rfl (.load _ 0 _ 5 true rfl rfl rfl)
  have h7 := h6.step rfl (.write _ 1 _ true rfl rfl)
  have h7 := h7.step rfl (.write _ 0 _ true rfl rfl)
  have h7 := h7.step rfl (.load _ 1 _ 6 true rfl rfl rfl)
  have h8 := h7.step rfl (.ack _ 0 _ 5 rfl rfl)
  have h8 := h8.step rfl (.load _ 0 _ 6 true rfl rfl rfl)
  have h8 := h8.step rfl (.ack _ 0 _ 6 rfl rfl)
  have h8 := h8.step rfl (.ack _ 1 _ 6 rfl rfl)
  exact ⟨_, h8, rfl, ⟨6, rfl, rfl⟩, ⟨6, rfl, rfl⟩, ⟨_, rfl, ⟨rfl, rfl⟩, ⟨rfl, rfl⟩, rfl, rfl⟩,
    _, rfl, ⟨rfl, rfl⟩, ⟨rfl, rfl⟩, rfl, rfl⟩

theorem OfConn.ofWake {s : State ι κ} {k : Nat} {c : Conn ι κ} (hk : s.conn k = some c) (hp : c.phase = .waiting)
    (hw : s.awake c) : OfConn k s (s.put k (wake s c)) := ⟨c, _, hk, rfl, .inl ⟨hp, hw, rfl⟩⟩

theorem OfConn.ofWrite {s : State ι κ} {k : Nat} {c : Conn ι κ} (hk : s.conn k = some c) (hp : c.phase = .writing)
    (ok : Bool) : OfConn k s (s.put k (write s c ok)) := ⟨c, _, hk, rfl, .inr ⟨hp, ok, rfl⟩⟩

/-- Three steps are needed if a manifest is set while another one is being sent. -/
example : ∃ s t : State Nat Nat, Reach (fun k => k = .none) s ∧ Quiet 0 3 s t := by
  have h0 : Reach (fun k => k = .none) ({} : State Nat Nat) := .init
  have h1 := h0.step rfl (.set _ 5)
  have h2 := h1.step rfl (.connect _ 0 7 rfl)
  have h3 := h2.step rfl (.wake _ 0 _ rfl rfl rfl)
  have h4 := h3.step rfl (.set _ 6)
  exact ⟨_, _, h4, .own (.own (.own (.refl _) (.ofWrite rfl rfl true)) (.ofWake rfl rfl rfl)) (.ofWrite rfl rfl true)⟩

end Verif.Config
