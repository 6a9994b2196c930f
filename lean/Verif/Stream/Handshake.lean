/-! # Starting a session (C167-C170)

cdc_stream/multi_session.cc `StartSession`, `StopSession`, `OnContentSent`; cdc_stream/grpc_asset_stream_server.cc; on the instance cdc_fuse_fs.cc `SetManifest`:
a session is started while the manifest is pushed, the file system on the instance loads the manifest and acknowledges it, and chunks are sent to all instances. -/
namespace Verif.Stream.Handshake

/-! ### Model -/

/-- An instance id. -/
abbrev Inst := Nat
/-- `context->peer()`: the address and port of a connection. -/
abbrev Peer := Nat
/-- A manifest id. -/
abbrev Mid := Nat

/-- Where `MultiSession::StartSession` is (multi_session.cc:490-523). -/
inductive Phase where
  /-- `session->Start`, 516: the file system is started on the instance. -/
  | fuse
  /-- Waits for a manifest, 147-158. -/
  | manifest
  /-- Waits for the acknowledgement, grpc_asset_stream_server.cc:211-225. -/
  | ack
  deriving DecidableEq, Repr

/-- The call that has `sessions_mutex_`; it is kept for the whole of `StartSession` (494) and `StopSession` (526). -/
inductive Call where
  | none
  | start (i : Inst) (ph : Phase)
  | stop (i : Inst)
  deriving DecidableEq, Repr

/-- What `GetContent` (grpc_asset_stream_server.cc:61-89) has to do. -/
inductive Todo where
  /-- So many chunks are to be read. -/
  | send (left : Nat)
  /-- `content_sent_` is to be called for a chunk that was read (84-86); then so many are left. -/
  | tell (left : Nat)
  /-- `OnContentSent` has found this session (multi_session.cc:664-685) and will use it. -/
  | use (g : Nat) (left : Nat)
  | done
  deriving DecidableEq, Repr

structure Req where
  peer : Peer
  /-- The instance of the peer, looked up at the beginning (line 69). -/
  inst : Option Inst
  todo : Todo
  deriving DecidableEq, Repr

/-- What the thread that reads manifest ids on the instance does (config_stream_client.cc:56-75, cdc_fuse_fs.cc:1532-1620). -/
inductive Fs where
  | idle
  /-- Gets this manifest (1547-1548) with this request. -/
  | fetch (m : Mid) (r : Nat)
  /-- Acknowledges it (1610). -/
  | ack (m : Mid)
  /-- The peer has been entered (grpc_asset_stream_server.cc:184), the manifest not yet (186). -/
  | ack2 (m : Mid)
  deriving DecidableEq, Repr

/-- A connection of a file system. -/
structure Client where
  inst : Inst
  /-- `local_id` of the stream of manifest ids, grpc_asset_stream_server.cc:156-177. -/
  written : Option Mid := none
  /-- Ids written and not yet read. -/
  queue : List Mid := []
  fs : Fs := .idle
  deriving DecidableEq, Repr

structure State where
  /-- `id_`; and whether it is set, `manifest_set_`. -/
  id : Option Mid := none
  /-- `status_` of the runner is an error. -/
  failed : Bool := false
  /-- `acked_manifest_ids_`. -/
  acked : Inst → Option Mid := fun _ => none
  /-- `instance_ids_`. Entries are never removed. -/
  peers : Peer → Option Inst := fun _ => none
  client : Peer → Option Client := fun _ => none
  req : Nat → Option Req := fun _ => none
  call : Call := .none
  /-- `sessions_`; every `Session` object has its number. -/
  sessions : List (Inst × Nat) := []
  /-- The number of the next `Session` object. -/
  next : Nat := 0

def set {α : Type} (f : Nat → Option α) (k : Nat) (x : Option α) : Nat → Option α := fun j => if j = k then x else f j

inductive Event where
  /-- The manifest updater pushes a manifest. -/
  | push (m : Mid)
  /-- The manifest cannot be updated. -/
  | fails
  /-- `StartSession` is called. -/
  | begin (i : Inst)
  | fuseUp (i : Inst)
  | manifestSeen (i : Inst)
  /-- `StartSession` returns. -/
  | started (i : Inst) (ok : Bool)
  /-- Five seconds without the acknowledgement: `StartSession` returns an error. -/
  | timeout (i : Inst)
  | beginStop (i : Inst)
  /-- `StopSession` returns; if it succeeds, the session with this number is freed. -/
  | stopped (i : Inst) (g : Option Nat)
  /-- The file system that was started connects. -/
  | connect (p : Peer) (i : Inst)
  | disconnect (p : Peer)
  /-- The server writes an id to the stream. -/
  | deliver (p : Peer)
  /-- The file system reads an id and asks for the manifest. -/
  | take (p : Peer) (r : Nat)
  /-- It has the manifest. -/
  | loaded (p : Peer) (i : Inst) (m : Mid)
  /-- It does not get the manifest. -/
  | loadFails (p : Peer)
  | setPeer (p : Peer)
  | setAck (p : Peer)
  /-- A file system asks for chunks. -/
  | ask (r : Nat) (p : Peer)
  | read (r : Nat)
  /-- `OnContentSent` returns without a session. -/
  | untold (r : Nat)
  /-- `FindSession` returns a session. -/
  | found (r : Nat) (g : Nat)
  /-- The session is used. -/
  | used (r : Nat) (g : Nat)
  deriving DecidableEq, Repr

/-- One step.

* Calls of `StartSession` and `StopSession` come one at a time (`SessionManager` has its own mutex, session_manager.cc:69, 141). A start whose
  directory already has a session for the instance is not modelled (496-499: it fails at once).
* `push`: `SetManifest`, multi_session.cc:382-406; setting the id and the flag is one step.
* Requests: any number at the same time, of any number of chunks. Reading a chunk does not fail here.
* `instance_ids_->Get` (line 69) and the call of the handler are one step. -/
inductive Step : Event → State → State → Prop where
  | push (s : State) (m : Mid) : Step (.push m) s { s with id := some m }
  | fails (s : State) : Step .fails s { s with failed := true }
  | begin (s : State) (i : Inst) : s.call = .none → (∀ g, (i, g) ∉ s.sessions) → s.failed = false → Step (.begin i) s { s with call := .start i .fuse }
  | fuseUp (s : State) (i : Inst) : s.call = .start i .fuse → Step (.fuseUp i) s { s with call := .start i .manifest }
  | fuseFails (s : State) (i : Inst) : s.call = .start i .fuse → Step (.started i false) s { s with call := .none }
  | statusFails (s : State) (i : Inst) : s.call = .start i .manifest → s.failed = true → Step (.started i false) s { s with call := .none }
  | manifestSeen (s : State) (i : Inst) : s.call = .start i .manifest → s.failed = false → s.id.isSome = true →
      Step (.manifestSeen i) s { s with call := .start i .ack }
  | started (s : State) (i : Inst) (m : Mid) : s.call = .start i .ack → s.id = some m → s.acked i = some m →
      Step (.started i true) s { s with call := .none, sessions := (i, s.next) :: s.sessions, next := s.next + 1 }
  | timeout (s : State) (i : Inst) : s.call = .start i .ack → Step (.timeout i) s { s with call := .none }
  | beginStop (s : State) (i : Inst) (g : Nat) : s.call = .none → (i, g) ∈ s.sessions → Step (.beginStop i) s { s with call := .stop i }
  | stopped (s : State) (i : Inst) (g : Nat) : s.call = .stop i → (i, g) ∈ s.sessions →
      Step (.stopped i (some g)) s { s with call := .none, sessions := s.sessions.filter fun x => x.1 ≠ i }
  | stopFails (s : State) (i : Inst) : s.call = .stop i → Step (.stopped i none) s { s with call := .none }
  -- the file system
  | connect (s : State) (p : Peer) (i : Inst) : s.client p = none → (∃ ph, s.call = .start i ph) ∨ (∃ g, (i, g) ∈ s.sessions) →
      Step (.connect p i) s { s with client := set s.client p (some { inst := i }) }
  | disconnect (s : State) (p : Peer) : Step (.disconnect p) s { s with client := set s.client p none }
  | deliver (s : State) (p : Peer) (c : Client) (m : Mid) : s.client p = some c → s.id = some m → c.written ≠ some m →
      Step (.deliver p) s { s with client := set s.client p (some { c with written := some m, queue := c.queue ++ [m] }) }
  | take (s : State) (p : Peer) (c : Client) (m : Mid) (q : List Mid) (r : Nat) : s.client p = some c → c.fs = .idle → c.queue = m :: q → s.req r = none →
      Step (.take p r) s { s with client := set s.client p (some { c with queue := q, fs := .fetch m r }), req := set s.req r (some ⟨p, s.peers p, .send 1⟩) }
  | loaded (s : State) (p : Peer) (c : Client) (m : Mid) (r : Nat) (x : Req) : s.client p = some c → c.fs = .fetch m r → s.req r = some x → x.todo = .done →
      Step (.loaded p c.inst m) s { s with client := set s.client p (some { c with fs := .ack m }) }
  | loadFails (s : State) (p : Peer) (c : Client) (m : Mid) (r : Nat) : s.client p = some c → c.fs = .fetch m r →
      Step (.loadFails p) s { s with client := set s.client p (some { c with fs := .idle }) }
  | setPeer (s : State) (p : Peer) (c : Client) (m : Mid) : s.client p = some c → c.fs = .ack m →
      Step (.setPeer p) s { s with client := set s.client p (some { c with fs := .ack2 m }), peers := set s.peers p (some c.inst) }
  | setAck (s : State) (p : Peer) (c : Client) (m : Mid) : s.client p = some c → c.fs = .ack2 m →
      Step (.setAck p) s { s with client := set s.client p (some { c with fs := .idle }), acked := set s.acked c.inst (some m) }
  -- requests
  | ask (s : State) (r : Nat) (p : Peer) (n : Nat) : s.req r = none → Step (.ask r p) s { s with req := set s.req r (some ⟨p, s.peers p, .send n⟩) }
  | read (s : State) (r : Nat) (x : Req) (n : Nat) : s.req r = some x → x.todo = .send (n + 1) → Step (.read r) s { s with req := set s.req r (some { x with todo := .tell n }) }
  | answered (s : State) (r : Nat) (x : Req) : s.req r = some x → x.todo = .send 0 → Step (.read r) s { s with req := set s.req r (some { x with todo := .done }) }
  | nobody (s : State) (r : Nat) (x : Req) (n : Nat) : s.req r = some x → x.todo = .tell n → x.inst = none →
      Step (.untold r) s { s with req := set s.req r (some { x with todo := .send n }) }
  | notFound (s : State) (r : Nat) (x : Req) (n : Nat) (i : Inst) : s.req r = some x → x.todo = .tell n → x.inst = some i → s.call = .none → (∀ g, (i, g) ∉ s.sessions) →
      Step (.untold r) s { s with req := set s.req r (some { x with todo := .send n }) }
  | found (s : State) (r : Nat) (x : Req) (n : Nat) (i : Inst) (g : Nat) : s.req r = some x → x.todo = .tell n → x.inst = some i → s.call = .none → (i, g) ∈ s.sessions →
      Step (.found r g) s { s with req := set s.req r (some { x with todo := .use g n }) }
  | used (s : State) (r : Nat) (x : Req) (n : Nat) (g : Nat) : s.req r = some x → x.todo = .use g n → Step (.used r g) s { s with req := set s.req r (some { x with todo := .send n }) }

/-- Any number of steps. -/
inductive Run : State → List Event → State → Prop where
  | nil (s : State) : Run s [] s
  | snoc {s s1 s2 : State} {es : List Event} {e : Event} : Run s es s1 → Step e s1 s2 → Run s (es ++ [e]) s2

/-- A state that can be reached. -/
def Reachable (s : State) : Prop := ∃ es, Run {} es s

/-! ### Proofs -/

theorem set_same {α : Type} (f : Nat → Option α) (k : Nat) (x : Option α) : set f k x k = x := by simp [set]

theorem set_other {α : Type} (f : Nat → Option α) {k j : Nat} (x : Option α) (h : j ≠ k) : set f k x j = f j := by simp [set, h]

theorem Run.append {s s1 s2 : State} {es es' : List Event} (h : Run s es s1) (h' : Run s1 es' s2) : Run s (es ++ es') s2 := by
  induction h' with
  | nil => simpa using h
  | snoc _ hs ih => rw [← List.append_assoc]; exact .snoc ih hs

theorem Run.one {s s1 : State} {e : Event} (h : Step e s s1) : Run s [e] s1 := .snoc (.nil s) h

theorem Run.front {s s1 s2 : State} {e : Event} {es : List Event} (h : Step e s s1) (h' : Run s1 es s2) : Run s (e :: es) s2 := (Run.one h).append h'

/-- Request numbers do not run out. -/
theorem Run.fresh {s s' : State} {es : List Event} (h : Run s es s') : (∃ N, ∀ r, N ≤ r → s.req r = none) → ∃ N, ∀ r, N ≤ r → s'.req r = none := by
  intro h0
  induction h with
  | nil => exact h0
  | snoc _ hs ih =>
    obtain ⟨N, hN⟩ := ih
    have bump : ∀ (f : Nat → Option Req) (r : Nat) (x : Option Req), (∀ r, N ≤ r → f r = none) → ∃ N, ∀ k, N ≤ k → set f r x k = none := by
      intro f r x hf
      refine ⟨max N (r + 1), fun k hk => ?_⟩
      rw [set_other _ _ (by omega)]
      exact hf k (by omega)
    cases hs <;> first | exact ⟨N, hN⟩ | exact bump _ _ _ hN

theorem Reachable.fresh {s : State} (h : Reachable s) : ∃ r, s.req r = none := by
  obtain ⟨es, h⟩ := h
  obtain ⟨N, hN⟩ := h.fresh ⟨0, fun _ _ => rfl⟩
  exact ⟨N, hN N (Nat.le_refl _)⟩

/-! ### C167 -/

/-- Nothing goes wrong for the instance that is being started, nobody else claims to be it, and no other manifest is pushed. -/
def Calm (p : Peer) (i : Inst) : Event → Prop
  | .push _ => False
  | .fails => False
  | .timeout _ => False
  | .started j ok => j = i → ok = true
  | .disconnect q => q ≠ p
  | .loadFails q => q ≠ p
  | .connect _ j => j ≠ i
  | _ => True

/-- How far the file system is. -/
inductive Progress (p : Peer) (i : Inst) (m : Mid) (s : State) : Client → Prop where
  | a : s.peers p = none → Progress p i m s ⟨i, none, [], .idle⟩
  | b : s.peers p = none → Progress p i m s ⟨i, some m, [m], .idle⟩
  | c (r : Nat) (t : Todo) : s.peers p = none → s.req r = some ⟨p, none, t⟩ → t ∈ [Todo.send 1, .tell 0, .send 0, .done] → Progress p i m s ⟨i, some m, [], .fetch m r⟩
  | d : Progress p i m s ⟨i, some m, [], .ack m⟩
  | e : Progress p i m s ⟨i, some m, [], .ack2 m⟩
  | f : s.acked i = some m → Progress p i m s ⟨i, some m, [], .idle⟩

structure J (p : Peer) (i : Inst) (m : Mid) (s : State) : Prop where
  call : ∃ ph, s.call = .start i ph
  ok : s.failed = false
  id : s.id = some m
  only : ∀ q c, s.client q = some c → c.inst = i → q = p
  here : ∃ c, s.client p = some c ∧ Progress p i m s c

theorem Progress.inst {p : Peer} {i : Inst} {m : Mid} {s : State} {c : Client} (h : Progress p i m s c) : c.inst = i := by cases h <;> rfl

/-- Steps that leave alone what the file system depends on. -/
theorem J.same {p : Peer} {i : Inst} {m : Mid} {s s' : State} (h : J p i m s) (hc : ∃ ph, s'.call = .start i ph) (ho : s'.failed = s.failed) (hi : s'.id = s.id)
    (hcl : s'.client = s.client) (hp : s'.peers p = s.peers p) (ha : s'.acked i = s.acked i)
    (hr : ∀ r x, s.req r = some x → x.peer = p → x.inst = none → s'.req r = some x) : J p i m s' := by
  obtain ⟨c, hc', hpr⟩ := h.here
  refine ⟨hc, ho.trans h.ok, hi.trans h.id, by rw [hcl]; exact h.only, c, by rw [hcl]; exact hc', ?_⟩
  cases hpr with
  | a h1 => exact .a (hp.trans h1)
  | b h1 => exact .b (hp.trans h1)
  | c r t h1 h2 h3 => exact .c r t (hp.trans h1) (hr _ _ h2 rfl rfl) h3
  | d => exact .d
  | e => exact .e
  | f h1 => exact .f (ha.trans h1)


theorem J.mono {p : Peer} {i : Inst} {m : Mid} {s s' : State} {c : Client} (h : Progress p i m s c) (hp : s'.peers p = s.peers p) (ha : s'.acked i = s.acked i)
    (hr : ∀ r, (∃ x, s.req r = some x) → s'.req r = s.req r) : Progress p i m s' c := by
  cases h with
  | a h1 => exact .a (hp.trans h1)
  | b h1 => exact .b (hp.trans h1)
  | c r t h1 h2 h3 => exact .c r t (hp.trans h1) ((hr _ ⟨_, h2⟩).trans h2) h3
  | d => exact .d
  | e => exact .e
  | f h1 => exact .f (ha.trans h1)

/-- A step of a request. -/
theorem J.reqStep {p : Peer} {i : Inst} {m : Mid} {s : State} (h : J p i m s) (r : Nat) (x y : Req) (hx : s.req r = some x) (hpe : y.peer = x.peer) (hin : y.inst = x.inst)
    (ht : x.inst = none → x.todo ∈ [Todo.send 1, .tell 0, .send 0, .done] → y.todo ∈ [Todo.send 1, .tell 0, .send 0, .done]) :
    J p i m { s with req := set s.req r (some y) } := by
  obtain ⟨c, hc, hpr⟩ := h.here
  refine ⟨h.call, h.ok, h.id, h.only, c, hc, ?_⟩
  cases hpr with
  | a h1 => exact .a h1
  | b h1 => exact .b h1
  | d => exact .d
  | e => exact .e
  | f h1 => exact .f h1
  | c r' t h1 h2 h3 =>
    by_cases hrr : r' = r
    · subst hrr
      rw [h2] at hx
      cases hx
      obtain ⟨yp, yi, yt⟩ := y
      simp only at hpe hin
      subst hpe; subst hin
      exact .c r' yt h1 (set_same _ _ _) (ht rfl h3)
    · exact .c r' t h1 ((set_other _ _ hrr).trans h2) h3

/-- Another client changes. -/
theorem J.other {p : Peer} {i : Inst} {m : Mid} {s s' : State} (h : J p i m s) (q : Peer) (x : Option Client) (hq : q ≠ p) (hc : s'.call = s.call) (ho : s'.failed = s.failed) (hi : s'.id = s.id)
    (hcl : s'.client = set s.client q x) (hx : ∀ c, x = some c → c.inst ≠ i) (hp : s'.peers p = s.peers p) (ha : s'.acked i = s.acked i)
    (hr : ∀ r, (∃ x, s.req r = some x) → s'.req r = s.req r) : J p i m s' := by
  obtain ⟨c, hc', hpr⟩ := h.here
  refine ⟨by rw [hc]; exact h.call, ho.trans h.ok, hi.trans h.id, ?_, c, ?_, J.mono hpr hp ha hr⟩
  · intro k d hk hd
    rw [hcl] at hk
    by_cases hkq : k = q
    · subst hkq
      rw [set_same] at hk
      exact absurd hd (hx d hk)
    · rw [set_other _ _ hkq] at hk
      exact h.only k d hk hd
  · rw [hcl, set_other _ _ (fun e => hq e.symm)]
    exact hc'

/-- The client of the instance changes. -/
theorem J.self {p : Peer} {i : Inst} {m : Mid} {s s' : State} (h : J p i m s) (c' : Client) (hc : s'.call = s.call) (ho : s'.failed = s.failed) (hi : s'.id = s.id)
    (hcl : s'.client = set s.client p (some c')) (hpr : Progress p i m s' c') : J p i m s' := by
  refine ⟨by rw [hc]; exact h.call, ho.trans h.ok, hi.trans h.id, ?_, c', by rw [hcl]; exact set_same _ _ _, hpr⟩
  intro k d hk hd
  rw [hcl] at hk
  by_cases hkq : k = p
  · exact hkq
  · rw [set_other _ _ hkq] at hk
    exact h.only k d hk hd

theorem J.step {p : Peer} {i : Inst} {m : Mid} {s s' : State} {e : Event} (h : J p i m s) (hs : Step e s s') (hc : Calm p i e) : J p i m s' ∨ e = .started i true := by
  obtain ⟨ph, hcall⟩ := h.call
  obtain ⟨c, hcl, hpr⟩ := h.here
  have keep : ∀ (f : Nat → Option Req) (r : Nat) (x : Option Req), f r = none → ∀ k, (∃ y, f k = some y) → set f r x k = f k := by
    intro f r x hf k ⟨y, hy⟩
    refine set_other _ _ ?_
    rintro rfl
    rw [hf] at hy
    cases hy
  cases hs with
  | push => exact hc.elim
  | fails => exact hc.elim
  | timeout => exact hc.elim
  | begin _ j h1 => rw [hcall] at h1; cases h1
  | beginStop _ j g h1 => rw [hcall] at h1; cases h1
  | stopped _ j g h1 => rw [hcall] at h1; cases h1
  | stopFails _ j h1 => rw [hcall] at h1; cases h1
  | fuseUp _ j h1 =>
    rw [hcall] at h1; cases h1
    exact .inl (h.same ⟨_, rfl⟩ rfl rfl rfl rfl rfl fun _ _ hx _ _ => hx)
  | manifestSeen _ j h1 =>
    rw [hcall] at h1; cases h1
    exact .inl (h.same ⟨_, rfl⟩ rfl rfl rfl rfl rfl fun _ _ hx _ _ => hx)
  | fuseFails _ j h1 => rw [hcall] at h1; cases h1; exact absurd (hc rfl) (by decide)
  | statusFails _ j h1 => rw [hcall] at h1; cases h1; exact absurd (hc rfl) (by decide)
  | started _ j m' h1 => rw [hcall] at h1; cases h1; exact .inr rfl
  | connect _ q j h1 =>
    refine .inl (h.other q _ ?_ rfl rfl rfl rfl ?_ rfl rfl fun _ _ => rfl)
    · rintro rfl; rw [hcl] at h1; cases h1
    · intro d hd; cases hd; exact hc
  | disconnect _ q => exact .inl (h.other q none hc rfl rfl rfl rfl (fun d hd => nomatch hd) rfl rfl fun _ _ => rfl)
  | loadFails _ q d m' r h1 h2 =>
    refine .inl (h.other q _ hc rfl rfl rfl rfl ?_ rfl rfl fun _ _ => rfl)
    intro d' hd'; cases hd'
    intro hi
    exact hc (h.only q d h1 hi)
  | deliver _ q d m' h1 h2 h3 =>
    by_cases hq : q = p
    · subst hq
      rw [hcl] at h1; cases h1
      rw [h.id] at h2; cases h2
      cases hpr with
      | a h4 => exact .inl (h.self _ rfl rfl rfl rfl (.b h4))
      | _ => exact absurd rfl h3
    · refine .inl (h.other q _ hq rfl rfl rfl rfl ?_ rfl rfl fun _ _ => rfl)
      intro d' hd'; cases hd'
      exact fun hi => hq (h.only q d h1 hi)
  | take _ q d m' l r h1 h2 h3 h4 =>
    by_cases hq : q = p
    · subst hq
      rw [hcl] at h1; cases h1
      cases hpr with
      | b h5 =>
        cases h3
        refine .inl (h.self _ rfl rfl rfl rfl (.c r (.send 1) h5 ?_ (by simp)))
        show set s.req r _ r = _
        rw [set_same, h5]
      | a => cases h3
      | c => cases h2
      | d => cases h2
      | e => cases h2
      | f => cases h3
    · refine .inl (h.other q _ hq rfl rfl rfl rfl ?_ rfl rfl (keep _ _ _ h4))
      intro d' hd'; cases hd'
      exact fun hi => hq (h.only q d h1 hi)
  | loaded _ q d m' r x h1 h2 h3 h4 =>
    by_cases hq : q = p
    · subst hq
      rw [hcl] at h1; cases h1
      cases hpr with
      | c r' t h5 h6 h7 => cases h2; exact .inl (h.self _ rfl rfl rfl rfl .d)
      | _ => cases h2
    · refine .inl (h.other q _ hq rfl rfl rfl rfl ?_ rfl rfl fun _ _ => rfl)
      intro d' hd'; cases hd'
      exact fun hi => hq (h.only q d h1 hi)
  | setPeer _ q d m' h1 h2 =>
    by_cases hq : q = p
    · subst hq
      rw [hcl] at h1; cases h1
      cases hpr with
      | d => cases h2; exact .inl (h.self _ rfl rfl rfl rfl .e)
      | _ => cases h2
    · refine .inl (h.other q _ hq rfl rfl rfl rfl ?_ (set_other _ _ fun e => hq e.symm) rfl fun _ _ => rfl)
      intro d' hd'; cases hd'
      exact fun hi => hq (h.only q d h1 hi)
  | setAck _ q d m' h1 h2 =>
    by_cases hq : q = p
    · subst hq
      rw [hcl] at h1; cases h1
      cases hpr with
      | e => cases h2; exact .inl (h.self _ rfl rfl rfl rfl (.f (set_same _ _ _)))
      | _ => cases h2
    · have hi : d.inst ≠ i := fun hi => hq (h.only q d h1 hi)
      refine .inl (h.other q _ hq rfl rfl rfl rfl ?_ rfl (set_other _ _ fun e => hi e.symm) fun _ _ => rfl)
      intro d' hd'; cases hd'
      exact hi
  | ask _ r q n h1 =>
    refine .inl ⟨⟨ph, hcall⟩, h.ok, h.id, h.only, c, hcl, J.mono hpr rfl rfl (keep _ _ _ h1)⟩
  | read _ r x n h1 h2 =>
    refine .inl (h.reqStep r x _ h1 rfl rfl fun _ h3 => ?_)
    rw [h2] at h3
    simp at h3 ⊢
    omega
  | answered _ r x h1 h2 => exact .inl (h.reqStep r x _ h1 rfl rfl fun _ _ => by simp)
  | nobody _ r x n h1 h2 =>
    refine .inl (h.reqStep r x _ h1 rfl rfl fun _ h3 => ?_)
    rw [h2] at h3
    simp at h3 ⊢
    omega
  | notFound _ r x n j h1 h2 h3 h4 => rw [hcall] at h4; cases h4
  | found _ r x n j g h1 h2 h3 h4 => rw [hcall] at h4; cases h4
  | used _ r x n g h1 h2 =>
    refine .inl (h.reqStep r x _ h1 rfl rfl fun _ h3 => ?_)
    rw [h2] at h3
    simp at h3

/-- `StartSession` can succeed after at most so many further steps. -/
def Fin (p : Peer) (i : Inst) (n : Nat) (s : State) : Prop := ∃ es s', es.length ≤ n ∧ (∀ e ∈ es, Calm p i e) ∧ Run s (es ++ [Event.started i true]) s'

theorem Fin.front {p : Peer} {i : Inst} {n : Nat} {s s1 : State} {e : Event} (hs : Step e s s1) (hc : Calm p i e) (h : Fin p i n s1) : Fin p i (n + 1) s := by
  obtain ⟨es, s', h1, h2, h3⟩ := h
  refine ⟨e :: es, s', by simpa using h1, ?_, Run.front hs h3⟩
  intro e' he'
  rcases List.mem_cons.1 he' with rfl | he'
  · exact hc
  · exact h2 _ he'

theorem Fin.more {p : Peer} {i : Inst} {n n' : Nat} {s : State} (h : Fin p i n s) (hn : n ≤ n') : Fin p i n' s := by
  obtain ⟨es, s', h1, h2, h3⟩ := h
  exact ⟨es, s', by omega, h2, h3⟩

theorem J.finF {p : Peer} {i : Inst} {m : Mid} {s : State} (h : J p i m s) (ha : s.acked i = some m) : Fin p i 2 s := by
  have last : ∀ s : State, s.call = .start i .ack → s.id = some m → s.acked i = some m → Fin p i 0 s := fun s h1 h2 h3 =>
    ⟨[], _, Nat.le_refl _, (fun e he => nomatch he), Run.one (.started s i m h1 h2 h3)⟩
  have mid : ∀ s : State, s.call = .start i .manifest → s.failed = false → s.id = some m → s.acked i = some m → Fin p i 1 s := fun s h1 h2 h3 h4 =>
    Fin.front (.manifestSeen s i h1 h2 (by rw [h3]; rfl)) trivial (last _ rfl h3 h4)
  obtain ⟨ph, hc⟩ := h.call
  cases ph with
  | fuse => exact Fin.front (.fuseUp s i hc) trivial (mid _ rfl h.ok h.id ha)
  | manifest => exact (mid s hc h.ok h.id ha).more (by omega)
  | ack => exact (last s hc h.id ha).more (by omega)

theorem J.next {p : Peer} {i : Inst} {m : Mid} {s s' : State} {e : Event} (h : J p i m s) (hs : Step e s s') (hc : Calm p i e) (he : e ≠ .started i true) : J p i m s' :=
  (h.step hs hc).resolve_right he

theorem J.finE {p : Peer} {i : Inst} {m : Mid} {s : State} (h : J p i m s) (hc : s.client p = some ⟨i, some m, [], .ack2 m⟩) : Fin p i 3 s := by
  have st := Step.setAck s p _ m hc rfl
  exact Fin.front st trivial ((h.next st trivial (by simp)).finF (set_same _ _ _))

theorem J.finD {p : Peer} {i : Inst} {m : Mid} {s : State} (h : J p i m s) (hc : s.client p = some ⟨i, some m, [], .ack m⟩) : Fin p i 4 s := by
  have st := Step.setPeer s p _ m hc rfl
  exact Fin.front st trivial ((h.next st trivial (by simp)).finE (set_same _ _ _))

theorem J.finC {p : Peer} {i : Inst} {m : Mid} {s : State} {r : Nat} {t : Todo} (h : J p i m s) (hc : s.client p = some ⟨i, some m, [], .fetch m r⟩) (hr : s.req r = some ⟨p, none, t⟩)
    (ht : t ∈ [Todo.send 1, .tell 0, .send 0, .done]) : Fin p i 8 s := by
  have c4 : ∀ s : State, J p i m s → s.client p = some ⟨i, some m, [], .fetch m r⟩ → s.req r = some ⟨p, none, .done⟩ → Fin p i 5 s := fun s h hc hr => by
    have st := Step.loaded s p _ m r _ hc rfl hr rfl
    exact Fin.front st trivial ((h.next st trivial (by simp)).finD (set_same _ _ _))
  have c3 : ∀ s : State, J p i m s → s.client p = some ⟨i, some m, [], .fetch m r⟩ → s.req r = some ⟨p, none, .send 0⟩ → Fin p i 6 s := fun s h hc hr => by
    have st := Step.answered s r _ hr rfl
    exact Fin.front st trivial (c4 _ (h.next st trivial (by simp)) hc (set_same _ _ _))
  have c2 : ∀ s : State, J p i m s → s.client p = some ⟨i, some m, [], .fetch m r⟩ → s.req r = some ⟨p, none, .tell 0⟩ → Fin p i 7 s := fun s h hc hr => by
    have st := Step.nobody s r _ 0 hr rfl rfl
    exact Fin.front st trivial (c3 _ (h.next st trivial (by simp)) hc (set_same _ _ _))
  simp only [List.mem_cons, List.not_mem_nil, or_false] at ht
  rcases ht with rfl | rfl | rfl | rfl
  · have st := Step.read s r _ 0 hr rfl
    exact Fin.front st trivial (c2 _ (h.next st trivial (by simp)) hc (set_same _ _ _))
  · exact (c2 s h hc hr).more (by omega)
  · exact (c3 s h hc hr).more (by omega)
  · exact (c4 s h hc hr).more (by omega)

theorem J.fin {p : Peer} {i : Inst} {m : Mid} {s : State} (h : J p i m s) (hf : ∃ r, s.req r = none) : Fin p i 10 s := by
  have cb : ∀ s : State, J p i m s → (∃ r, s.req r = none) → s.peers p = none → s.client p = some ⟨i, some m, [m], .idle⟩ → Fin p i 9 s := fun s h hf hp hc => by
    obtain ⟨r, hr⟩ := hf
    have st := Step.take s p _ m [] r hc rfl rfl hr
    refine Fin.front st trivial ((h.next st trivial (by simp)).finC (t := .send 1) (r := r) (set_same _ _ _) ?_ (by simp))
    show set s.req r _ r = _
    rw [set_same, hp]
  obtain ⟨c, hc, hpr⟩ := h.here
  cases hpr with
  | a h1 =>
    have st := Step.deliver s p _ m hc h.id (by simp)
    exact Fin.front st trivial (cb _ (h.next st trivial (by simp)) hf h1 (set_same _ _ _))
  | b h1 => exact (cb s h hf h1 hc).more (by omega)
  | c r t h1 h2 h3 => exact (h.finC hc h2 h3).more (by omega)
  | d => exact (h.finD hc).more (by omega)
  | e => exact (h.finE hc).more (by omega)
  | f h1 => exact (h.finF h1).more (by omega)

theorem J.run {p : Peer} {i : Inst} {m : Mid} {s s' : State} {es : List Event} (h : J p i m s) (hr : Run s es s') (hc : ∀ e ∈ es, Calm p i e) :
    J p i m s' ∨ .started i true ∈ es := by
  induction hr with
  | nil => exact .inl h
  | snoc _ hs ih =>
    rcases ih (fun e he => hc e (by simp [he])) with hj | hm
    · rcases hj.step hs (hc _ (by simp)) with hj | rfl
      · exact .inl hj
      · exact .inr (by simp)
    · exact .inr (by simp [hm])

/-- **C167** (while nothing goes wrong with this instance). `StartSession` runs, there is a manifest, and the file system of the instance connects over a new connection.
Whatever the other instances do, and whatever requests they make: as long as no other manifest is pushed, `StartSession` succeeds, or it still can within ten more steps, none of which is a
failure. -/
theorem C167_started_partial {p : Peer} {i : Inst} {ph : Phase} {m : Mid} {s s1 s2 : State} {es : List Event} (hR : Reachable s)
    (hcall : s.call = .start i ph) (hok : s.failed = false) (hid : s.id = some m) (hnew : s.peers p = none) (honly : ∀ q c, s.client q = some c → c.inst ≠ i)
    (hconn : Step (.connect p i) s s1) (hrun : Run s1 es s2) (hcalm : ∀ e ∈ es, Calm p i e) :
    .started i true ∈ es ∨ ∃ es' s3, es'.length ≤ 10 ∧ (∀ e ∈ es', Calm p i e) ∧ Run s2 (es' ++ [.started i true]) s3 := by
  have hR2 : Reachable s2 := by
    obtain ⟨es0, h0⟩ := hR
    exact ⟨_, (h0.snoc hconn).append hrun⟩
  have hj : J p i m s1 := by
    cases hconn with
    | connect _ _ _ h1 h2 =>
      refine ⟨⟨ph, hcall⟩, hok, hid, ?_, ⟨i, none, [], .idle⟩, set_same _ _ _, .a hnew⟩
      intro q c hq hci
      by_cases hqp : q = p
      · exact hqp
      · exact absurd hci (honly q c (by rw [← hq]; exact (set_other _ _ hqp).symm))
  rcases hj.run hrun hcalm with hj2 | hm
  · exact .inr (hj2.fin hR2.fresh)
  · exact .inl hm

/-- `StartSession` of instance 7 waits, and so does the request of its file system. -/
structure K (s : State) : Prop where
  call : s.call = .start 7 .ack
  id : s.id ≠ some 1
  acked : s.acked 7 = some 1
  only : ∀ q c, s.client q = some c → c.inst = 7 → q = 0
  stuck : ∃ c m r, s.client 0 = some c ∧ c.fs = .fetch m r ∧ ∃ x, s.req r = some x ∧ x.inst = some 7 ∧ x.todo = .tell 0

theorem K.step {s s' : State} {e : Event} (h : K s) (hs : Step e s s') (he : e ≠ .timeout 7 ∧ e ≠ .disconnect 0 ∧ e ≠ .loadFails 0 ∧ e ≠ .push 1 ∧ ∀ q, e ≠ .connect q 7) : K s' := by
  obtain ⟨c, m, r, hc, hf, x, hx, hxi, hxt⟩ := h.stuck
  obtain ⟨e1, e2, e3, e4, e5⟩ := he
  have other : ∀ (q : Peer) (y : Option Client), q ≠ 0 → (∀ d, y = some d → d.inst ≠ 7) →
      (∀ k d, set s.client q y k = some d → d.inst = 7 → k = 0) ∧ set s.client q y 0 = some c := by
    intro q y hq hy
    refine ⟨?_, by rw [set_other _ _ (fun e => hq e.symm)]; exact hc⟩
    intro k d hk hd
    by_cases hkq : k = q
    · subst hkq; rw [set_same] at hk; exact absurd hd (hy d hk)
    · rw [set_other _ _ hkq] at hk; exact h.only k d hk hd
  have self : ∀ (c' : Client), (∀ k d, set s.client 0 (some c') k = some d → d.inst = 7 → k = 0) := by
    intro c' k d hk hd
    by_cases hkq : k = 0
    · exact hkq
    · rw [set_other _ _ hkq] at hk; exact h.only k d hk hd
  have keep : ∀ (r' : Nat) (y : Option Req), r' ≠ r → set s.req r' y r = some x := fun r' y hr => by rw [set_other _ _ (fun e => hr e.symm)]; exact hx
  have reqs : ∀ (r' : Nat) (z y : Req), s.req r' = some z → (z.inst = some 7 → z.todo ≠ .tell 0) → K { s with req := set s.req r' (some y) } := by
    intro r' z y hz hn
    refine ⟨h.call, h.id, h.acked, h.only, c, m, r, hc, hf, x, keep r' _ ?_, hxi, hxt⟩
    rintro rfl
    rw [hx] at hz; cases hz
    exact hn hxi hxt
  cases hs with
  | push _ m' => exact ⟨h.call, fun h => e4 (by cases h; rfl), h.acked, h.only, c, m, r, hc, hf, x, hx, hxi, hxt⟩
  | fails => exact ⟨h.call, h.id, h.acked, h.only, c, m, r, hc, hf, x, hx, hxi, hxt⟩
  | timeout _ j h1 => rw [h.call] at h1; cases h1; exact absurd rfl e1
  | begin _ j h1 => rw [h.call] at h1; cases h1
  | beginStop _ j g h1 => rw [h.call] at h1; cases h1
  | stopped _ j g h1 => rw [h.call] at h1; cases h1
  | stopFails _ j h1 => rw [h.call] at h1; cases h1
  | fuseUp _ j h1 => rw [h.call] at h1; cases h1
  | manifestSeen _ j h1 => rw [h.call] at h1; cases h1
  | fuseFails _ j h1 => rw [h.call] at h1; cases h1
  | statusFails _ j h1 => rw [h.call] at h1; cases h1
  | started _ j m' h1 h2 h3 => rw [h.call] at h1; cases h1; rw [h.acked] at h3; cases h3; exact absurd h2 h.id
  | connect _ q j h1 =>
    have hq : q ≠ 0 := by rintro rfl; rw [hc] at h1; cases h1
    have o := other q (some { inst := j }) hq (fun d hd => by cases hd; exact fun hj => e5 q (by rw [← hj]))
    exact ⟨h.call, h.id, h.acked, o.1, c, m, r, o.2, hf, x, hx, hxi, hxt⟩
  | disconnect _ q =>
    have o := other q none (fun hq => e2 (by rw [hq])) (fun d hd => nomatch hd)
    exact ⟨h.call, h.id, h.acked, o.1, c, m, r, o.2, hf, x, hx, hxi, hxt⟩
  | loadFails _ q d m' r' h1 h2 =>
    have o := other q (some { d with fs := .idle }) (fun hq => e3 (by rw [hq])) (fun d' hd' => by cases hd'; exact fun hj => e3 (by rw [h.only q d h1 hj]))
    exact ⟨h.call, h.id, h.acked, o.1, c, m, r, o.2, hf, x, hx, hxi, hxt⟩
  | deliver _ q d m' h1 h2 h3 =>
    by_cases hq : q = 0
    · subst hq
      rw [hc] at h1; cases h1
      exact ⟨h.call, h.id, h.acked, self _, { c with written := some m', queue := c.queue ++ [m'] }, m, r, set_same s.client 0 _, hf, x, hx, hxi, hxt⟩
    · have o := other q (some { d with written := some m', queue := d.queue ++ [m'] }) hq (fun d' hd' => by cases hd'; exact fun hj => hq (h.only q d h1 hj))
      exact ⟨h.call, h.id, h.acked, o.1, c, m, r, o.2, hf, x, hx, hxi, hxt⟩
  | take _ q d m' l r' h1 h2 h3 h4 =>
    by_cases hq : q = 0
    · subst hq
      rw [hc] at h1; cases h1
      rw [hf] at h2; cases h2
    · have o := other q (some { d with queue := l, fs := .fetch m' r' }) hq (fun d' hd' => by cases hd'; exact fun hj => hq (h.only q d h1 hj))
      refine ⟨h.call, h.id, h.acked, o.1, c, m, r, o.2, hf, x, keep r' _ ?_, hxi, hxt⟩
      rintro rfl; rw [hx] at h4; cases h4
  | loaded _ q d m' r' y h1 h2 h3 h4 =>
    by_cases hq : q = 0
    · subst hq
      rw [hc] at h1; cases h1
      rw [hf] at h2; cases h2
      rw [hx] at h3; cases h3
      rw [hxt] at h4; cases h4
    · have o := other q (some { d with fs := .ack m' }) hq (fun d' hd' => by cases hd'; exact fun hj => hq (h.only q d h1 hj))
      exact ⟨h.call, h.id, h.acked, o.1, c, m, r, o.2, hf, x, hx, hxi, hxt⟩
  | setPeer _ q d m' h1 h2 =>
    by_cases hq : q = 0
    · subst hq
      rw [hc] at h1; cases h1
      rw [hf] at h2; cases h2
    · have o := other q (some { d with fs := .ack2 m' }) hq (fun d' hd' => by cases hd'; exact fun hj => hq (h.only q d h1 hj))
      exact ⟨h.call, h.id, h.acked, o.1, c, m, r, o.2, hf, x, hx, hxi, hxt⟩
  | setAck _ q d m' h1 h2 =>
    by_cases hq : q = 0
    · subst hq
      rw [hc] at h1; cases h1
      rw [hf] at h2; cases h2
    · have hj : d.inst ≠ 7 := fun hj => hq (h.only q d h1 hj)
      have o := other q (some { d with fs := .idle }) hq (fun d' hd' => by cases hd'; exact hj)
      exact ⟨h.call, h.id, (set_other _ _ fun e => hj e.symm).trans h.acked, o.1, c, m, r, o.2, hf, x, hx, hxi, hxt⟩
  | ask _ r' q n h1 =>
    refine ⟨h.call, h.id, h.acked, h.only, c, m, r, hc, hf, x, keep r' _ ?_, hxi, hxt⟩
    rintro rfl; rw [hx] at h1; cases h1
  | read _ r' y n h1 h2 => exact reqs r' y _ h1 fun _ h3 => by rw [h2] at h3; cases h3
  | answered _ r' y h1 h2 => exact reqs r' y _ h1 fun _ h3 => by rw [h2] at h3; cases h3
  | nobody _ r' y n h1 h2 h3 => exact reqs r' y _ h1 fun h4 => by rw [h3] at h4; cases h4
  | notFound _ r' y n j h1 h2 h3 h4 => rw [h.call] at h4; cases h4
  | found _ r' y n j g h1 h2 h3 h4 => rw [h.call] at h4; cases h4
  | used _ r' y n g h1 h2 => exact reqs r' y _ h1 fun _ h3 => by rw [h2] at h3; cases h3

theorem K.run {s s' : State} {es : List Event} (h : K s) (hr : Run s es s') (he : ∀ e ∈ es, e ≠ .timeout 7 ∧ e ≠ .disconnect 0 ∧ e ≠ .loadFails 0 ∧ e ≠ .push 1 ∧ ∀ q, e ≠ .connect q 7) : K s' := by
  induction hr with
  | nil => exact h
  | snoc _ hs ih => exact (ih fun e hm => he e (by simp [hm])).step hs (he _ (by simp))

/-- Not true in general: a failure-free history in which the file system acknowledges the first manifest, a second one is pushed, and the file system asks for it. The chunk is read, but before
it is sent the server looks up the session of the instance, for which it needs the lock that `StartSession` has. `StartSession` waits for the acknowledgement and does not return until it has
waited too long, whatever else happens - unless the connection breaks, somebody else connects as the same instance, or the first manifest comes back. -/
theorem C167_waits_for_itself_violated :
    ∃ es s, Run {} es s ∧ (∀ e ∈ es, e ≠ .fails ∧ (∀ i, e ≠ .timeout i) ∧ (∀ i, e ≠ .started i false) ∧ (∀ p, e ≠ .disconnect p) ∧ (∀ p, e ≠ .loadFails p)) ∧
      s.call = .start 7 .ack ∧ s.failed = false ∧ s.id = some 2 ∧ (∃ c, s.client 0 = some c ∧ c.inst = 7) ∧
      ∀ es' s', Run s es' s' → (∀ e ∈ es', e ≠ .timeout 7 ∧ e ≠ .disconnect 0 ∧ e ≠ .loadFails 0 ∧ e ≠ .push 1 ∧ ∀ q, e ≠ .connect q 7) → s'.call = .start 7 .ack := by
  have h1 : Run {} [] {} := .nil _
  have h2 := h1.snoc (.push _ 1)
  have h3 := h2.snoc (.begin _ 7 rfl (fun g hg => nomatch hg) rfl)
  have h4 := h3.snoc (.fuseUp _ 7 rfl)
  have h5 := h4.snoc (.connect _ 0 7 rfl (.inl ⟨_, rfl⟩))
  have h6 := h5.snoc (.deliver _ 0 ⟨7, none, [], .idle⟩ 1 rfl rfl (by decide))
  have h7 := h6.snoc (.take _ 0 ⟨7, some 1, [1], .idle⟩ 1 [] 0 rfl rfl rfl rfl)
  have h8 := h7.snoc (.read _ 0 ⟨0, none, .send 1⟩ 0 rfl rfl)
  have h9 := h8.snoc (.nobody _ 0 ⟨0, none, .tell 0⟩ 0 rfl rfl rfl)
  have h10 := h9.snoc (.answered _ 0 ⟨0, none, .send 0⟩ rfl rfl)
  have h11 := h10.snoc (.loaded _ 0 ⟨7, some 1, [], .fetch 1 0⟩ 1 0 ⟨0, none, .done⟩ rfl rfl rfl rfl)
  have h12 := h11.snoc (.setPeer _ 0 ⟨7, some 1, [], .ack 1⟩ 1 rfl rfl)
  have h13 := h12.snoc (.setAck _ 0 ⟨7, some 1, [], .ack2 1⟩ 1 rfl rfl)
  have h14 := h13.snoc (.push _ 2)
  have h15 := h14.snoc (.manifestSeen _ 7 rfl rfl rfl)
  have h16 := h15.snoc (.deliver _ 0 ⟨7, some 1, [], .idle⟩ 2 rfl rfl (by decide))
  have h17 := h16.snoc (.take _ 0 ⟨7, some 2, [2], .idle⟩ 2 [] 1 rfl rfl rfl rfl)
  have h18 := h17.snoc (.read _ 1 ⟨0, some 7, .send 1⟩ 0 rfl rfl)
  refine ⟨_, _, h18, ?_, rfl, rfl, rfl, ⟨⟨7, some 2, [], .fetch 2 1⟩, rfl, rfl⟩, ?_⟩
  · simp
  · clear h1 h2 h3 h4 h5 h6 h7 h8 h9 h10 h11 h12 h13 h14 h15 h16 h17
    intro es' s' hrun hes
    refine (K.run (s := _) ?_ hrun hes).call
    refine ⟨rfl, by simp, rfl, ?_, ⟨⟨7, some 2, [], .fetch 2 1⟩, 2, 1, rfl, rfl, ⟨0, some 7, .tell 0⟩, rfl, rfl, rfl⟩⟩
    intro q c hq hc
    exact Classical.byContradiction fun hne => by simp [set, hne] at hq

/-! ### C168 -/

/-- Whatever is acknowledged for the instance has been loaded. -/
structure L (i : Inst) (es : List Event) (s : State) : Prop where
  acked : ∀ m, s.acked i = some m → ∃ p, .loaded p i m ∈ es
  acking : ∀ p c m, s.client p = some c → c.inst = i → c.fs = .ack m ∨ c.fs = .ack2 m → .loaded p i m ∈ es

theorem L.step {i : Inst} {es : List Event} {s s' : State} {e : Event} (h : L i es s) (hs : Step e s s') : L i (es ++ [e]) s' := by
  have up : ∀ {x : Event}, x ∈ es → x ∈ es ++ [e] := fun hx => by simp [hx]
  have hA : ∀ m, s.acked i = some m → ∃ p, .loaded p i m ∈ es ++ [e] := fun m hm => (h.acked m hm).elim fun p hp => ⟨p, up hp⟩
  have cl : ∀ (q : Peer) (y : Option Client), (∀ d m, y = some d → d.inst = i → d.fs = .ack m ∨ d.fs = .ack2 m → .loaded q i m ∈ es ++ [e]) →
      ∀ p c m, set s.client q y p = some c → c.inst = i → c.fs = .ack m ∨ c.fs = .ack2 m → .loaded p i m ∈ es ++ [e] := by
    intro q y hy p c m hp hc hf
    by_cases hpq : p = q
    · subst hpq; rw [set_same] at hp; exact hy c m hp hc hf
    · rw [set_other _ _ hpq] at hp; exact up (h.acking p c m hp hc hf)
  have base : ∀ p c m, s.client p = some c → c.inst = i → c.fs = .ack m ∨ c.fs = .ack2 m → .loaded p i m ∈ es ++ [e] := fun p c m h1 h2 h3 => up (h.acking p c m h1 h2 h3)
  cases hs with
  | connect _ q j h1 => exact ⟨hA, cl q _ fun d m hd _ hf => by cases hd; rcases hf with hf | hf <;> cases hf⟩
  | disconnect _ q => exact ⟨hA, cl q _ fun d m hd => nomatch hd⟩
  | loadFails _ q d m r h1 h2 => exact ⟨hA, cl q _ fun d m hd _ hf => by cases hd; rcases hf with hf | hf <;> cases hf⟩
  | deliver _ q d m h1 => exact ⟨hA, cl q _ fun d' m' hd hi hf => by cases hd; exact base q d m' h1 hi hf⟩
  | take _ q d m l r h1 => exact ⟨hA, cl q _ fun d m hd _ hf => by cases hd; rcases hf with hf | hf <;> cases hf⟩
  | loaded _ q d m r x h1 =>
    refine ⟨hA, cl q _ fun d' m' hd hi hf => ?_⟩
    cases hd
    have hi : d.inst = i := hi
    rcases hf with hf | hf <;> cases hf
    simp [hi]
  | setPeer _ q d m h1 h2 =>
    refine ⟨hA, cl q _ fun d' m' hd hi hf => ?_⟩
    cases hd
    rcases hf with hf | hf <;> cases hf
    exact base q d m h1 hi (.inl h2)
  | setAck _ q d m h1 h2 =>
    refine ⟨fun m' hm' => ?_, cl q _ fun d m hd _ hf => by cases hd; rcases hf with hf | hf <;> cases hf⟩
    by_cases hi : i = d.inst
    · subst hi
      have hm' : set s.acked d.inst (some m) d.inst = some m' := hm'
      rw [set_same] at hm'; cases hm'
      exact ⟨q, base q d m h1 rfl (.inr h2)⟩
    · have hm' : set s.acked d.inst (some m) i = some m' := hm'
      rw [set_other _ _ hi] at hm'
      exact hA m' hm'
  | _ => exact ⟨hA, base⟩

theorem L.run {i : Inst} {s s' : State} {es : List Event} (h : L i [] s) (hr : Run s es s') : L i es s' := by
  induction hr with
  | nil => exact h
  | snoc _ hs ih => exact ih.step hs

/-- **C168** (first session of an instance). If at some time - say when `StartSession` is called - no file system of the instance is connected and none has acknowledged a manifest, and later
`StartSession` succeeds, then in between a file system of the instance has loaded the manifest that is current when it returns. -/
theorem C168_started_partial {i : Inst} {s s1 s2 : State} {es : List Event} (hnone : s.acked i = none) (honly : ∀ p c, s.client p = some c → c.inst ≠ i)
    (hrun : Run s es s1) (hs : Step (.started i true) s1 s2) : ∃ p m, .loaded p i m ∈ es ∧ s1.id = some m := by
  have hl : L i es s1 := L.run ⟨(fun m hm => by rw [hnone] at hm; cases hm), fun p c m hp hc => absurd hc (honly p c hp)⟩ hrun
  cases hs with
  | started _ _ m h1 h2 h3 =>
    obtain ⟨p, hp⟩ := hl.acked m h3
    exact ⟨p, m, hp, h2⟩

/-- The hypotheses are met, and so is the conclusion of C167: a session is started. -/
theorem starts : ∃ es s, Run {} es s ∧ s.id = some 1 ∧ s.call = .none ∧ s.sessions = [(7, 0)] ∧ s.acked 7 = some 1 ∧ s.client 0 = some ⟨7, some 1, [], .idle⟩ ∧ s.peers 0 = some 7 ∧
    s.failed = false ∧ (∀ q, q ≠ 0 → s.client q = none) ∧ (∀ r, r ≠ 0 → s.req r = none) := by
  have h1 : Run {} [] {} := .nil _
  have h2 := h1.snoc (.push _ 1)
  have h3 := h2.snoc (.begin _ 7 rfl (fun g hg => nomatch hg) rfl)
  have h4 := h3.snoc (.fuseUp _ 7 rfl)
  have h5 := h4.snoc (.connect _ 0 7 rfl (.inl ⟨_, rfl⟩))
  have h6 := h5.snoc (.deliver _ 0 ⟨7, none, [], .idle⟩ 1 rfl rfl (by decide))
  have h7 := h6.snoc (.take _ 0 ⟨7, some 1, [1], .idle⟩ 1 [] 0 rfl rfl rfl rfl)
  have h8 := h7.snoc (.read _ 0 ⟨0, none, .send 1⟩ 0 rfl rfl)
  have h9 := h8.snoc (.nobody _ 0 ⟨0, none, .tell 0⟩ 0 rfl rfl rfl)
  have h10 := h9.snoc (.answered _ 0 ⟨0, none, .send 0⟩ rfl rfl)
  have h11 := h10.snoc (.loaded _ 0 ⟨7, some 1, [], .fetch 1 0⟩ 1 0 ⟨0, none, .done⟩ rfl rfl rfl rfl)
  have h12 := h11.snoc (.setPeer _ 0 ⟨7, some 1, [], .ack 1⟩ 1 rfl rfl)
  have h13 := h12.snoc (.setAck _ 0 ⟨7, some 1, [], .ack2 1⟩ 1 rfl rfl)
  have h14 := h13.snoc (.manifestSeen _ 7 rfl rfl rfl)
  have h15 := h14.snoc (.started _ 7 1 rfl rfl rfl)
  exact ⟨_, _, h15, rfl, rfl, rfl, rfl, rfl, rfl, rfl, fun q hq => by simp [set, hq], fun r hr => by simp [set, hr]⟩

/-- Not true in general: acknowledgements are never forgotten. A session is started and stopped, and its file system is gone. The session is started again, and this time the file system does
not connect: `StartSession` succeeds all the same, at once. -/
theorem C168_old_acknowledgement_violated :
    ∃ s0 es s, Reachable s0 ∧ (∀ p, s0.client p = none) ∧ s0.sessions = [] ∧ s0.call = .none ∧ Run s0 (.begin 7 :: es) s ∧ .started 7 true ∈ es ∧
      ∀ e ∈ es, (∀ p i, e ≠ .connect p i) ∧ ∀ p i m, e ≠ .loaded p i m := by
  obtain ⟨es, s, h, hid, hcall, hse, hack, hcl, _, hfail, hother, _⟩ := starts
  have h1 := h.snoc (.beginStop s 7 0 hcall (by rw [hse]; simp))
  have h2 := h1.snoc (.stopped _ 7 0 rfl (by show _ ∈ s.sessions; rw [hse]; simp))
  have h3 := h2.snoc (.disconnect _ 0)
  have hse' : s.sessions.filter (fun x => decide (x.1 ≠ 7)) = [] := by rw [hse]; rfl
  refine ⟨_, [.fuseUp 7, .manifestSeen 7, .started 7 true], _, ⟨_, h3⟩, ?_, ?_, rfl, .front (.begin _ 7 rfl ?_ hfail) (.front (.fuseUp _ 7 rfl)
    (.front (.manifestSeen _ 7 rfl hfail (by show s.id.isSome = true; rw [hid]; rfl)) (.one (.started _ 7 1 rfl hid hack)))), by simp, by simp⟩
  · intro p
    by_cases hp : p = 0
    · simp [set, hp]
    · simp [set, hp, hother p hp]
  · show s.sessions.filter _ = []
    rw [hse]; rfl
  · intro g hg
    have hg : (7, g) ∈ s.sessions.filter (fun x => decide (x.1 ≠ 7)) := hg
    rw [hse'] at hg
    cases hg

/-! ### C169 -/

/-- The steps of the request itself. -/
def Own (r : Nat) : Event → Prop
  | .read k => k = r
  | .untold k => k = r
  | .found k _ => k = r
  | .used k _ => k = r
  | _ => False

/-- The request is answered by its own steps. -/
def Ends (r : Nat) (s : State) : Prop := ∃ es s' y, Run s es s' ∧ (∀ e ∈ es, Own r e) ∧ s'.req r = some y ∧ y.todo = .done

theorem Ends.front {r : Nat} {s s1 : State} {e : Event} (hs : Step e s s1) (he : Own r e) (h : Ends r s1) : Ends r s := by
  obtain ⟨es, s', y, h1, h2, h3, h4⟩ := h
  refine ⟨e :: es, s', y, .front hs h1, ?_, h3, h4⟩
  intro e' he'
  rcases List.mem_cons.1 he' with rfl | he'
  · exact he
  · exact h2 _ he'

theorem ends_tell {r n : Nat} (ih : ∀ (s : State) (p : Peer) (oi : Option Inst), s.req r = some ⟨p, oi, .send n⟩ → s.call = .none ∨ oi = none → Ends r s)
    (s : State) (p : Peer) (oi : Option Inst) (hx : s.req r = some ⟨p, oi, .tell n⟩) (hf : s.call = .none ∨ oi = none) : Ends r s := by
  cases oi with
  | none => exact Ends.front (.nobody s r _ n hx rfl rfl) rfl (ih _ p none (set_same s.req r _) (.inr rfl))
  | some i =>
    have hc : s.call = .none := hf.resolve_right (by simp)
    by_cases hse : ∃ g, (i, g) ∈ s.sessions
    · obtain ⟨g, hg⟩ := hse
      refine Ends.front (.found s r _ n i g hx rfl rfl hc hg) rfl ?_
      exact Ends.front (.used _ r ⟨p, some i, .use g n⟩ n g (set_same s.req r _) rfl) rfl (ih _ p (some i) (set_same _ r _) (.inl hc))
    · exact Ends.front (.notFound s r _ n i hx rfl rfl hc fun g hg => hse ⟨g, hg⟩) rfl (ih _ p (some i) (set_same s.req r _) (.inl hc))

theorem ends_send {r : Nat} (n : Nat) (s : State) (p : Peer) (oi : Option Inst) (hx : s.req r = some ⟨p, oi, .send n⟩) (hf : s.call = .none ∨ oi = none) : Ends r s := by
  induction n generalizing s p oi with
  | zero => exact Ends.front (.answered s r _ hx rfl) rfl ⟨[], _, _, .nil _, (fun e he => nomatch he), set_same s.req r _, rfl⟩
  | succ n ih => exact Ends.front (.read s r _ n hx rfl) rfl (ends_tell ih _ p oi (set_same s.req r _) hf)

/-- **C169** (while no session is started or stopped, or for an instance the server does not know yet). A request for chunks is answered by its own steps alone: it does not wait for
anything. -/
theorem C169_answered_partial {s : State} {r : Nat} {x : Req} (hx : s.req r = some x) (hfree : s.call = .none ∨ x.inst = none) :
    ∃ es s' y, Run s es s' ∧ (∀ e ∈ es, Own r e) ∧ s'.req r = some y ∧ y.todo = .done := by
  obtain ⟨p, oi, t⟩ := x
  cases t with
  | send n => exact ends_send n s p oi hx hfree
  | tell n => exact ends_tell (ends_send n) s p oi hx hfree
  | use g n => exact Ends.front (.used s r _ n g hx rfl) rfl (ends_send n _ p oi (set_same s.req r _) hfree)
  | done => exact ⟨[], s, _, .nil s, (fun e he => nomatch he), hx, rfl⟩

/-- Not true in general: instance 7 has a session and asks for a chunk while a session for instance 8 is started. The chunk is read but not sent before `StartSession` of the other instance
returns - that is, not while its file system is deployed and started, nor while its acknowledgement is waited for. -/
theorem C169_other_instance_violated :
    ∃ s r x, Reachable s ∧ s.sessions = [(7, 0)] ∧ s.call = .start 8 .fuse ∧ s.req r = some x ∧ x.inst = some 7 ∧
      ∀ es s', Run s es s' → (∀ e ∈ es, (∀ ok, e ≠ .started 8 ok) ∧ e ≠ .timeout 8) → ∃ y, s'.req r = some y ∧ y.todo ≠ .done := by
  obtain ⟨es, s, h, hid, hcall, hse, hack, hcl, hpe, hfail, hother, hreq⟩ := starts
  have h1 := h.snoc (.ask s 1 0 1 (hreq 1 (by decide)))
  have h2 := h1.snoc (.begin _ 8 hcall (by intro g hg; have hg : _ ∈ s.sessions := hg; rw [hse] at hg; simp at hg) hfail)
  have h3 := h2.snoc (.read _ 1 ⟨0, s.peers 0, .send 1⟩ 0 (set_same s.req 1 _) rfl)
  refine ⟨_, 1, ⟨0, s.peers 0, .tell 0⟩, ⟨_, h3⟩, hse, rfl, rfl, hpe, ?_⟩
  intro es' s' hrun he
  have inv : (∃ ph, s'.call = .start 8 ph) ∧ s'.req 1 = some ⟨0, some 7, .tell 0⟩ := by
    induction hrun with
    | nil =>
      refine ⟨⟨_, rfl⟩, ?_⟩
      show some (⟨0, s.peers 0, .tell 0⟩ : Req) = _
      rw [hpe]
    | @snoc s1 s2 es' e hr hs ih =>
      obtain ⟨⟨ph, hc⟩, hq⟩ := ih fun e he' => he e (by simp [he'])
      have he1 := (he e (by simp)).1
      have he2 := (he e (by simp)).2
      have fresh : ∀ (k : Nat) (z : Option Req), s1.req k = none → set s1.req k z 1 = some ⟨0, some 7, .tell 0⟩ := by
        intro k z hk
        rw [set_other _ _ (by rintro rfl; rw [hq] at hk; cases hk)]; exact hq
      have reqs : ∀ (k : Nat) (z y : Req), s1.req k = some z → (z.inst = some 7 → z.todo ≠ .tell 0) → set s1.req k (some y) 1 = some ⟨0, some 7, .tell 0⟩ := by
        intro k z y hk hn
        rw [set_other _ _ (by rintro rfl; rw [hq] at hk; cases hk; exact hn rfl rfl)]; exact hq
      cases hs with
      | push => exact ⟨⟨ph, hc⟩, hq⟩
      | fails => exact ⟨⟨ph, hc⟩, hq⟩
      | begin _ _ h1 => rw [hc] at h1; cases h1
      | fuseUp _ _ h1 => rw [hc] at h1; cases h1; exact ⟨⟨_, rfl⟩, hq⟩
      | fuseFails _ _ h1 => rw [hc] at h1; cases h1; exact absurd rfl (he1 false)
      | statusFails _ _ h1 => rw [hc] at h1; cases h1; exact absurd rfl (he1 false)
      | manifestSeen _ _ h1 => rw [hc] at h1; cases h1; exact ⟨⟨_, rfl⟩, hq⟩
      | started _ _ _ h1 => rw [hc] at h1; cases h1; exact absurd rfl (he1 true)
      | timeout _ _ h1 => rw [hc] at h1; cases h1; exact absurd rfl he2
      | beginStop _ _ _ h1 => rw [hc] at h1; cases h1
      | stopped _ _ _ h1 => rw [hc] at h1; cases h1
      | stopFails _ _ h1 => rw [hc] at h1; cases h1
      | connect => exact ⟨⟨ph, hc⟩, hq⟩
      | disconnect => exact ⟨⟨ph, hc⟩, hq⟩
      | deliver => exact ⟨⟨ph, hc⟩, hq⟩
      | take _ _ _ _ _ _ _ _ _ h4 => exact ⟨⟨ph, hc⟩, fresh _ _ h4⟩
      | loaded => exact ⟨⟨ph, hc⟩, hq⟩
      | loadFails => exact ⟨⟨ph, hc⟩, hq⟩
      | setPeer => exact ⟨⟨ph, hc⟩, hq⟩
      | setAck => exact ⟨⟨ph, hc⟩, hq⟩
      | ask _ _ _ _ h4 => exact ⟨⟨ph, hc⟩, fresh _ _ h4⟩
      | read _ k y n h1 h2 => exact ⟨⟨ph, hc⟩, reqs k y _ h1 fun _ h3 => by rw [h2] at h3; cases h3⟩
      | answered _ k y h1 h2 => exact ⟨⟨ph, hc⟩, reqs k y _ h1 fun _ h3 => by rw [h2] at h3; cases h3⟩
      | nobody _ k y n h1 h2 h3 => exact ⟨⟨ph, hc⟩, reqs k y _ h1 fun h4 => by rw [h3] at h4; cases h4⟩
      | notFound _ _ _ _ _ h1 h2 h3 h4 => rw [hc] at h4; cases h4
      | found _ _ _ _ _ _ h1 h2 h3 h4 => rw [hc] at h4; cases h4
      | used _ k y n g h1 h2 => exact ⟨⟨ph, hc⟩, reqs k y _ h1 fun _ h3 => by rw [h2] at h3; cases h3⟩
  exact ⟨_, inv.2, by simp⟩

/-! ### C170 -/

/-- One session for an instance. -/
structure S (s : State) : Prop where
  one : ∀ i g g', (i, g) ∈ s.sessions → (i, g') ∈ s.sessions → g = g'
  starting : ∀ i ph, s.call = .start i ph → ∀ g, (i, g) ∉ s.sessions

theorem S.step {s s' : State} {e : Event} (h : S s) (hs : Step e s s') : S s' := by
  cases hs with
  | begin _ i h1 h2 => exact ⟨h.one, fun j ph hj => by cases hj; exact h2⟩
  | fuseUp _ i h1 => exact ⟨h.one, fun j ph hj => by cases hj; exact h.starting i _ h1⟩
  | manifestSeen _ i h1 => exact ⟨h.one, fun j ph hj => by cases hj; exact h.starting i _ h1⟩
  | fuseFails => exact ⟨h.one, fun j ph hj => by cases hj⟩
  | statusFails => exact ⟨h.one, fun j ph hj => by cases hj⟩
  | timeout => exact ⟨h.one, fun j ph hj => by cases hj⟩
  | beginStop => exact ⟨h.one, fun j ph hj => by cases hj⟩
  | stopFails => exact ⟨h.one, fun j ph hj => by cases hj⟩
  | started _ i m h1 =>
    have hn := h.starting i _ h1
    refine ⟨fun j g g' hg hg' => ?_, fun j ph hj => by cases hj⟩
    rcases List.mem_cons.1 hg with hg | hg <;> rcases List.mem_cons.1 hg' with hg' | hg'
    · cases hg; cases hg'; rfl
    · cases hg; exact absurd hg' (hn _)
    · cases hg'; exact absurd hg (hn _)
    · exact h.one j g g' hg hg'
  | stopped _ i g h1 => exact ⟨fun j g g' hg hg' => h.one j g g' (List.mem_filter.1 hg).1 (List.mem_filter.1 hg').1, fun j ph hj => by cases hj⟩
  | _ => exact ⟨h.one, h.starting⟩

theorem S.reachable {s : State} (h : Reachable s) : S s := by
  obtain ⟨es, h⟩ := h
  induction h with
  | nil => exact ⟨(fun i g g' hg => nomatch hg), (fun i ph hc => nomatch hc)⟩
  | snoc _ hs ih => exact ih.step hs

/-- **C170** (a session that is not stopped in between). What is found is still there when it is used, unless its session was stopped in the meantime. -/
theorem C170_live_partial {s s1 s2 s3 : State} {r g : Nat} {es : List Event} (hR : Reachable s) (hf : Step (.found r g) s s1) (hrun : Run s1 es s2) (_hu : Step (.used r g) s2 s3)
    (hno : ∀ i, .stopped i (some g) ∉ es) : ∃ i, (i, g) ∈ s2.sessions := by
  obtain ⟨es0, h0⟩ := hR
  have hf' := hf
  cases hf with
  | found _ _ x n i _ h1 h2 h3 h4 h5 =>
    refine ⟨i, ?_⟩
    clear _hu
    have inv : S s2 ∧ (i, g) ∈ s2.sessions := by
      induction hrun with
      | nil => exact ⟨S.reachable ⟨_, h0.snoc hf'⟩, h5⟩
      | @snoc s4 s5 es e _ hs ih =>
        obtain ⟨hS, hm⟩ := ih fun j hj => hno j (by simp [hj])
        refine ⟨hS.step hs, ?_⟩
        cases hs with
        | started => exact List.mem_cons_of_mem _ hm
        | stopped _ j g' k1 k2 =>
          refine List.mem_filter.2 ⟨hm, ?_⟩
          have : i ≠ j := by
            rintro rfl
            have := hS.one i g g' hm k2
            subst this
            exact hno i (by simp)
          simpa using this
        | _ => exact hm
    exact inv.2

/-- Not true in general: a file system asks for a chunk, the session is found, the lock is given back, the session is stopped and freed, and then the chunk is recorded in it. -/
theorem C170_freed_session_violated :
    ∃ es s s' r g, Run {} es s ∧ .found r g ∈ es ∧ .stopped 7 (some g) ∈ es ∧ Step (.used r g) s s' ∧ ∀ i, (i, g) ∉ s.sessions := by
  obtain ⟨es, s, h, hid, hcall, hse, hack, hcl, hpe, hfail, hother, hreq⟩ := starts
  have h1 := h.snoc (.ask s 1 0 1 (hreq 1 (by decide)))
  have h2 := h1.snoc (.read _ 1 ⟨0, s.peers 0, .send 1⟩ 0 (set_same s.req 1 _) rfl)
  have h3 := h2.snoc (.found _ 1 ⟨0, s.peers 0, .tell 0⟩ 0 7 0 rfl rfl hpe hcall (by show _ ∈ s.sessions; rw [hse]; simp))
  have h4 := h3.snoc (.beginStop _ 7 0 hcall (by show _ ∈ s.sessions; rw [hse]; simp))
  have h5 := h4.snoc (.stopped _ 7 0 rfl (by show _ ∈ s.sessions; rw [hse]; simp))
  refine ⟨_, _, _, 1, 0, h5, by simp, by simp, .used _ 1 ⟨0, s.peers 0, .use 0 0⟩ 0 0 rfl rfl, ?_⟩
  intro i hi
  have hi : (i, 0) ∈ s.sessions.filter (fun x => decide (x.1 ≠ 7)) := hi
  rw [hse] at hi
  simp at hi

/-- C167 is not empty: a state in which a file system can connect while its session is started. -/
example : ∃ s s1, Reachable s ∧ s.call = .start 7 .fuse ∧ s.failed = false ∧ s.id = some 1 ∧ s.peers 0 = none ∧ (∀ q c, s.client q = some c → c.inst ≠ 7) ∧ Step (.connect 0 7) s s1 := by
  have h1 : Run {} [] {} := .nil _
  have h2 := h1.snoc (.push _ 1)
  have h3 := h2.snoc (.begin _ 7 rfl (fun g hg => nomatch hg) rfl)
  exact ⟨_, _, ⟨_, h3⟩, rfl, rfl, rfl, rfl, (fun q c h => nomatch h), .connect _ 0 7 rfl (.inl ⟨_, rfl⟩)⟩

end Verif.Stream.Handshake
