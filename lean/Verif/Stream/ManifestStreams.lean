import Mathlib.Data.List.Chain

/-! # The streams of manifest ids on the workstation (C215)

cdc_stream/grpc_asset_stream_server.cc:153-178, 202-208, 227-233, 243-251: `GetManifestId`, one call for every connection of a file
system. Any number of calls run at the same time, each in a thread of its own. -/
namespace Verif.ManifestStreams

abbrev Mid := Nat

/-! ## Model -/

/-- Where a call of `GetManifestId` is. -/
inductive Pc where
  /-- in `WaitForUpdate`, 160 and 243-251 -/
  | waiting
  /-- is to write this id, 163-167 -/
  | writing (m : Mid)
  /-- is to read `running_`, 172-173 -/
  | check
  /-- has returned; its thread is free -/
  | ended
deriving DecidableEq

/-- A call of `GetManifestId` and its client. -/
structure Handler where
  pc : Pc := .waiting
  /-- `local_id`, 156 -/
  loc : Option Mid := none
  connected : Bool := true
  /-- what the client has received -/
  received : List Mid := []
deriving DecidableEq

structure State where
  /-- `id_`; the empty id at the beginning -/
  id : Option Mid := none
  /-- `running_` -/
  running : Bool := true
  /-- the calls by number -/
  call : Nat → Handler := fun _ => {}
  /-- so many calls have been made -/
  next : Nat := 0

inductive Event where
  /-- `SetManifestId`, 202-207 -/
  | push (m : Mid)
  /-- `Shutdown`, 227-233 -/
  | shutdown
  /-- a file system connects and calls `GetManifestId` -/
  | connect
  /-- the client of this call goes away -/
  | disconnect (k : Nat)
  /-- the thread of this call runs -/
  | step (k : Nat)
deriving DecidableEq

/-- A step of a call, 153-178. A waiting call is only woken up if its condition holds (245-247); else nothing happens. `Write` fails if the
client has gone; this is only logged (168-171). -/
def stepHandler (id : Option Mid) (running : Bool) (h : Handler) : Handler :=
  match h.pc with
  | .waiting =>
    if running = false ∨ h.loc ≠ id then
      match running, id with
      | true, some m => { h with loc := id, pc := .writing m }
      | true, none => { h with loc := id, pc := .check }
      | false, _ => { h with loc := id, pc := .ended }
    else h
  | .writing m => { h with received := if h.connected then h.received ++ [m] else h.received, pc := .check }
  | .check => { h with pc := if running then .waiting else .ended }
  | .ended => h

def update (f : Nat → Handler) (k : Nat) (h : Handler) : Nat → Handler := fun j => if j = k then h else f j

def apply (s : State) : Event → State
  | .push m => { s with id := some m }
  | .shutdown => { s with running := false }
  | .connect => { s with call := update s.call s.next {}, next := s.next + 1 }
  | .disconnect k => { s with call := update s.call k { s.call k with connected := false } }
  | .step k => { s with call := update s.call k (stepHandler s.id s.running (s.call k)) }

def run (s : State) (es : List Event) : State := es.foldl apply s

/-! ## Specification -/

/-- The ids set in a history. -/
def pushed (es : List Event) : List Mid := es.filterMap fun e => match e with | .push m => some m | _ => none

/-- The number of connections in a history. -/
def connects (es : List Event) : Nat := es.count .connect

/-- Call `k` has nothing left to do but to wait. -/
def Idle (s : State) (k : Nat) : Prop := stepHandler s.id s.running (s.call k) = s.call k

/-! ## Proof -/

theorem run_append (s : State) (a b : List Event) : run s (a ++ b) = run (run s a) b := List.foldl_append ..

theorem run_cons (s : State) (e : Event) (b : List Event) : run s (e :: b) = run (apply s e) b := rfl

theorem next_run (s : State) (es : List Event) : (run s es).next = s.next + connects es := by
  induction es generalizing s with
  | nil => rfl
  | cons e es ih =>
    rw [run_cons, ih]
    unfold connects
    rw [List.count_cons]
    cases e <;> simp [apply] <;> omega

theorem id_run (s : State) (es : List Event) : (run s es).id = ((pushed es).getLast?).or s.id := by
  induction es generalizing s with
  | nil => rfl
  | cons e es ih =>
    rw [run_cons, ih]
    cases e with
    | push m =>
      have : pushed (.push m :: es) = m :: pushed es := rfl
      rw [this, List.getLast?_cons]
      cases (pushed es).getLast? <;> rfl
    | shutdown => rfl
    | connect => rfl
    | disconnect k => rfl
    | step k => rfl

/-- What is true of every call when these ids have been set. -/
structure Good (ids : List Mid) (h : Handler) : Prop where
  /-- what was received was set up to the local id -/
  split : ∃ a b, ids = a ++ b ∧ a.getLast? = h.loc ∧
    match h.pc with
    | .writing m => h.loc = some m ∧ (h.received ++ [m]).Sublist a
    | _ => h.received.Sublist a
  distinct : h.received.IsChain (· ≠ ·)
  last : h.connected = true → match h.pc with
    | .writing m => h.received.getLast? ≠ some m
    | .ended => True
    | _ => h.received.getLast? = h.loc

theorem good_init (ids : List Mid) : Good ids {} where
  split := ⟨[], ids, rfl, rfl, List.Sublist.refl _⟩
  distinct := List.isChain_nil
  last := fun _ => rfl

theorem good_more {ids : List Mid} {h : Handler} (m : Mid) (g : Good ids h) : Good (ids ++ [m]) h where
  split := by
    obtain ⟨a, b, e, hl, h2⟩ := g.split
    exact ⟨a, b ++ [m], by rw [e, List.append_assoc], hl, h2⟩
  distinct := g.distinct
  last := g.last

theorem good_disconnect {ids : List Mid} {h : Handler} (g : Good ids h) : Good ids { h with connected := false } where
  split := g.split
  distinct := g.distinct
  last := fun h => nomatch h

theorem good_step {ids : List Mid} {h : Handler} {r : Bool} (g : Good ids h) : Good ids (stepHandler ids.getLast? r h) := by
  obtain ⟨⟨a, b, e, hl, hs⟩, hd, hlast⟩ := g
  obtain ⟨pc, loc, conn, rec⟩ := h
  dsimp only at *
  cases pc with
  | waiting =>
    unfold stepHandler
    dsimp only at *
    split
    · rename_i hc
      cases r with
      | false =>
        exact ⟨⟨ids, [], by simp, rfl, by rw [e]; exact hs.trans (List.sublist_append_left a b)⟩, hd, fun _ => trivial⟩
      | true =>
        have hne : loc ≠ ids.getLast? := by simpa using hc
        cases hi : ids.getLast? with
        | none =>
          rw [List.getLast?_eq_none_iff] at hi
          rw [hi] at e hne
          have : a = [] := by simpa using (List.append_eq_nil_iff.1 e.symm).1
          rw [this] at hl
          exact absurd hl.symm hne
        | some m =>
          have hb : b ≠ [] := by
            rintro rfl
            rw [List.append_nil] at e
            rw [e] at hne
            exact hne hl.symm
          have hm : b.getLast? = some m := by
            rw [e, List.getLast?_append] at hi
            cases hb' : b.getLast? with
            | none => exact absurd (List.getLast?_eq_none_iff.1 hb') hb
            | some x => rw [hb'] at hi; exact hi
          refine ⟨⟨ids, [], by simp, hi, rfl, ?_⟩, hd, fun hcn => ?_⟩
          · rw [e]
            exact List.Sublist.append hs (List.singleton_sublist.2 (List.mem_of_getLast? hm))
          · have := hlast hcn
            dsimp only
            rw [this]
            rw [hi] at hne
            exact hne
    · exact ⟨⟨a, b, e, hl, hs⟩, hd, hlast⟩
  | writing m =>
    unfold stepHandler
    dsimp only at *
    cases conn with
    | true =>
      refine ⟨⟨a, b, e, hl, hs.2⟩, ?_, fun _ => ?_⟩
      · have h1 := hlast rfl
        simp only [if_true]
        rw [List.isChain_append]
        refine ⟨hd, List.isChain_singleton _, ?_⟩
        intro x hx y hy
        rintro rfl
        simp only [List.head?_cons, Option.mem_def, Option.some.injEq] at hy
        subst hy
        exact h1 hx
      · simp [hs.1]
    | false =>
      exact ⟨⟨a, b, e, hl, (List.sublist_append_left _ _).trans hs.2⟩, hd, fun h => nomatch h⟩
  | check =>
    unfold stepHandler
    dsimp only at *
    cases r
    · exact ⟨⟨a, b, e, hl, hs⟩, hd, fun _ => trivial⟩
    · exact ⟨⟨a, b, e, hl, hs⟩, hd, hlast⟩
  | ended => exact ⟨⟨a, b, e, hl, hs⟩, hd, hlast⟩

theorem good_run (es : List Event) (k : Nat) : Good (pushed es) ((run {} es).call k) := by
  induction es using List.reverseRecOn generalizing k with
  | nil => exact good_init _
  | append_singleton es e ih =>
    have hid := id_run {} es
    rw [show (({} : State).id) = none from rfl, Option.or_none] at hid
    rw [run_append]
    have hp : pushed (es ++ [e]) = pushed es ++ pushed [e] := List.filterMap_append ..
    rw [hp]
    cases e with
    | push m => exact good_more m (ih k)
    | shutdown => rw [show pushed [.shutdown] = [] from rfl, List.append_nil]; exact ih k
    | connect =>
      rw [show pushed [.connect] = [] from rfl, List.append_nil]
      simp only [run, List.foldl_cons, List.foldl_nil, apply, update]
      split
      · exact good_init _
      · exact ih k
    | disconnect j =>
      rw [show pushed [.disconnect j] = [] from rfl, List.append_nil]
      simp only [run, List.foldl_cons, List.foldl_nil, apply, update]
      split
      · exact good_disconnect (ih j)
      · exact ih k
    | step j =>
      rw [show pushed [.step j] = [] from rfl, List.append_nil]
      show Good _ (update (run {} es).call j _ k)
      unfold update
      split
      · rw [hid]; exact good_step (ih j)
      · exact ih k

/-- **C215, what the clients get.** In every history every client has received ids that were set, in the order in which they were set, and
never the same one twice in a row. -/
theorem C215_in_order (es : List Event) (k : Nat) :
    ((run {} es).call k).received.Sublist (pushed es) ∧ ((run {} es).call k).received.IsChain (· ≠ ·) := by
  have g := good_run es k
  refine ⟨?_, g.distinct⟩
  obtain ⟨a, b, e, hl, hs⟩ := g.split
  rw [e]
  refine List.Sublist.trans ?_ (List.sublist_append_left a b)
  revert hs
  cases ((run {} es).call k).pc with
  | writing m => exact fun hs => (List.sublist_append_left _ _).trans hs.2
  | waiting => exact id
  | check => exact id
  | ended => exact id

/-- **C215, nothing is missed.** Before the shutdown: if the call of a connected client has nothing left to do, the client has received the
current id last. -/
theorem C215_current (es : List Event) (k : Nat) (hr : (run {} es).running = true) (hc : ((run {} es).call k).connected = true)
    (hi : Idle (run {} es) k) (he : ((run {} es).call k).pc ≠ .ended) :
    ((run {} es).call k).received.getLast? = (pushed es).getLast? := by
  have g := (good_run es k).last hc
  have hid := id_run {} es
  rw [show (({} : State).id) = none from rfl, Option.or_none] at hid
  unfold Idle at hi
  rw [hr] at hi
  revert g hi he
  generalize (run {} es).call k = h
  rw [hid]
  obtain ⟨pc, loc, conn, rec⟩ := h
  intro hi he g
  cases pc with
  | waiting =>
    dsimp only at g ⊢
    rw [g]
    by_contra hne
    unfold stepHandler at hi
    dsimp only at hi
    rw [if_pos (Or.inr hne)] at hi
    cases hl : (pushed es).getLast? with
    | none => rw [hl] at hi; simp at hi
    | some m => rw [hl] at hi; simp at hi
  | writing m => simp [stepHandler] at hi
  | check => simp [stepHandler] at hi
  | ended => exact absurd rfl he

theorem running_run (s : State) (es : List Event) (h : .shutdown ∉ es) : (run s es).running = s.running := by
  induction es generalizing s with
  | nil => rfl
  | cons e es ih =>
    rw [run_cons, ih _ (fun h' => h (List.mem_cons_of_mem _ h'))]
    cases e with
    | shutdown => exact absurd List.mem_cons_self h
    | push m => rfl
    | connect => rfl
    | disconnect k => rfl
    | step k => rfl

theorem not_ended_step (i : Option Mid) (h : Handler) (hk : h.pc ≠ .ended) : (stepHandler i true h).pc ≠ .ended := by
  obtain ⟨pc, loc, conn, rec⟩ := h
  cases pc with
  | waiting =>
    unfold stepHandler
    dsimp only
    split
    · cases i <;> simp
    · simp
  | writing m => simp [stepHandler]
  | check => simp [stepHandler]
  | ended => exact absurd rfl hk

theorem not_ended_run (s : State) (es : List Event) (h : .shutdown ∉ es) (hr : s.running = true) (k : Nat) (hk : (s.call k).pc ≠ .ended) :
    ((run s es).call k).pc ≠ .ended := by
  induction es generalizing s with
  | nil => exact hk
  | cons e es ih =>
    rw [run_cons]
    have h' : Event.shutdown ∉ es := fun h' => h (List.mem_cons_of_mem _ h')
    cases e with
    | shutdown => exact absurd List.mem_cons_self h
    | push m => exact ih _ h' hr hk
    | connect =>
      refine ih _ h' hr ?_
      simp only [apply, update]
      split
      · simp
      · exact hk
    | disconnect j =>
      refine ih _ h' hr ?_
      simp only [apply, update]
      split
      · rename_i e; rw [← e]; exact hk
      · exact hk
    | step j =>
      refine ih _ h' hr ?_
      simp only [apply, update]
      split
      · rename_i e
        rw [← e, hr]
        exact not_ended_step s.id (s.call k) hk
      · exact hk

/-- **C215** is false of the code: as long as the server runs, no call ever ends, however often its client has gone: every connection that
was ever made keeps a thread. -/
theorem C215_gone_clients_violated (es : List Event) (h : .shutdown ∉ es) (k : Nat) (_hk : k < connects es) :
    ((run {} es).call k).pc ≠ .ended :=
  not_ended_run {} es h rfl k (by simp)

/-- How many steps a call still has after the shutdown. -/
def left (h : Handler) : Nat :=
  match h.pc with
  | .writing _ => 2
  | .check => 1
  | .waiting => 1
  | .ended => 0

theorem left_run (s : State) (es : List Event) (hr : s.running = false) (k : Nat) (hc : k < s.next) :
    left ((run s es).call k) ≤ left (s.call k) - es.count (.step k) := by
  induction es generalizing s with
  | nil => simp [run]
  | cons e es ih =>
    rw [run_cons, List.count_cons]
    cases e with
    | push m => exact (ih (apply s (.push m)) hr hc).trans (by simp [apply])
    | shutdown => exact (ih (apply s .shutdown) rfl hc).trans (by simp [apply])
    | connect =>
      refine (ih (apply s .connect) hr (Nat.lt_succ_of_lt hc)).trans ?_
      simp only [apply, update]
      rw [if_neg (by omega)]
      simp
    | disconnect j =>
      refine (ih (apply s (.disconnect j)) hr hc).trans ?_
      simp only [apply, update]
      split
      · rename_i e; rw [← e]; simp [left]
      · simp
    | step j =>
      refine (ih (apply s (.step j)) hr hc).trans ?_
      simp only [apply, update]
      split
      · rename_i e
        rw [← e, hr]
        have : left (stepHandler s.id false (s.call k)) ≤ left (s.call k) - 1 := by
          generalize s.call k = h
          obtain ⟨pc, loc, conn, rec⟩ := h
          cases pc <;> simp [stepHandler, left]
        simp only [beq_self_eq_true, if_true]
        omega
      · rename_i e
        have : (Event.step j == Event.step k) = false := by simp; exact fun h => e h.symm
        rw [this]
        simp

/-- **C215, the shutdown.** After `Shutdown` every call ends as soon as its thread has run twice, whatever else happens, also if its client
has gone: the server can be waited for. -/
theorem C215_shutdown_partial (es es' : List Event) (k : Nat) (hk : k < connects es) (h2 : 2 ≤ es'.count (.step k)) :
    ((run {} (es ++ .shutdown :: es')).call k).pc = .ended := by
  rw [run_append, run_cons]
  have hn := next_run {} es
  have := left_run (apply (run {} es) .shutdown) es' rfl k (by simp only [apply]; rw [hn]; simpa using hk)
  have hle : left ((apply (run {} es) .shutdown).call k) ≤ 2 := by
    unfold left
    split <;> omega
  have h0 : left ((run (apply (run {} es) .shutdown) es').call k) = 0 := by omega
  revert h0
  unfold left
  split <;> intro h0 <;> first | omega | assumption

/-- How many steps a call has until it waits with the current id. -/
def lag (id : Option Mid) (h : Handler) : Nat :=
  match h.pc with
  | .writing _ => if h.loc = id then 2 else 5
  | .check => if h.loc = id then 1 else 4
  | .waiting => if h.loc = id then 0 else 3
  | .ended => 0

theorem lag_step (i : Mid) (h : Handler) : lag (some i) (stepHandler (some i) true h) ≤ lag (some i) h - 1 := by
  obtain ⟨pc, loc, conn, rec⟩ := h
  cases pc <;> by_cases hl : loc = some i <;> simp [stepHandler, lag, hl]

theorem lag_run (i : Mid) (s : State) (es : List Event) (hr : s.running = true) (hid : s.id = some i) (k : Nat) (hc : k < s.next)
    (h1 : ∀ m, .push m ∉ es) (h2 : .shutdown ∉ es) :
    lag (some i) ((run s es).call k) ≤ lag (some i) (s.call k) - es.count (.step k) := by
  induction es generalizing s with
  | nil => simp [run]
  | cons e es ih =>
    have h1' : ∀ m, Event.push m ∉ es := fun m h => h1 m (List.mem_cons_of_mem _ h)
    have h2' : Event.shutdown ∉ es := fun h => h2 (List.mem_cons_of_mem _ h)
    rw [run_cons, List.count_cons]
    cases e with
    | push m => exact absurd List.mem_cons_self (h1 m)
    | shutdown => exact absurd List.mem_cons_self h2
    | connect =>
      refine (ih (apply s .connect) hr hid (Nat.lt_succ_of_lt hc) h1' h2').trans ?_
      simp only [apply, update]
      rw [if_neg (by omega)]
      simp
    | disconnect j =>
      refine (ih (apply s (.disconnect j)) hr hid hc h1' h2').trans ?_
      simp only [apply, update]
      split
      · rename_i e; rw [← e]; simp [lag]
      · simp
    | step j =>
      refine (ih (apply s (.step j)) hr hid hc h1' h2').trans ?_
      simp only [apply, update]
      split
      · rename_i e
        rw [← e, hr, hid]
        have := lag_step i (s.call k)
        simp only [beq_self_eq_true, if_true]
        omega
      · rename_i e
        have : (Event.step j == Event.step k) = false := by simp; exact fun h => e h.symm
        rw [this]
        simp

/-- **C215, every client gets the current id.** Once no more ids are set and while the server runs, a client that stays connected has received
the current id last as soon as the thread of its call has run five times, whatever the other clients do. -/
theorem C215_delivered (es es' : List Event) (m : Mid) (k : Nat) (hk : k < connects es) (hs : .shutdown ∉ es ++ .push m :: es')
    (hp : ∀ m, .push m ∉ es') (hc : ((run {} (es ++ .push m :: es')).call k).connected = true) (h5 : 5 ≤ es'.count (.step k)) :
    ((run {} (es ++ .push m :: es')).call k).received.getLast? = some m := by
  have hr := running_run {} _ hs
  have he := not_ended_run {} _ hs rfl k (by simp)
  have hn := next_run {} es
  have hpush : (pushed (es ++ .push m :: es')).getLast? = some m := by
    have : pushed es' = [] := by
      unfold pushed
      rw [List.filterMap_eq_nil_iff]
      intro e he
      cases e with
      | push x => exact absurd he (hp x)
      | _ => rfl
    rw [show es ++ .push m :: es' = es ++ ([.push m] ++ es') from rfl]
    have h3 : pushed (es ++ ([.push m] ++ es')) = pushed es ++ ([m] ++ pushed es') := by
      unfold pushed; rw [List.filterMap_append, List.filterMap_append]; rfl
    rw [h3, this]
    simp
  have hid := id_run {} (es ++ .push m :: es')
  rw [hpush] at hid
  rw [← hpush]
  refine C215_current _ k hr hc ?_ he
  unfold Idle
  rw [hid, hr]
  have hl := lag_run m (apply (run {} es) (.push m)) es' (by
      refine running_run {} es fun h => hs ?_
      exact List.mem_append_left _ h) rfl k (by
      show k < (run {} es).next
      rw [hn]; simpa using hk) hp (fun h => hs (List.mem_append_right _ (List.mem_cons_of_mem _ h)))
  rw [← run_cons, ← run_append] at hl
  have hle : ∀ h, lag (some m) h ≤ 5 := by
    intro h
    unfold lag
    split <;> (try split) <;> omega
  have h0 : lag (some m) ((run {} (es ++ .push m :: es')).call k) = 0 := by
    have := hle ((apply (run {} es) (.push m)).call k)
    omega
  revert h0 he
  generalize (run {} (es ++ .push m :: es')).call k = h
  obtain ⟨pc, loc, conn, rec⟩ := h
  intro he h0
  cases pc <;> by_cases hl : loc = some m <;> simp_all [stepHandler, lag]

/-- Two clients; the first gets two of three ids and goes away; the second gets the last. -/
example :
    let s := run {} [.connect, .push 1, .step 0, .step 0, .step 0, .push 2, .push 3, .step 0, .step 0, .step 0, .disconnect 0, .connect,
      .step 1, .step 1, .step 1]
    (s.call 0).received = [1, 3] ∧ (s.call 1).received = [3] ∧ Idle s 0 ∧ Idle s 1 ∧ (s.call 0).pc = .waiting ∧ s.running = true := by
  unfold Idle
  decide +kernel

/-- A client that has gone: its call writes the next id all the same, and waits again. -/
example :
    let s := run {} [.connect, .push 1, .disconnect 0, .step 0, .step 0, .step 0, .push 2, .step 0, .step 0, .step 0]
    (s.call 0).received = [] ∧ (s.call 0).pc = .waiting ∧ Idle s 0 := by
  unfold Idle
  decide +kernel

example : ((run {} ([.connect, .push 1, .step 0] ++ .shutdown :: [.step 0, .step 0])).call 0).pc = .ended := by decide +kernel

end Verif.ManifestStreams
