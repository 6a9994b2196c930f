import Verif.Stream.Sessions

/-!
# The streaming service (C61, C63): cdc_stream/session_management_server.cc,
cdc_stream/background_service_impl.cc, on top of Stream/Sessions.lean

The service process answers the calls `StartSession`, `StopSession` and `Exit`.  Simplified: the
thread that `Exit` starts is run to its end within the call.
-/

namespace Verif.Sessions

open Verif.Text.Filter (Str star)

/-! ## C61, the part that holds -/

/-- A new session can be started whenever neither its directory nor the directory the instance is
streamed to from at the moment has failed or been shut down, and everything outside works. -/
theorem C61_start_succeeds_partial {s : State} (h : Reach s) (env : Env) (id : Str) (k : Nat)
    (hgood : ∀ m ∈ s, m.key = k ∨ id ∈ m.ids → m.err = false ∧ m.dead = false)
    (hv : env.valid = true) (hs : env.stop id = true) (hst : env.start = .ok) (ha : env.ack = true)
    (hin : env.init = true) : (startSession env id k s).2 = .ok := by
  have hi := h.inv
  obtain ⟨h1, h2, h3, h4⟩ := stopInternal_spec env id s hi
  have hne : (stopInternal env id s).2 ≠ .error := by
    intro he
    obtain ⟨m, hm, hme, hmi⟩ := (h4 he).2.2.2 hs
    rw [(hgood m hm (.inr hmi)).1] at hme
    cases hme
  -- whoever has key `k` after the stop had it before, with the same flags
  have hkeep : ∀ x ∈ (stopInternal env id s).1, x.key = k →
      x.err = false ∧ x.dead = false ∧ id ∉ x.ids := by
    intro x hx hk
    have hnot : id ∉ x.ids := by
      intro hmem
      cases hst' : (stopInternal env id s).2 with
      | ok => exact (h2 hst').2.2 k ⟨x, hx, hk, hmem⟩
      | notFound =>
        obtain ⟨e, hn⟩ := h3 hst'
        exact hn k ⟨x, e ▸ hx, hk, hmem⟩
      | error => exact hne hst'
      | crash => exact stopInternal_nocrash env id s hst'
    have : ∀ (l : State), (∀ m ∈ l, m.key = k ∨ id ∈ m.ids → m.err = false ∧ m.dead = false) →
        ∀ x ∈ (stopInternal env id l).1, x.key = k → x.err = false ∧ x.dead = false := by
      intro l
      induction l with
      | nil => intro _ x hx; cases hx
      | cons m r ih =>
        intro hg x hx hk
        have hr : ∀ y ∈ r, y.key = k ∨ id ∈ y.ids → y.err = false ∧ y.dead = false :=
          fun y hy => hg y (List.mem_cons_of_mem _ hy)
        simp only [stopInternal] at hx
        by_cases hm : id ∈ m.ids
        · obtain ⟨e1, e2⟩ := hg m (List.mem_cons_self ..) (.inr hm)
          simp only [hm, hs, if_true, e1, Bool.false_eq_true, if_false] at hx
          split at hx
          · exact hr x hx (.inl hk)
          · rcases List.mem_cons.mp hx with rfl | hx
            · exact ⟨e1, e2⟩
            · exact hr x hx (.inl hk)
        · rw [if_neg hm] at hx
          rcases List.mem_cons.mp hx with rfl | hx
          · exact hg x (List.mem_cons_self ..) (.inl hk)
          · exact ih hr x hx hk
    obtain ⟨a, b⟩ := this s hgood x hx hk
    exact ⟨a, b, hnot⟩
  have hfresh : (let (s1, st) := stopInternal env id s
      if st = .error then (s1, .error)
      else
        match get s1 k with
        | some m => let (m', st) := m.start env id; (put s1 m', st)
        | none =>
          if env.init then let (m', st) := MS.start env ⟨k, [], false, false⟩ id; (m' :: s1, st)
          else (s1, .error) : State × Status).2 = .ok := by
    simp only [if_neg hne]
    cases hg : get (stopInternal env id s).1 k with
    | none => simp [hin, MS.start, hst, ha]
    | some m =>
      obtain ⟨a, b, c⟩ := hkeep m (List.mem_of_find?_eq_some hg) (get_key hg)
      simp [MS.start, a, b, c, hst, ha]
  unfold startSession
  simp only [hv, Bool.not_true, Bool.false_eq_true, if_false]
  cases hg : get s k with
  | none => exact hfresh
  | some m =>
    simp only
    by_cases hmem : id ∈ m.ids
    · rw [if_pos hmem]
      split
      · rfl
      · obtain ⟨a, b⟩ := hgood m (List.mem_of_find?_eq_some hg) (.inl (get_key hg))
        have a' : (m.remove id).err = false := a
        have b' : (m.remove id).dead = false := b
        have c' : id ∉ (m.remove id).ids := fun h => ((remove_ids m id id).mp h).2 rfl
        simp [MS.start, a', b', c', hst, ha]
    · rw [if_neg hmem]
      exact hfresh

/-! ## The service -/

/-- The process: the manager's state, whether `exit_thread_` exists
(background_service_impl.h:58), and whether the gRPC server has been shut down, which ends the
process. -/
structure Service where
  mgr : State
  exitRequested : Bool
  down : Bool

/-- `BackgroundServiceImpl::Exit` (background_service_impl.cc:37-48) always answers OK and runs
`SessionManagementServer::Shutdown` (session_management_server.cc:67-73) the first time only.
Not modelled: that function lacks a return statement on success. -/
def exitCall (env : Env) (v : Service) : Service × Status :=
  if v.exitRequested then (v, .ok)
  else
    let (s, st) := shutdown env v.mgr
    ({ mgr := s, exitRequested := true, down := decide (st = .ok) }, .ok)

inductive Call
  | start (id : Str) (k : Nat)
  | stop (filter : Str)
  | exit

/-- A call answered by the service. -/
def call (env : Env) : Call → Service → Service × Status
  | .start id k, v => let (s, st) := startSession env id k v.mgr; ({ v with mgr := s }, st)
  | .stop f, v => let (s, st) := stopSession env f v.mgr; ({ v with mgr := s }, st)
  | .exit, v => exitCall env v

/-- Histories of the service: calls, failures in the background, and the hash maps' order.  After
the server has been shut down there are no calls. -/
inductive Run (v0 : Service) : Service → Prop
  | refl : Run v0 v0
  | call {v u} (env : Env) (c : Call) : Run v0 v → v.down = false → Reorder u v.mgr →
      Run v0 (call env c { v with mgr := u }).1
  | fails {v} (k : Nat) : Run v0 v → Run v0 { v with mgr := runnerFails k v.mgr }

/-- The service after its start. -/
def Service.init : Service := ⟨[], false, false⟩

theorem Run.reach {v : Service} (h : Run .init v) : Reach v.mgr := by
  induction h with
  | refl => exact .init
  | @call v u env c _ _ r ih =>
    cases c with
    | start id k => exact .step env (.start id k) ih r
    | stop f => exact .step env (.stop f) ih r
    | exit =>
      simp only [Sessions.call, exitCall]
      split
      · -- reordering alone
        have key : Reach (apply env (.runnerFails (u.map (·.key) |>.foldl Nat.max 0 |>.succ)) u).1 :=
          .step env _ ih r
        have e : ∀ x ∈ u, x.key ≤ (u.map (·.key)).foldl Nat.max 0 := by
          have gen : ∀ (l : List Nat) (a : Nat), a ≤ l.foldl Nat.max a ∧ ∀ y ∈ l, y ≤ l.foldl Nat.max a := by
            intro l
            induction l with
            | nil => intro a; exact ⟨Nat.le_refl _, fun y hy => (by cases hy)⟩
            | cons b l ih =>
              intro a
              obtain ⟨h1, h2⟩ := ih (Nat.max a b)
              refine ⟨Nat.le_trans (Nat.le_max_left a b) h1, fun y hy => ?_⟩
              rcases List.mem_cons.mp hy with rfl | hy
              · exact Nat.le_trans (Nat.le_max_right a _) h1
              · exact h2 y hy
          intro x hx
          exact (gen _ 0).2 _ (List.mem_map_of_mem hx)
        have e2 : runnerFails (u.map (·.key) |>.foldl Nat.max 0 |>.succ) u = u := by
          unfold runnerFails
          conv => rhs; rw [← List.map_id u]
          apply List.map_congr_left
          intro x hx
          rw [if_neg, id]
          have := e x hx
          omega
        simpa only [apply, e2] using key
      · exact .step env .shutdown ih r
  | fails k _ ih =>
    exact .step ⟨true, true, fun _ => true, .ok, true, true⟩ (.runnerFails k) ih (.refl _)

/-- **C100.**  If an `Exit` ends the service then nothing is streamed any more. -/
theorem C100_exit_clean {v : Service} (env : Env) (hv : v.exitRequested = false)
    (hd : (call env .exit v).1.down = true) (id : Str) (k : Nat) :
    ¬ Streams (call env .exit v).1.mgr id k := by
  simp only [call, exitCall, hv, Bool.false_eq_true, if_false, decide_eq_true_eq] at hd ⊢
  exact (C50_shutdown env).1 hd id k

theorem shutIds_nil (env : Env) (l : List Str) : (∀ id ∈ l, env.stop id = true) → shutIds env l = [] := by
  induction l with
  | nil => exact fun _ => rfl
  | cons x l ih =>
    intro h
    rw [shutIds, if_pos (h x (List.mem_cons_self ..))]
    exact ih fun id hid => h id (List.mem_cons_of_mem _ hid)

theorem shutLoop_ok (env : Env) (s : State) (hs : ∀ id k, Streams s id k → env.stop id = true)
    (he : ∀ m ∈ s, m.err = false) : (shutLoop env s).2 = true := by
  induction s with
  | nil => rfl
  | cons m r ih =>
    simp only [shutLoop]
    rw [if_pos]
    · exact ih (fun id k h => hs id k (streams_cons.mpr (.inr h)))
        fun x hx => he x (List.mem_cons_of_mem _ hx)
    · exact ⟨shutIds_nil env m.ids fun id hid => hs id m.key ⟨m, List.mem_cons_self .., rfl, hid⟩,
        he m (List.mem_cons_self ..)⟩

/-- **C50.**  A shutdown reports success exactly if every session could be stopped and no directory
had failed. -/
theorem C50_shutdown_iff {s : State} (env : Env) : (shutdown env s).2 = .ok ↔
    (∀ id k, Streams s id k → env.stop id = true) ∧ ∀ m ∈ s, m.err = false := by
  have hok : (shutdown env s).2 = .ok ↔ (shutLoop env s).2 = true := by
    simp only [shutdown]
    split
    · simp_all
    · simp_all
  rw [hok]
  refine ⟨fun h => ?_, fun h => shutLoop_ok env s h.1 h.2⟩
  induction s with
  | nil => exact ⟨fun id k h => absurd h not_streams_nil, fun m hm => (by cases hm)⟩
  | cons m r ih =>
    simp only [shutLoop] at h
    have hids : ∀ l, shutIds env l = [] → ∀ id ∈ l, env.stop id = true := by
      intro l
      induction l with
      | nil => intro _ id hid; cases hid
      | cons x l ih =>
        intro h id hid
        cases hx : env.stop x <;> simp only [shutIds, hx, Bool.false_eq_true, if_false, if_true] at h
        · cases h
        · rcases List.mem_cons.mp hid with rfl | hid
          · exact hx
          · exact ih h id hid
    by_cases hc : shutIds env m.ids = [] ∧ m.err = false
    · rw [if_pos hc] at h
      obtain ⟨h1, h2⟩ := ih (by simp only [shutdown]; simp_all) h
      refine ⟨fun id k hs => ?_, fun x hx => ?_⟩
      · rcases streams_cons.mp hs with ⟨_, hs⟩ | hs
        · exact hids _ hc.1 id hs
        · exact h1 id k hs
      · rcases List.mem_cons.mp hx with rfl | hx
        · exact hc.2
        · exact h2 x hx
    · rw [if_neg hc] at h
      cases h

/-- **C63**, the part that holds: the first `Exit` ends the service if every session can be stopped
and no directory has failed. -/
theorem C63_first_exit_partial {v : Service} (env : Env) (hv : v.exitRequested = false)
    (hs : ∀ id k, Streams v.mgr id k → env.stop id = true) (he : ∀ m ∈ v.mgr, m.err = false) :
    (call env .exit v).1.down = true := by
  simp [call, exitCall, hv, shutdown, shutLoop_ok env v.mgr hs he]

/-- **C63 fails**: if the first `Exit` does not end the service, none does: whatever happens
afterwards, and although every further `Exit` is answered with OK. -/
theorem C63_exit_violated {v v' : Service} (hx : v.exitRequested = true) (hd : v.down = false)
    (h : Run v v') : v'.down = false ∧ ∀ env, (call env .exit v').1 = v' ∧ (call env .exit v').2 = .ok := by
  have key : v'.exitRequested = true ∧ v'.down = false := by
    induction h with
    | refl => exact ⟨hx, hd⟩
    | call env c _ _ _ ih =>
      cases c with
      | start id k => exact ih
      | stop f => exact ih
      | exit =>
        simp only [Sessions.call, exitCall, ih.1, if_true]
        exact ⟨trivial, ih.2⟩
    | fails _ _ ih => exact ih
  refine ⟨key.2, fun env => ?_⟩
  simp [call, exitCall, key.1]

/-! ### Crashes -/

theorem start_crash {env : Env} {m : MS} {id : Str} (hc : env.start ≠ .crash)
    (h : (m.start env id).2 = .crash) : m.dead = true ∧ m.err = false := by
  unfold MS.start at h
  split at h
  · cases h
  · cases he : m.err <;> simp only [he, if_true, Bool.false_eq_true, if_false] at h
    · cases hs : env.start <;> simp only [hs] at h
      · cases hd : m.dead <;> simp only [hd, if_true, Bool.false_eq_true, if_false] at h
        · split at h <;> cases h
        · exact ⟨rfl, rfl⟩
      · cases h
      · exact absurd hs hc
    · cases h

/-- Alive: a runner that has been shut down has failed. -/
def Alive (s : State) : Prop := ∀ m ∈ s, m.dead = true → m.err = true

theorem stopInternal_alive (env : Env) (id : Str) (s : State) (h : Alive s) :
    Alive (stopInternal env id s).1 := by
  induction s with
  | nil => exact h
  | cons m r ih =>
    have hr : Alive r := fun x hx => h x (List.mem_cons_of_mem _ hx)
    have hm := h m (List.mem_cons_self ..)
    simp only [stopInternal]
    split
    · split
      · split
        · split
          · rename_i he
            intro x hx hd
            rcases List.mem_cons.mp hx with rfl | hx
            · exact he
            · exact hr x hx hd
          · exact hr
        · intro x hx hd
          rcases List.mem_cons.mp hx with rfl | hx
          · exact hm hd
          · exact hr x hx hd
      · exact h
    · intro x hx hd
      rcases List.mem_cons.mp hx with rfl | hx
      · exact hm hd
      · exact ih hr x hx hd

theorem start_flags (env : Env) (m : MS) (id : Str) :
    (m.start env id).1.err = m.err ∧ (m.start env id).1.dead = m.dead := by
  rcases start_cases env m id with ⟨st, _, h⟩ | ⟨h, _⟩ <;> rw [h] <;> exact ⟨rfl, rfl⟩

theorem put_alive {s : State} {m : MS} (h : Alive s) (hm : m.dead = true → m.err = true) :
    Alive (put s m) := by
  intro x hx hd
  obtain ⟨y, hy, rfl⟩ := List.mem_map.mp hx
  revert hd
  split
  · exact hm
  · exact h y hy

theorem startSession_alive (env : Env) (id : Str) (k : Nat) (s : State) (h : Alive s) :
    Alive (startSession env id k s).1 ∧
      (env.start ≠ .crash → (startSession env id k s).2 ≠ .crash) := by
  have h1 := stopInternal_alive env id s h
  have hget : ∀ {t : State} {m : MS}, Alive t → get t k = some m → m.dead = true → m.err = true :=
    fun ht hg => ht _ (List.mem_of_find?_eq_some hg)
  have hms : ∀ m : MS, (m.dead = true → m.err = true) →
      (env.start ≠ .crash → (m.start env id).2 ≠ .crash) ∧
      ((m.start env id).1.dead = true → (m.start env id).1.err = true) := by
    intro m hm
    obtain ⟨e1, e2⟩ := start_flags env m id
    refine ⟨fun hs hc => ?_, by rw [e1, e2]; exact hm⟩
    obtain ⟨a, b⟩ := start_crash hs hc
    rw [hm a] at b
    cases b
  have hfresh : Alive (let (s1, st) := stopInternal env id s
      if st = .error then (s1, .error)
      else
        match get s1 k with
        | some m => let (m', st) := m.start env id; (put s1 m', st)
        | none =>
          if env.init then let (m', st) := MS.start env ⟨k, [], false, false⟩ id; (m' :: s1, st)
          else (s1, .error) : State × Status).1 ∧ (env.start ≠ .crash → (let (s1, st) := stopInternal env id s
      if st = .error then (s1, .error)
      else
        match get s1 k with
        | some m => let (m', st) := m.start env id; (put s1 m', st)
        | none =>
          if env.init then let (m', st) := MS.start env ⟨k, [], false, false⟩ id; (m' :: s1, st)
          else (s1, .error) : State × Status).2 ≠ .crash) := by
    generalize stopInternal env id s = r at *
    obtain ⟨s1, st⟩ := r
    simp only at *
    by_cases he : st = .error
    · rw [if_pos he]
      exact ⟨h1, fun _ => by simp⟩
    · rw [if_neg he]
      cases hg : get s1 k with
      | none =>
        simp only
        split
        · obtain ⟨a, b⟩ := hms ⟨k, [], false, false⟩ (fun h => (by cases h))
          refine ⟨fun x hx hd => ?_, a⟩
          rcases List.mem_cons.mp hx with rfl | hx
          · exact b hd
          · exact h1 x hx hd
        · exact ⟨h1, fun _ => by simp⟩
      | some m =>
        obtain ⟨a, b⟩ := hms m (hget h1 hg)
        exact ⟨put_alive h1 b, a⟩
  unfold startSession
  cases env.valid
  · exact ⟨h1, fun _ => by simp⟩
  · simp only [Bool.not_true, Bool.false_eq_true, if_false]
    cases hg : get s k with
    | none => exact hfresh
    | some m =>
      simp only
      split
      · split
        · exact ⟨h, fun _ => by simp⟩
        · split
          · obtain ⟨a, b⟩ := hms (m.remove id) (hget (m := m) h hg)
            exact ⟨put_alive h b, a⟩
          · exact ⟨h, fun _ => by simp⟩
      · exact hfresh

theorem stopAll_alive (env : Env) (l : List Str) (s : State) (h : Alive s) :
    Alive (stopAll env l s).1 := by
  induction l generalizing s with
  | nil => exact h
  | cons id l ih =>
    simp only [stopAll]
    split
    · exact ih _ (stopInternal_alive env id s h)
    · exact stopInternal_alive env id s h

theorem stopAll_nocrash (env : Env) (l : List Str) (s : State) : (stopAll env l s).2 ≠ .crash := by
  induction l generalizing s with
  | nil => simp [stopAll]
  | cons id l ih =>
    simp only [stopAll]
    split
    · exact ih _
    · exact stopInternal_nocrash env id s

theorem stopSession_nocrash (env : Env) (f : Str) (s : State) : (stopSession env f s).2 ≠ .crash := by
  unfold stopSession
  simp only
  split
  · simp
  · exact stopAll_nocrash env _ s

theorem Reorder.alive {s t : State} (r : Reorder t s) (h : Alive s) : Alive t := by
  induction r with
  | refl => exact h
  | perm _ p ih => exact fun m hm => ih h m (p.mem_iff.mp hm)
  | @ids s a b m l _ p ih =>
    intro x hx hd
    rcases List.mem_append.mp hx with hx | hx
    · exact ih h x (List.mem_append_left _ hx) hd
    · rcases List.mem_cons.mp hx with rfl | hx
      · exact ih h m (by simp) hd
      · exact ih h x (by simp [hx]) hd

/-- **C100.**  As long as no `Exit` has been requested, no call takes the service down, whatever
fails, unless the start of the session itself does (C62). -/
theorem C100_no_crash_before_exit {v : Service} (h : Run .init v) (hx : v.exitRequested = false)
    (env : Env) (hc : env.start ≠ .crash) (c : Call) : (call env c v).2 ≠ .crash := by
  have key : v.exitRequested = false → Alive v.mgr := by
    clear hx c hc
    clear env
    induction h with
    | refl => exact fun _ m hm => (by cases hm)
    | @call v u env c _ _ r ih =>
      intro hx
      cases c with
      | start id k => exact (startSession_alive env id k _ (r.alive (ih hx))).1
      | stop f =>
        have hA := r.alive (ih hx)
        simp only [Sessions.call, stopSession]
        split
        · exact hA
        · exact stopAll_alive env _ _ hA
      | exit =>
        simp only [Sessions.call, exitCall] at hx
        split at hx
        · rename_i h1
          simp only at hx h1
          rw [h1] at hx
          cases hx
        · cases hx
    | @fails v k _ ih =>
      intro hx m hm hd
      obtain ⟨y, hy, rfl⟩ := List.mem_map.mp hm
      revert hd
      split
      · exact fun _ => rfl
      · exact ih hx y hy
  cases c with
  | start id k => exact (startSession_alive env id k _ (key hx)).2 hc
  | stop f => exact stopSession_nocrash env f _
  | exit =>
    simp only [call, exitCall]
    split <;> simp

/-! ## Examples -/

/-- Everything works. -/
def fine : Env := ⟨true, true, fun _ => true, .ok, true, true⟩

/-- The session of instance "b" cannot be stopped. -/
def stuck : Env := { fine with stop := fun id => decide (id ≠ [98]) }

/-- Instances "a" and "b" are streamed to from two directories. -/
def two : Service := ⟨[⟨2, [[98]], false, false⟩, ⟨1, [[97]], false, false⟩], false, false⟩

theorem two_reach : Run .init two := by
  have h1 : Run .init (call fine (.start [97] 1) .init).1 :=
    .call (u := []) fine (.start [97] 1) .refl rfl (.refl _)
  exact .call (u := [⟨1, [[97]], false, false⟩]) fine (.start [98] 2) h1 rfl (.refl _)

/-- The same with the map iterated in the other order. -/
def two' : State := [⟨1, [[97]], false, false⟩, ⟨2, [[98]], false, false⟩]

theorem two_reorder : Reorder two' two.mgr := .perm (.refl _) (List.Perm.swap ..)

/-- The state after an `Exit` that could not stop "b". -/
def halfDown : Service := ⟨[⟨1, [], false, true⟩, ⟨2, [[98]], false, false⟩], true, false⟩

theorem halfDown_reach : Run .init halfDown := by
  have h : Run .init (call stuck .exit { two with mgr := two' }).1 :=
    .call (u := two') stuck .exit two_reach rfl two_reorder
  exact h

/-- **C63 fails**: a reachable state, after an `Exit` answered with OK, in which the service still
streams to "b", cannot be told to exit, and in which the next start of a session from the directory
of "a" takes the service down, with all its sessions, although everything outside works. -/
theorem C63_crash_after_exit_violated : ∃ v, Run .init v ∧ v.exitRequested = true ∧ v.down = false ∧
    Streams v.mgr [98] 2 ∧ (call fine (.start [97] 1) v).2 = .crash :=
  ⟨halfDown, halfDown_reach, rfl, rfl, ⟨⟨2, [[98]], false, false⟩, by simp [halfDown], rfl, by simp⟩,
    by decide⟩

/-- The hypotheses of C63_exit_violated and the clean case are met. -/
example : halfDown.exitRequested = true ∧ halfDown.down = false ∧ (call fine .exit two).1.down = true := by
  decide

/-- A directory that fails while it is streamed from. -/
theorem failed_reach : Run .init { two with mgr := runnerFails 1 two.mgr } := .fails 1 two_reach

example : Failed (runnerFails 1 two.mgr) 1 ∧ ¬ Streams (runnerFails 1 two.mgr) [99] 1 := by
  refine ⟨⟨⟨1, [[97]], true, false⟩, by simp [runnerFails, two], rfl, rfl⟩, ?_⟩
  rw [runnerFails_streams]
  rintro ⟨m, hm, h1, h2⟩
  simp only [two, List.mem_cons, List.not_mem_nil, or_false] at hm
  rcases hm with rfl | rfl <;> simp at h2

/-- C50: "a" moves from directory 1 to directory 2 and directory 1 is given up. -/
example : startSession fine [97] 2 two.mgr = ([⟨2, [[98], [97]], false, false⟩], .ok) := by decide

/-- C50: stopping with a wildcard, with a plain name and with a name nobody has. -/
example : (stopSession fine [42] two.mgr) = ([], .ok) ∧
    stopSession fine [97] two.mgr = ([⟨2, [[98]], false, false⟩], .ok) ∧
    (stopSession fine [99] two.mgr).2 = .notFound ∧
    (stopSession stuck [42] two.mgr).2 = .error := by decide

/-- C61: a start that fails leaves a `MultiSession` behind that streams to nobody. -/
example : startSession { fine with start := .error } [97] 1 [] = ([⟨1, [], false, false⟩], .error) := by
  decide

end Verif.Sessions
