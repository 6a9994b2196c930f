import Verif.Text.Filter

/-!
# Streaming sessions (C50, C61): cdc_stream/session_manager.cc, cdc_stream/multi_session.cc

A `MultiSession` streams one source directory to any number of instances; the `SessionManager` keeps
one `MultiSession` per directory.  All calls of the manager run under its mutex, so a history is a
sequence of calls.  Everything the calls depend on outside of this code (processes, the file system,
the remote side) is an arbitrary `Env` per call.

Simplified: metrics, logging, the ports; a `MultiSession`'s heartbeat thread; the contents streamed
(other files of this project).  Directories are identified by the key `MultiSession::GetCacheDir`
gives them (Text/CachePath.lean, C60).
-/

namespace Verif.Sessions

open Verif.Text.Filter (Str Matches filterMatch star)

/-- A `MultiSession` (cdc_stream/multi_session.h:135-273): the key it is stored under, the instances
in its `sessions_` map, whether the `status_` of its runner is an error
(multi_session.cc:366-370 `SetStatus`), and whether the runner has been shut down
(multi_session.cc:125-143). -/
structure MS where
  key : Nat
  ids : List Str
  err : Bool
  /-- `MultiSessionRunner::Shutdown` has run: the runner's `server_` is null -/
  dead : Bool
  deriving DecidableEq

/-- `SessionManager::sessions_` (session_manager.h:97-100), in the order in which the map is
iterated. -/
abbrev State := List MS

inductive Status
  | ok
  | notFound
  | error
  /-- the process ends: a null pointer is dereferenced -/
  | crash
  deriving DecidableEq

/-- What `Session::Start` (session.cc:71-84) and, if it fails, the destructor of the session
(session.cc:63-69) can do; see Stream/Fuse.lean (C62). -/
inductive Started
  | ok
  | error
  | crash
  deriving DecidableEq

/-- The outcomes of what a call depends on. -/
structure Env where
  /-- `ManifestUpdater::IsValidDir(src_dir)` -/
  valid : Bool
  /-- `Session::IsHealthy` -/
  healthy : Bool
  /-- `Session::Stop` for an instance succeeds -/
  stop : Str → Bool
  /-- `Session::Start` -/
  start : Started
  /-- `WaitForManifestAck` succeeds -/
  ack : Bool
  /-- `MultiSession::Initialize` succeeds -/
  init : Bool

/-- `MultiSession::StopSession` (multi_session.cc:525-539) removes the instance. -/
def MS.remove (m : MS) (id : Str) : MS := { m with ids := m.ids.filter (· ≠ id) }

/-- `MultiSession::StartSession` (multi_session.cc:490-523): fails if the instance has a session, if
the runner has failed, if the session cannot be started or the manifest is not acknowledged.
`MultiSessionRunner::WaitForManifestAck` (multi_session.cc:145-164) uses `server_`, which is null
after the runner has been shut down.  Simplified: if the runner was shut down before there was a
manifest, the code waits forever instead; this is a crash here, too. -/
def MS.start (env : Env) (m : MS) (id : Str) : MS × Status :=
  if id ∈ m.ids then (m, .error)
  else if m.err then (m, .error)
  else match env.start with
    | .error => (m, .error)
    | .crash => (m, .crash)
    | .ok =>
      if m.dead then (m, .crash)
      else if env.ack then ({ m with ids := m.ids ++ [id] }, .ok) else (m, .error)

/-- `SessionManager::StopSessionInternal` (session_manager.cc:181-206).  `MultiSession::Shutdown` of
an empty `MultiSession` shuts down the runner and returns its status (multi_session.cc:458-484,
125-143). -/
def stopInternal (env : Env) (id : Str) : State → State × Status
  | [] => ([], .notFound)
  | m :: r =>
    if id ∈ m.ids then
      if env.stop id then
        if (m.remove id).ids = [] then
          if m.err then ({ m.remove id with dead := true } :: r, .error) else (r, .ok)
        else (m.remove id :: r, .ok)
      else (m :: r, .error)
    else
      let (r', st) := stopInternal env id r
      (m :: r', st)

/-- `GetMultiSession` (session_manager.cc:159-163). -/
def get (s : State) (k : Nat) : Option MS := s.find? (·.key = k)

/-- Replaces the `MultiSession` with the key of `m`. -/
def put (s : State) (m : MS) : State := s.map fun x => if x.key = m.key then m else x

/-- `SessionManager::StartSession` (session_manager.cc:61-137). -/
def startSession (env : Env) (id : Str) (k : Nat) (s : State) : State × Status :=
  if !env.valid then ((stopInternal env id s).1, .error)
  else
    let fresh : Unit → State × Status := fun _ =>
      let (s1, st) := stopInternal env id s
      if st = .error then (s1, .error)
      else
        match get s1 k with
        | some m => let (m', st) := m.start env id; (put s1 m', st)
        | none =>
          if env.init then let (m', st) := MS.start env ⟨k, [], false, false⟩ id; (m' :: s1, st)
          else (s1, .error)
    match get s k with
    | some m =>
      if id ∈ m.ids then
        if env.healthy then (s, .ok)
        else if env.stop id then
          let (m', st) := (m.remove id).start env id
          (put s m', st)
        else (s, .error)
      else fresh ()
    | none => fresh ()

/-- `MultiSession::MatchSessions` (multi_session.cc:546-559): the filter as an include rule, then
everything else excluded. -/
def isMatch (filter id : Str) : Bool := filterMatch [⟨true, filter⟩, ⟨false, [star]⟩] id = some true

/-- The loop of `SessionManager::StopSession` (session_manager.cc:153-155): stops at the first
error. -/
def stopAll (env : Env) : List Str → State → State × Status
  | [], s => (s, .ok)
  | id :: l, s =>
    let (s1, st) := stopInternal env id s
    if st = .ok then stopAll env l s1 else (s1, st)

/-- `SessionManager::StopSession` (session_manager.cc:139-157). -/
def stopSession (env : Env) (filter : Str) (s : State) : State × Status :=
  let l := s.flatMap fun m => m.ids.filter (isMatch filter)
  if l = [] then (s, .notFound) else stopAll env l s

/-- The loop of `MultiSession::Shutdown` (multi_session.cc:468-472) over the instances. -/
def shutIds (env : Env) : List Str → List Str
  | [] => []
  | id :: l => if env.stop id then shutIds env l else id :: l

/-- `SessionManager::Shutdown` (session_manager.cc:48-59): ends at the first `MultiSession` that
fails to shut down; nothing is removed from the map then.  The runners of those before it have been
shut down, and so has its own if all its sessions could be stopped. -/
def shutLoop (env : Env) : State → State × Bool
  | [] => ([], true)
  | m :: r =>
    let m' := { m with ids := shutIds env m.ids, dead := m.dead || (shutIds env m.ids).isEmpty }
    if m'.ids = [] ∧ m.err = false then
      let (r', b) := shutLoop env r
      (m' :: r', b)
    else (m' :: r, false)

def shutdown (env : Env) (s : State) : State × Status :=
  let (s', b) := shutLoop env s
  if b then ([], .ok) else (s', .error)

/-- `MultiSessionRunner::Run` (multi_session.cc:176-210) fails to watch the directory or to build the
first manifest: `SetStatus`. -/
def runnerFails (k : Nat) (s : State) : State := s.map fun m => if m.key = k then { m with err := true } else m

/-- What can happen. -/
inductive Op
  | start (id : Str) (k : Nat)
  | stop (filter : Str)
  | shutdown
  | runnerFails (k : Nat)

def apply (env : Env) : Op → State → State × Status
  | .start id k, s => startSession env id k s
  | .stop f, s => stopSession env f s
  | .shutdown, s => shutdown env s
  | .runnerFails k, s => (runnerFails k s, .ok)

/-- The maps are hash maps: they can be iterated in any order, which may change from call to call. -/
inductive Reorder : State → State → Prop
  | refl (s : State) : Reorder s s
  | perm {s t u : State} : Reorder t s → u.Perm t → Reorder u s
  | ids {s a b : State} {m : MS} {l : List Str} : Reorder (a ++ m :: b) s → l.Perm m.ids →
      Reorder (a ++ { m with ids := l } :: b) s

/-- States after any history of calls, with any outcomes. -/
inductive Reach : State → Prop
  | init : Reach []
  | step {s t} (env : Env) (op : Op) : Reach s → Reorder t s → Reach (apply env op t).1

/-! ## Specification -/

/-- Instance `id` is streamed to from directory `k`. -/
def Streams (s : State) (id : Str) (k : Nat) : Prop := ∃ m ∈ s, m.key = k ∧ id ∈ m.ids

/-! ## Proofs -/

/-- Keys are different, an instance occurs once, and not in two places. -/
structure Inv (s : State) : Prop where
  keys : (s.map (·.key)).Nodup
  ids : (s.flatMap (·.ids)).Nodup

theorem Inv.perm {s t : State} (h : Inv s) (p : t.Perm s) : Inv t :=
  ⟨(p.map _).nodup_iff.mpr h.keys, (p.flatMap_right _).nodup_iff.mpr h.ids⟩

theorem Inv.tail {m : MS} {s : State} (h : Inv (m :: s)) : Inv s := by
  refine ⟨(List.nodup_cons.mp h.keys).2, ?_⟩
  have := h.ids
  rw [List.flatMap_cons] at this
  exact (List.nodup_append.mp this).2.1

theorem Inv.head {m : MS} {s : State} (h : Inv (m :: s)) : ∀ x ∈ s, x.key ≠ m.key := by
  intro x hx e
  have := (List.nodup_cons.mp h.keys).1
  exact this (List.mem_map.mpr ⟨x, hx, e⟩)

theorem Inv.disj {m : MS} {s : State} (h : Inv (m :: s)) {id} (hm : id ∈ m.ids) : ∀ x ∈ s, id ∉ x.ids := by
  intro x hx hi
  have := h.ids
  rw [List.flatMap_cons] at this
  exact (List.nodup_append.mp this).2.2 id hm id (List.mem_flatMap.mpr ⟨x, hx, hi⟩) rfl

theorem streams_cons {m : MS} {s : State} {id k} :
    Streams (m :: s) id k ↔ (m.key = k ∧ id ∈ m.ids) ∨ Streams s id k := by
  simp [Streams]

theorem streams_append {s t : State} {id k} :
    Streams (s ++ t) id k ↔ Streams s id k ∨ Streams t id k := by
  constructor
  · rintro ⟨m, hm, h⟩
    rcases List.mem_append.mp hm with hm | hm
    · exact .inl ⟨m, hm, h⟩
    · exact .inr ⟨m, hm, h⟩
  · rintro (⟨m, hm, h⟩ | ⟨m, hm, h⟩)
    · exact ⟨m, List.mem_append_left _ hm, h⟩
    · exact ⟨m, List.mem_append_right _ hm, h⟩

theorem not_streams_nil {id k} : ¬ Streams [] id k := by
  rintro ⟨m, hm, _⟩; cases hm

theorem streams_perm {s t : State} (p : t.Perm s) (id k) : Streams t id k ↔ Streams s id k := by
  simp only [Streams, p.mem_iff]

theorem mem_flat {s : State} {id} : id ∈ s.flatMap (·.ids) ↔ ∃ k, Streams s id k := by
  simp only [List.mem_flatMap, Streams]
  constructor
  · rintro ⟨m, hm, h⟩; exact ⟨m.key, m, hm, rfl, h⟩
  · rintro ⟨k, m, hm, _, h⟩; exact ⟨m, hm, h⟩

/-- In states that satisfy the invariant an instance is streamed to from one directory. -/
theorem Inv.unique {s : State} (h : Inv s) {id a b} (ha : Streams s id a) (hb : Streams s id b) :
    a = b := by
  induction s with
  | nil => exact absurd ha not_streams_nil
  | cons m s ih =>
    rw [streams_cons] at ha hb
    rcases ha with ⟨rfl, ha⟩ | ha <;> rcases hb with ⟨rfl, hb⟩ | hb
    · rfl
    · obtain ⟨x, hx, _, hi⟩ := hb
      exact absurd hi (h.disj ha x hx)
    · obtain ⟨x, hx, _, hi⟩ := ha
      exact absurd hi (h.disj hb x hx)
    · exact ih h.tail ha hb

theorem remove_ids (m : MS) (id : Str) (x : Str) : x ∈ (m.remove id).ids ↔ x ∈ m.ids ∧ x ≠ id := by
  simp [MS.remove]

/-- Reordering changes nothing that matters. -/
theorem Reorder.keep {s t : State} (r : Reorder t s) :
    (Inv s → Inv t) ∧ (∀ id k, Streams t id k ↔ Streams s id k) ∧
      (∀ k, (∃ m ∈ t, m.key = k ∧ m.err = true) ↔ (∃ m ∈ s, m.key = k ∧ m.err = true)) := by
  induction r with
  | refl => exact ⟨id, fun _ _ => .rfl, fun _ => .rfl⟩
  | perm _ p ih =>
    refine ⟨fun h => (ih.1 h).perm p, fun id k => (streams_perm p id k).trans (ih.2.1 id k), fun k => ?_⟩
    rw [← ih.2.2 k]
    simp only [p.mem_iff]
  | @ids s a b m l _ p ih =>
    refine ⟨fun h => ?_, fun id k => ?_, fun k => ?_⟩
    · have h := ih.1 h
      refine ⟨?_, ?_⟩
      · simpa using h.keys
      · have h := h.ids
        simp only [List.flatMap_append, List.flatMap_cons] at h ⊢
        refine (List.Perm.nodup_iff ?_).mpr h
        exact List.Perm.append_left _ (List.Perm.append_right _ p)
    · rw [← ih.2.1 id k]
      simp only [streams_append, streams_cons, p.mem_iff]
    · rw [← ih.2.2 k]
      constructor
      · rintro ⟨x, hx, h1, h2⟩
        rcases List.mem_append.mp hx with hx | hx
        · exact ⟨x, List.mem_append_left _ hx, h1, h2⟩
        · rcases List.mem_cons.mp hx with rfl | hx
          · exact ⟨m, by simp, h1, h2⟩
          · exact ⟨x, by simp [hx], h1, h2⟩
      · rintro ⟨x, hx, h1, h2⟩
        rcases List.mem_append.mp hx with hx | hx
        · exact ⟨x, List.mem_append_left _ hx, h1, h2⟩
        · rcases List.mem_cons.mp hx with rfl | hx
          · exact ⟨_, List.mem_append_right _ (List.mem_cons_self ..), h1, h2⟩
          · exact ⟨x, by simp [hx], h1, h2⟩

/-- Only removals. -/
def Sub (s' s : State) : Prop :=
  (s'.map (·.key)).Sublist (s.map (·.key)) ∧ (s'.flatMap (·.ids)).Sublist (s.flatMap (·.ids))

theorem Sub.inv {s' s : State} (h : Sub s' s) (hi : Inv s) : Inv s' :=
  ⟨h.1.nodup hi.keys, h.2.nodup hi.ids⟩

theorem Sub.rfl' (s : State) : Sub s s := ⟨.refl _, .refl _⟩

theorem stopInternal_sub (env : Env) (id : Str) (s : State) : Sub (stopInternal env id s).1 s := by
  induction s with
  | nil => exact Sub.rfl' _
  | cons m r ih =>
    simp only [stopInternal]
    split
    · split
      · split
        · split
          · refine ⟨by simp [MS.remove], ?_⟩
            simp only [List.flatMap_cons, MS.remove]
            exact List.filter_sublist.append (.refl _)
          · refine ⟨List.sublist_cons_self .., ?_⟩
            simp only [List.flatMap_cons]
            exact List.sublist_append_right ..
        · refine ⟨by simp [MS.remove], ?_⟩
          simp only [List.flatMap_cons, MS.remove]
          exact List.filter_sublist.append (.refl _)
      · exact Sub.rfl' _
    · refine ⟨?_, ?_⟩
      · simpa using ih.1
      · simp only [List.flatMap_cons]
        exact (List.Sublist.refl _).append ih.2

theorem stopInternal_nocrash (env : Env) (id : Str) (s : State) :
    (stopInternal env id s).2 ≠ .crash := by
  induction s with
  | nil => simp [stopInternal]
  | cons m r ih =>
    simp only [stopInternal]
    split
    · split
      · split
        · split <;> simp
        · simp
      · simp
    · exact ih

/-- What `StopSessionInternal` does, in terms of who is streamed to. -/
theorem stopInternal_spec (env : Env) (id : Str) (s : State) (hi : Inv s) :
    (∀ id' k, id' ≠ id → (Streams (stopInternal env id s).1 id' k ↔ Streams s id' k)) ∧
    ((stopInternal env id s).2 = .ok →
      (∃ k, Streams s id k) ∧ env.stop id = true ∧ ∀ k, ¬ Streams (stopInternal env id s).1 id k) ∧
    ((stopInternal env id s).2 = .notFound → (stopInternal env id s).1 = s ∧ ∀ k, ¬ Streams s id k) ∧
    ((stopInternal env id s).2 = .error → (∃ k, Streams s id k) ∧
      (env.stop id = true → ∀ k, ¬ Streams (stopInternal env id s).1 id k) ∧
      (env.stop id = false → (stopInternal env id s).1 = s) ∧
      (env.stop id = true → ∃ m ∈ s, m.err = true ∧ id ∈ m.ids)) := by
  induction s with
  | nil =>
    refine ⟨fun _ _ _ => .rfl, fun h => ?_, fun _ => ⟨rfl, fun _ => not_streams_nil⟩, fun h => ?_⟩
    · cases h
    · cases h
  | cons m r ih =>
    have ih := ih hi.tail
    simp only [stopInternal]
    by_cases hm : id ∈ m.ids
    · have hno : ∀ k, ¬ Streams r id k := fun k ⟨x, hx, _, h⟩ => hi.disj hm x hx h
      have hst : ∃ k, Streams (m :: r) id k := ⟨m.key, m, by simp, rfl, hm⟩
      rw [if_pos hm]
      cases hs : env.stop id
      · simp only [Bool.false_eq_true, if_false]
        refine ⟨fun _ _ _ => by simp, fun h => (by cases h), fun h => (by cases h), fun _ => ?_⟩
        exact ⟨hst, fun h => (by cases h), fun _ => trivial, fun h => (by cases h)⟩
      · simp only [if_true]
        have hrem : ∀ k, ¬ Streams (m.remove id :: r) id k := by
          intro k h
          rcases streams_cons.mp h with ⟨_, h⟩ | h
          · exact ((remove_ids m id id).mp h).2 rfl
          · exact hno k h
        have hfr : ∀ id' k, id' ≠ id → (Streams (m.remove id :: r) id' k ↔ Streams (m :: r) id' k) := by
          intro id' k hne
          simp only [streams_cons, remove_ids, hne, ne_eq, not_false_eq_true, and_true]
          rfl
        split
        · rename_i h0
          have hfr0 : ∀ id' k, id' ≠ id → (Streams r id' k ↔ Streams (m :: r) id' k) := by
            intro id' k hne
            rw [← hfr id' k hne, streams_cons, h0]
            simp
          split
          · rename_i he
            have e : ∀ id' k, Streams ({ m.remove id with dead := true } :: r) id' k ↔
                Streams (m.remove id :: r) id' k := fun id' k => by simp only [streams_cons]
            exact ⟨fun id' k h => (e id' k).trans (hfr id' k h), fun h => (by cases h),
              fun h => (by cases h), fun _ =>
              ⟨hst, fun _ k h => hrem k ((e id k).mp h), fun h => (by cases h), fun _ => ⟨m, by simp, he, hm⟩⟩⟩
          · exact ⟨hfr0, fun _ => ⟨hst, trivial, hno⟩, fun h => (by cases h), fun h => (by cases h)⟩
        · exact ⟨hfr, fun _ => ⟨hst, trivial, hrem⟩, fun h => (by cases h), fun h => (by cases h)⟩
    · rw [if_neg hm]
      simp only
      refine ⟨fun id' k hne => ?_, fun h => ?_, fun h => ?_, fun h => ?_⟩
      · simp only [streams_cons, ih.1 id' k hne]
      · obtain ⟨⟨k, h1⟩, h2, h3⟩ := ih.2.1 h
        refine ⟨⟨k, streams_cons.mpr (.inr h1)⟩, h2, fun k h => ?_⟩
        rcases streams_cons.mp h with ⟨_, h⟩ | h
        · exact hm h
        · exact h3 k h
      · obtain ⟨h1, h2⟩ := ih.2.2.1 h
        refine ⟨by rw [h1], fun k h => ?_⟩
        rcases streams_cons.mp h with ⟨_, h⟩ | h
        · exact hm h
        · exact h2 k h
      · obtain ⟨⟨k, h1⟩, h2, h3, h4⟩ := ih.2.2.2 h
        refine ⟨⟨k, streams_cons.mpr (.inr h1)⟩, fun e k h => ?_, fun e => by rw [h3 e], fun e => ?_⟩
        · rcases streams_cons.mp h with ⟨_, h⟩ | h
          · exact hm h
          · exact h2 e k h
        · obtain ⟨x, hx, h⟩ := h4 e
          exact ⟨x, List.mem_cons_of_mem _ hx, h⟩

/-! ### Starting -/

theorem get_split {s : State} {k m} (hi : Inv s) (h : get s k = some m) :
    m.key = k ∧ ∃ a b, s = a ++ m :: b ∧
      ∀ m' : MS, m'.key = k → put s m' = a ++ m' :: b := by
  obtain ⟨hk, a, b, rfl, ha⟩ := List.find?_eq_some_iff_append.mp h
  have hk : m.key = k := by simpa using hk
  refine ⟨hk, a, b, rfl, fun m' hm' => ?_⟩
  have hn := hi.keys
  simp only [List.map_append, List.map_cons] at hn
  obtain ⟨_, h2, h3⟩ := List.nodup_append.mp hn
  have hb := (List.nodup_cons.mp h2).1
  simp only [put, List.map_append, List.map_cons]
  rw [if_pos (by rw [hk, hm'])]
  congr 1
  · conv => rhs; rw [← List.map_id a]
    apply List.map_congr_left
    intro x hx
    rw [if_neg, id]
    intro e
    have := ha x hx
    simp [e, hm'] at this
  · congr 1
    conv => rhs; rw [← List.map_id b]
    apply List.map_congr_left
    intro x hx
    rw [if_neg, id]
    intro e
    exact hb (List.mem_map.mpr ⟨x, hx, by rw [e, hm', hk]⟩)

theorem start_cases (env : Env) (m : MS) (id : Str) :
    (∃ st, st ≠ .ok ∧ (m.start env id) = (m, st)) ∨
    ((m.start env id) = ({ m with ids := m.ids ++ [id] }, .ok) ∧ m.err = false ∧ env.start = .ok ∧
      id ∉ m.ids) := by
  unfold MS.start
  split
  · exact .inl ⟨_, by decide, rfl⟩
  · rename_i h
    cases he : m.err
    · cases hs : env.start
      · cases hd : m.dead
        · cases ha : env.ack
          · exact .inl ⟨.error, by decide, by simp⟩
          · exact .inr ⟨by simp, rfl, rfl, h⟩
        · exact .inl ⟨.crash, by decide, by simp⟩
      · exact .inl ⟨.error, by decide, by simp⟩
      · exact .inl ⟨.crash, by decide, by simp⟩
    · exact .inl ⟨.error, by decide, by simp⟩

/-- Adding an instance that is not streamed to. -/
theorem inv_add {a b : State} {m : MS} {id : Str} (hi : Inv (a ++ m :: b))
    (hn : ∀ k, ¬ Streams (a ++ m :: b) id k) : Inv (a ++ { m with ids := m.ids ++ [id] } :: b) := by
  refine ⟨by simpa using hi.keys, ?_⟩
  have h1 := hi.ids
  have h2 : id ∉ (a ++ m :: b).flatMap (·.ids) := fun h => by
    obtain ⟨k, h⟩ := mem_flat.mp h
    exact hn k h
  simp only [List.flatMap_append, List.flatMap_cons] at h1 h2 ⊢
  have hp : List.Perm (a.flatMap (·.ids) ++ ((m.ids ++ [id]) ++ b.flatMap (·.ids)))
      (id :: (a.flatMap (·.ids) ++ (m.ids ++ b.flatMap (·.ids)))) := by
    rw [List.append_assoc]
    refine (List.Perm.append_left _ ?_).trans List.perm_middle
    exact List.perm_middle
  exact hp.nodup_iff.mpr (List.nodup_cons.mpr ⟨h2, h1⟩)

theorem streams_add {a b : State} {m : MS} {id id' : Str} {k} :
    Streams (a ++ { m with ids := m.ids ++ [id] } :: b) id' k ↔
      Streams (a ++ m :: b) id' k ∨ (id' = id ∧ k = m.key) := by
  simp only [streams_append, streams_cons, List.mem_append, List.mem_singleton]
  constructor
  · rintro (h | ⟨h1, h | h⟩ | h)
    · exact .inl (.inl h)
    · exact .inl (.inr (.inl ⟨h1, h⟩))
    · exact .inr ⟨h, h1.symm⟩
    · exact .inl (.inr (.inr h))
  · rintro ((h | ⟨h1, h⟩ | h) | ⟨rfl, rfl⟩)
    · exact .inl h
    · exact .inr (.inl ⟨h1, .inl h⟩)
    · exact .inr (.inr h)
    · exact .inr (.inl ⟨rfl, .inr rfl⟩)

/-- The result of a call of `StartSession`. -/
structure StartSpec (env : Env) (id : Str) (k : Nat) (s s' : State) (st : Status) : Prop where
  inv : Inv s'
  others : ∀ id' k', id' ≠ id → (Streams s' id' k' ↔ Streams s id' k')
  ok : st = .ok → Streams s' id k
  fails : st ≠ .ok → env.stop id = true → ∀ k', ¬ Streams s' id k'
  kept : st ≠ .ok → env.stop id = false → ∀ k', Streams s' id k' ↔ Streams s id k'

/-- `fresh` part of `startSession`. -/
theorem fresh_spec (env : Env) (id : Str) (k : Nat) (s : State) (hi : Inv s) :
    let r := (let (s1, st) := stopInternal env id s
      if st = .error then (s1, .error)
      else
        match get s1 k with
        | some m => let (m', st) := m.start env id; (put s1 m', st)
        | none =>
          if env.init then let (m', st) := MS.start env ⟨k, [], false, false⟩ id; (m' :: s1, st)
          else (s1, .error) : State × Status)
    StartSpec env id k s r.1 r.2 := by
  obtain ⟨h1, h2, h3, h4⟩ := stopInternal_spec env id s hi
  have hinv := (stopInternal_sub env id s).inv hi
  have hnc := stopInternal_nocrash env id s
  generalize stopInternal env id s = r at *
  obtain ⟨s1, st⟩ := r
  simp only at *
  by_cases he : st = .error
  · rw [if_pos he]
    obtain ⟨h4, h5, h6, _⟩ := h4 he
    exact ⟨hinv, h1, fun h => (by cases h), fun _ => h5, fun _ h k' => by rw [h6 h]⟩
  · rw [if_neg he]
    have hn : ∀ k', ¬ Streams s1 id k' := by
      cases st with
      | ok => exact (h2 rfl).2.2
      | notFound => obtain ⟨rfl, h⟩ := h3 rfl; exact h
      | error => exact absurd rfl he
      | crash => exact absurd rfl hnc
    have hkept : env.stop id = false → ∀ k', ¬ Streams s id k' := by
      intro h
      cases st with
      | ok => rw [(h2 rfl).2.1] at h; cases h
      | notFound => exact (h3 rfl).2
      | error => exact absurd rfl he
      | crash => exact absurd rfl hnc
    cases hg : get s1 k with
    | none =>
      simp only
      have hk : ∀ x ∈ s1, x.key ≠ k := by
        intro x hx e
        have := List.find?_eq_none.mp hg x hx
        simp [e] at this
      split
      · have hinv0 : Inv (⟨k, [], false, false⟩ :: s1) := by
          refine ⟨?_, by simpa using hinv.ids⟩
          simp only [List.map_cons, List.nodup_cons]
          refine ⟨fun h => ?_, hinv.keys⟩
          obtain ⟨x, hx, e⟩ := List.mem_map.mp h
          exact hk x hx e
        have hst0 : ∀ id' k', Streams (⟨k, [], false, false⟩ :: s1) id' k' ↔ Streams s1 id' k' := by
          intro id' k'
          simp [streams_cons]
        rcases start_cases env ⟨k, [], false, false⟩ id with ⟨st, hok, h⟩ | ⟨h, _, _, _⟩
        · rw [h]
          simp only
          refine ⟨hinv0, fun id' k' hne => (hst0 id' k').trans (h1 id' k' hne), fun h => absurd h hok,
            fun _ _ k' h => hn k' ((hst0 id k').mp h), fun _ hs k' => ?_⟩
          exact iff_of_false (fun h => hn k' ((hst0 id k').mp h)) (hkept hs k')
        · rw [h]
          simp only
          have e := fun id' k' => streams_add (a := []) (b := s1) (m := ⟨k, [], false, false⟩) (id := id)
            (id' := id') (k := k')
          simp only [List.nil_append] at e
          refine ⟨?_, fun id' k' hne => ?_, fun _ => ?_, fun h => absurd rfl h, fun h => absurd rfl h⟩
          · exact inv_add (a := []) (b := s1) (m := ⟨k, [], false, false⟩) hinv0
              fun k' h => hn k' ((hst0 id k').mp h)
          · have e' := e id' k'
            simp only [hne, false_and, or_false] at e'
            exact e'.trans ((hst0 id' k').trans (h1 id' k' hne))
          · exact (e id k).mpr (.inr ⟨rfl, rfl⟩)
      · exact ⟨hinv, h1, fun h => (by cases h), fun _ _ => hn, fun _ hs k' =>
          iff_of_false (hn k') (hkept hs k')⟩
    | some m =>
      simp only
      obtain ⟨rfl, a, b, rfl, hput⟩ := get_split hinv hg
      rcases start_cases env m id with ⟨st, hok, h⟩ | ⟨h, _, _, _⟩
      · rw [h]
        simp only
        rw [hput m rfl]
        exact ⟨hinv, h1, fun h => absurd h hok, fun _ _ => hn, fun _ hs k' =>
          iff_of_false (hn k') (hkept hs k')⟩
      · rw [h]
        simp only
        rw [hput { m with ids := m.ids ++ [id] } rfl]
        refine ⟨inv_add hinv hn, fun id' k' hne => ?_, fun _ => streams_add.mpr (.inr ⟨rfl, rfl⟩),
          fun h => absurd rfl h, fun h => absurd rfl h⟩
        rw [streams_add, ← h1 id' k' hne]
        simp [hne]

theorem start_spec (env : Env) (id : Str) (k : Nat) (s : State) (hi : Inv s) :
    StartSpec env id k s (startSession env id k s).1 (startSession env id k s).2 := by
  unfold startSession
  cases hv : env.valid
  · simp only [Bool.not_false, if_true]
    obtain ⟨h1, h2, h3, h4⟩ := stopInternal_spec env id s hi
    refine ⟨(stopInternal_sub env id s).inv hi, h1, fun h => (by cases h), fun _ hs k' h => ?_,
      fun _ hs k' => ?_⟩
    · cases hst : (stopInternal env id s).2 with
      | ok => exact (h2 hst).2.2 k' h
      | notFound =>
        obtain ⟨e, hn⟩ := h3 hst
        rw [e] at h
        exact hn k' h
      | error => exact (h4 hst).2.1 hs k' h
      | crash => exact absurd hst (stopInternal_nocrash env id s)
    · cases hst : (stopInternal env id s).2 with
      | ok => rw [(h2 hst).2.1] at hs; cases hs
      | notFound => rw [(h3 hst).1]
      | error => rw [(h4 hst).2.2.1 hs]
      | crash => exact absurd hst (stopInternal_nocrash env id s)
  · simp only [Bool.not_true, Bool.false_eq_true, if_false]
    cases hg : get s k with
    | none => exact fresh_spec env id k s hi
    | some m =>
      simp only
      by_cases hm : id ∈ m.ids
      · rw [if_pos hm]
        obtain ⟨rfl, a, b, rfl, hput⟩ := get_split hi hg
        have hst : Streams (a ++ m :: b) id m.key := ⟨m, by simp, rfl, hm⟩
        cases hh : env.healthy
        · simp only [Bool.false_eq_true, if_false]
          cases hs : env.stop id
          · simp only [Bool.false_eq_true, if_false]
            exact ⟨hi, fun _ _ _ => .rfl, fun h => (by cases h), fun _ h => (by rw [hs] at h; cases h),
              fun _ _ _ => .rfl⟩
          · simp only [if_true]
            -- after the old session has been stopped
            have hn : ∀ k', ¬ Streams (a ++ m.remove id :: b) id k' := by
              intro k' h
              have hd := hi.ids
              simp only [List.flatMap_append, List.flatMap_cons] at hd
              obtain ⟨_, hd2, hd3⟩ := List.nodup_append.mp hd
              obtain ⟨_, _, hd4⟩ := List.nodup_append.mp hd2
              rcases streams_append.mp h with h | h
              · exact hd3 id (mem_flat.mpr ⟨_, h⟩) id (List.mem_append_left _ hm) rfl
              · rcases streams_cons.mp h with ⟨_, h⟩ | h
                · exact ((remove_ids m id id).mp h).2 rfl
                · exact hd4 id hm id (mem_flat.mpr ⟨_, h⟩) rfl
            have hfr : ∀ id' k', id' ≠ id →
                (Streams (a ++ m.remove id :: b) id' k' ↔ Streams (a ++ m :: b) id' k') := by
              intro id' k' hne
              simp only [streams_append, streams_cons, remove_ids, hne, ne_eq, not_false_eq_true,
                and_true]
              rfl
            have hinv : Inv (a ++ m.remove id :: b) := by
              refine Sub.inv ⟨?_, ?_⟩ hi
              · simp [MS.remove]
              · simp only [List.flatMap_append, List.flatMap_cons]
                exact (List.Sublist.refl _).append (List.filter_sublist.append (.refl _))
            rcases start_cases env (m.remove id) id with ⟨st, hok, h⟩ | ⟨h, _, _, _⟩
            · rw [h]
              simp only
              rw [hput _ (by rfl)]
              exact ⟨hinv, hfr, fun h => absurd h hok, fun _ _ => hn,
                fun _ h => (by rw [hs] at h; cases h)⟩
            · rw [h]
              simp only
              rw [hput _ (by rfl)]
              refine ⟨inv_add hinv hn, fun id' k' hne => ?_,
                fun _ => streams_add.mpr (.inr ⟨rfl, rfl⟩), fun h => absurd rfl h,
                fun h => absurd rfl h⟩
              rw [streams_add, ← hfr id' k' hne]
              simp [hne]
        · simp only [if_true]
          exact ⟨hi, fun _ _ _ => .rfl, fun _ => hst, fun h => absurd rfl h, fun h => absurd rfl h⟩
      · rw [if_neg hm]
        exact fresh_spec env id k s hi

/-! ### Stopping -/

theorem stopAll_spec (env : Env) (l : List Str) (s : State) (hi : Inv s) (hl : l.Nodup)
    (hin : ∀ id ∈ l, ∃ k, Streams s id k) :
    Inv (stopAll env l s).1 ∧
    (∀ id k, Streams (stopAll env l s).1 id k → Streams s id k) ∧
    (∀ id k, id ∉ l → (Streams (stopAll env l s).1 id k ↔ Streams s id k)) ∧
    (stopAll env l s).2 ≠ .notFound ∧
    ((stopAll env l s).2 = .ok → ∀ id ∈ l, ∀ k, ¬ Streams (stopAll env l s).1 id k) ∧
    ((stopAll env l s).2 = .error → (∃ id ∈ l, env.stop id = false) ∨ ∃ m ∈ s, m.err = true) := by
  induction l generalizing s with
  | nil =>
    refine ⟨hi, fun _ _ h => h, fun _ _ _ => .rfl, ?_, ?_, ?_⟩
    · simp [stopAll]
    · simp
    · simp [stopAll]
  | cons id l ih =>
    obtain ⟨h1, h2, h3, h4⟩ := stopInternal_spec env id s hi
    have hinv := (stopInternal_sub env id s).inv hi
    have herr : ∀ m ∈ (stopInternal env id s).1, m.err = true → ∃ m ∈ s, m.err = true := by
      clear h1 h2 h3 h4 hinv ih hin hi
      induction s with
      | nil => intro m hm; cases hm
      | cons x r ih =>
        intro m hm he
        simp only [stopInternal] at hm
        by_cases hx : x.err = true
        · exact ⟨x, by simp, hx⟩
        · split at hm
          · split at hm
            · split at hm
              · exact ⟨m, List.mem_cons_of_mem _ hm, he⟩
              · rcases List.mem_cons.mp hm with rfl | hm
                · exact absurd he hx
                · exact ⟨m, List.mem_cons_of_mem _ hm, he⟩
            · exact ⟨m, hm, he⟩
          · rcases List.mem_cons.mp hm with rfl | hm
            · exact absurd he hx
            · obtain ⟨y, hy, h⟩ := ih m hm he
              exact ⟨y, List.mem_cons_of_mem _ hy, h⟩
    have hnf : (stopInternal env id s).2 ≠ .notFound := by
      intro h
      obtain ⟨k, hk⟩ := hin id (List.mem_cons_self ..)
      exact (h3 h).2 k hk
    have hsub : ∀ id' k, Streams (stopInternal env id s).1 id' k → Streams s id' k := by
      intro id' k h
      by_cases hne : id' = id
      · subst hne
        cases hst : (stopInternal env id' s).2 with
        | ok => exact absurd h ((h2 hst).2.2 k)
        | notFound => exact absurd hst hnf
        | crash => exact absurd hst (stopInternal_nocrash env _ s)
        | error =>
          cases hs : env.stop id'
          · rwa [(h4 hst).2.2.1 hs] at h
          · exact absurd h ((h4 hst).2.1 hs k)
      · exact (h1 id' k hne).mp h
    obtain ⟨hid, hl'⟩ := List.nodup_cons.mp hl
    simp only [stopAll]
    by_cases hok : (stopInternal env id s).2 = .ok
    · rw [if_pos hok]
      obtain ⟨i1, i2, i3, i4, i5, i6⟩ := ih _ hinv hl' fun x hx => by
        obtain ⟨k, hk⟩ := hin x (List.mem_cons_of_mem _ hx)
        exact ⟨k, (h1 x k (fun e => hid (e ▸ hx))).mpr hk⟩
      refine ⟨i1, fun id' k h => hsub id' k (i2 id' k h), fun id' k hni => ?_, i4, fun h id' hid' k => ?_,
        fun h => ?_⟩
      · rw [List.mem_cons, not_or] at hni
        rw [i3 id' k hni.2, h1 id' k hni.1]
      · rcases List.mem_cons.mp hid' with rfl | hm
        · intro hh
          exact (h2 hok).2.2 k (i2 _ k hh)
        · exact i5 h id' hm k
      · rcases i6 h with ⟨x, hx, h⟩ | ⟨m, hm, h⟩
        · exact .inl ⟨x, List.mem_cons_of_mem _ hx, h⟩
        · exact .inr (herr m hm h)
    · rw [if_neg hok]
      refine ⟨hinv, hsub, fun id' k hni => ?_, hnf, fun h => absurd h hok, fun h => ?_⟩
      · rw [List.mem_cons, not_or] at hni
        exact h1 id' k hni.1
      · cases hs : env.stop id
        · exact .inl ⟨id, List.mem_cons_self .., hs⟩
        · obtain ⟨m, hm, he, _⟩ := (h4 h).2.2.2 hs
          exact .inr ⟨m, hm, he⟩

theorem mem_matches {filter : Str} {s : State} {id : Str} :
    id ∈ (s.flatMap fun m => m.ids.filter (isMatch filter)) ↔
      isMatch filter id = true ∧ ∃ k, Streams s id k := by
  simp only [List.mem_flatMap, List.mem_filter, Streams]
  constructor
  · rintro ⟨m, hm, h1, h2⟩
    exact ⟨h2, m.key, m, hm, rfl, h1⟩
  · rintro ⟨h, k, m, hm, _, h1⟩
    exact ⟨m, hm, h1, h⟩

theorem matches_nodup {filter : Str} {s : State} (hi : Inv s) :
    (s.flatMap fun m => m.ids.filter (isMatch filter)).Nodup := by
  have : (s.flatMap fun m => m.ids.filter (isMatch filter)) =
      (s.flatMap (·.ids)).filter (isMatch filter) := by
    induction s with
    | nil => rfl
    | cons m s ih => simp only [List.flatMap_cons, List.filter_append, ih hi.tail]
  rw [this]
  exact hi.ids.filter _

theorem stopSession_inv (env : Env) (f : Str) (s : State) (hi : Inv s) : Inv (stopSession env f s).1 := by
  unfold stopSession
  simp only
  split
  · exact hi
  · exact (stopAll_spec env _ s hi (matches_nodup hi) fun id h => (mem_matches.mp h).2).1

theorem shutIds_suffix (env : Env) (l : List Str) : shutIds env l <:+ l := by
  induction l with
  | nil => exact List.suffix_refl _
  | cons id l ih =>
    simp only [shutIds]
    split
    · exact ih.trans (List.suffix_cons ..)
    · exact List.suffix_refl _

theorem shutLoop_sub (env : Env) (s : State) : Sub (shutLoop env s).1 s := by
  induction s with
  | nil => exact Sub.rfl' _
  | cons m r ih =>
    simp only [shutLoop]
    split
    · refine ⟨by simpa using ih.1, ?_⟩
      simp only [List.flatMap_cons]
      exact (shutIds_suffix env m.ids).sublist.append ih.2
    · refine ⟨by simp, ?_⟩
      simp only [List.flatMap_cons]
      exact (shutIds_suffix env m.ids).sublist.append (.refl _)

theorem shutLoop_streams (env : Env) (s : State) (id k) :
    Streams (shutLoop env s).1 id k → Streams s id k := by
  induction s with
  | nil => exact fun h => h
  | cons m r ih =>
    simp only [shutLoop]
    split <;> intro h <;> rcases streams_cons.mp h with ⟨h1, h2⟩ | h2
    · exact streams_cons.mpr (.inl ⟨h1, (shutIds_suffix env m.ids).subset h2⟩)
    · exact streams_cons.mpr (.inr (ih h2))
    · exact streams_cons.mpr (.inl ⟨h1, (shutIds_suffix env m.ids).subset h2⟩)
    · exact streams_cons.mpr (.inr h2)

theorem runnerFails_streams (k : Nat) (s : State) (id k') :
    Streams (runnerFails k s) id k' ↔ Streams s id k' := by
  induction s with
  | nil => exact .rfl
  | cons m r ih =>
    have : runnerFails k (m :: r) =
        (if m.key = k then { m with err := true } else m) :: runnerFails k r := rfl
    rw [this, streams_cons, streams_cons, ih]
    split <;> exact .rfl

theorem runnerFails_inv (k : Nat) (s : State) (h : Inv s) : Inv (runnerFails k s) := by
  have h1 : (runnerFails k s).map (·.key) = s.map (·.key) := by
    simp only [runnerFails, List.map_map]
    apply List.map_congr_left
    intro m _
    simp only [Function.comp]
    split <;> rfl
  have h2 : (runnerFails k s).flatMap (·.ids) = s.flatMap (·.ids) := by
    simp only [runnerFails, List.flatMap_map]
    congr 1
    funext m
    split <;> rfl
  exact ⟨h1 ▸ h.keys, h2 ▸ h.ids⟩

theorem apply_inv (env : Env) (op : Op) (s : State) (h : Inv s) : Inv (apply env op s).1 := by
  cases op with
  | start id k => exact (start_spec env id k s h).inv
  | stop f => exact stopSession_inv env f s h
  | shutdown =>
    simp only [apply, shutdown]
    split
    · exact ⟨List.nodup_nil, List.nodup_nil⟩
    · exact (shutLoop_sub env s).inv h
  | runnerFails k => exact runnerFails_inv k s h

theorem Reach.inv {s : State} (h : Reach s) : Inv s := by
  induction h with
  | init => exact ⟨List.nodup_nil, List.nodup_nil⟩
  | step env op _ r ih => exact apply_inv env op _ (r.keep.1 ih)

/-! ## C50 -/

/-- **C50.**  After any history of calls with any failures, an instance is streamed to from at most
one directory. -/
theorem C50_at_most_one {s : State} (h : Reach s) (id : Str) (a b : Nat) :
    Streams s id a → Streams s id b → a = b := h.inv.unique

/-- **C50.**  A start that reports success leaves the instance streamed to from the given directory
and from no other; one that fails leaves it streamed to from nowhere, unless its previous session
could not be stopped: then nothing has changed.  Other instances are not affected. -/
theorem C50_start {s : State} (h : Reach s) (env : Env) (id : Str) (k : Nat) :
    ((startSession env id k s).2 = .ok →
      ∀ k', Streams (startSession env id k s).1 id k' ↔ k' = k) ∧
    ((startSession env id k s).2 ≠ .ok → env.stop id = true →
      ∀ k', ¬ Streams (startSession env id k s).1 id k') ∧
    ((startSession env id k s).2 ≠ .ok → env.stop id = false →
      ∀ k', Streams (startSession env id k s).1 id k' ↔ Streams s id k') ∧
    (∀ id' k', id' ≠ id → (Streams (startSession env id k s).1 id' k' ↔ Streams s id' k')) := by
  have sp := start_spec env id k s h.inv
  exact ⟨fun e k' => ⟨fun hk => sp.inv.unique hk (sp.ok e), fun e' => e' ▸ sp.ok e⟩, sp.fails, sp.kept,
    sp.others⟩

/-- **C50.**  A stop that reports success removes exactly the instances that match the filter.  It
reports that nothing was found exactly if none matches.  If it fails, instances that do not match are
not affected and no instance is added; and it only fails if a session could not be stopped or the
streaming of a directory had failed before. -/
theorem C50_stop {s : State} (h : Reach s) (env : Env) (filter : Str) :
    ((stopSession env filter s).2 = .ok →
      ∀ id k, Streams (stopSession env filter s).1 id k ↔ Streams s id k ∧ isMatch filter id = false) ∧
    ((stopSession env filter s).2 = .notFound ↔ ∀ id k, Streams s id k → isMatch filter id = false) ∧
    ((stopSession env filter s).2 = .notFound → (stopSession env filter s).1 = s) ∧
    (∀ id k, isMatch filter id = false →
      (Streams (stopSession env filter s).1 id k ↔ Streams s id k)) ∧
    (∀ id k, Streams (stopSession env filter s).1 id k → Streams s id k) ∧
    ((stopSession env filter s).2 = .error →
      (∃ id, isMatch filter id = true ∧ env.stop id = false) ∨ ∃ m ∈ s, m.err = true) := by
  have sp := stopAll_spec env _ s h.inv (matches_nodup (filter := filter) h.inv)
    fun id h => (mem_matches.mp h).2
  unfold stopSession
  simp only
  split
  · rename_i h0
    have hn : ∀ id k, Streams s id k → isMatch filter id = false := by
      intro id k hs
      cases hm : isMatch filter id
      · rfl
      · have := mem_matches.mpr ⟨hm, k, hs⟩
        rw [h0] at this
        cases this
    exact ⟨fun h => (by cases h), ⟨fun _ => hn, fun _ => rfl⟩, fun _ => rfl, fun _ _ _ => .rfl,
      fun _ _ h => h, fun h => (by cases h)⟩
  · rename_i h0
    obtain ⟨_, h2, h3, h4, h5, h6⟩ := sp
    have hno : ∀ id, isMatch filter id = false →
        id ∉ (s.flatMap fun m => m.ids.filter (isMatch filter)) := by
      intro id hm hin
      rw [(mem_matches.mp hin).1] at hm
      cases hm
    refine ⟨fun hok id k => ?_, ⟨fun h => absurd h h4, fun hn => ?_⟩, fun h => absurd h h4,
      fun id k hm => h3 id k (hno id hm), h2, fun he => ?_⟩
    · constructor
      · intro hs
        refine ⟨h2 id k hs, ?_⟩
        cases hm : isMatch filter id
        · rfl
        · exact absurd hs (h5 hok id (mem_matches.mpr ⟨hm, k, h2 id k hs⟩) k)
      · rintro ⟨hs, hm⟩
        exact (h3 id k (hno id hm)).mpr hs
    · exfalso
      obtain ⟨x, hx⟩ := List.exists_mem_of_ne_nil _ h0
      obtain ⟨hm, k, hs⟩ := mem_matches.mp hx
      rw [hn x k hs] at hm
      cases hm
    · rcases h6 he with ⟨id, hid, h⟩ | h
      · exact .inl ⟨id, (mem_matches.mp hid).1, h⟩
      · exact .inr h

/-- **C50.**  A shutdown that reports success leaves nothing; one that fails adds nothing. -/
theorem C50_shutdown {s : State} (env : Env) :
    ((shutdown env s).2 = .ok → ∀ id k, ¬ Streams (shutdown env s).1 id k) ∧
    (∀ id k, Streams (shutdown env s).1 id k → Streams s id k) := by
  unfold shutdown
  simp only
  split
  · exact ⟨fun _ _ _ => not_streams_nil, fun _ _ h => absurd h not_streams_nil⟩
  · exact ⟨fun h => (by cases h), shutLoop_streams env s⟩

/-- **C50.**  What matching means: whenever the matcher answers (see C42), a session is selected by a
filter if and only if the filter with `*` and `?` replaced gives the instance's name. -/
theorem C50_filter (filter id : Str) (hf : (0 : UInt8) ∉ filter) (h0 : (0 : UInt8) ∉ id) (hne : id ≠ [])
    {b : Bool} (ha : Verif.Text.Filter.isMatchStr filter id = some b) :
    isMatch filter id = true ↔ Matches filter id := by
  have h1 := (Verif.Text.Filter.C42_wildcards_partial filter id hf h0 hne).2 b ha
  have h2 : Verif.Text.Filter.isMatchStr [star] id = some true := by
    simp [Verif.Text.Filter.isMatchStr, Verif.Text.Filter.isMatch, star, Verif.Text.Filter.qmark]
  simp only [isMatch, filterMatch, ha, h2, decide_eq_true_eq]
  cases b
  · simp at h1 ⊢
    exact h1
  · simp at h1 ⊢
    exact h1

/-! ## C61 -/

/-- The streaming of directory `k` has failed. -/
def Failed (s : State) (k : Nat) : Prop := ∃ m ∈ s, m.key = k ∧ m.err = true

theorem stopInternal_failed (env : Env) (id : Str) (s : State) (k) (h : Failed s k) :
    Failed (stopInternal env id s).1 k := by
  induction s with
  | nil => exact h
  | cons m r ih =>
    obtain ⟨x, hx, hk, he⟩ := h
    simp only [stopInternal]
    rcases List.mem_cons.mp hx with rfl | hx
    · split
      · split
        · split
          · exact ⟨_, List.mem_cons_self .., hk, he⟩
          · exact ⟨x.remove id, List.mem_cons_self .., hk, he⟩
        · exact ⟨x, List.mem_cons_self .., hk, he⟩
      · exact ⟨x, List.mem_cons_self .., hk, he⟩
    · split
      · split
        · split
          · split
            · exact ⟨x, List.mem_cons_of_mem _ hx, hk, he⟩
            · exact ⟨x, hx, hk, he⟩
          · exact ⟨x, List.mem_cons_of_mem _ hx, hk, he⟩
        · exact ⟨x, List.mem_cons_of_mem _ hx, hk, he⟩
      · obtain ⟨y, hy, h⟩ := ih ⟨x, hx, hk, he⟩
        exact ⟨y, List.mem_cons_of_mem _ hy, h⟩

theorem put_failed {s : State} (hi : Inv s) {k k' : Nat} {m m' : MS} (hg : get s k' = some m)
    (hk' : m'.key = k') (he : m'.err = m.err) (h : Failed s k) : Failed (put s m') k := by
  obtain ⟨hk, a, b, rfl, hput⟩ := get_split hi hg
  rw [hput m' hk']
  obtain ⟨x, hx, h1, h2⟩ := h
  rcases List.mem_append.mp hx with hx | hx
  · exact ⟨x, List.mem_append_left _ hx, h1, h2⟩
  · rcases List.mem_cons.mp hx with rfl | hx
    · exact ⟨m', by simp, by rw [hk', ← hk, h1], by rw [he, h2]⟩
    · exact ⟨x, by simp [hx], h1, h2⟩

theorem start_key_err (env : Env) (m : MS) (id : Str) :
    (m.start env id).1.key = m.key ∧ (m.start env id).1.err = m.err := by
  rcases start_cases env m id with ⟨st, _, h⟩ | ⟨h, _⟩ <;> rw [h] <;> exact ⟨rfl, rfl⟩

theorem get_key {s : State} {k m} (h : get s k = some m) : m.key = k := by
  have := List.find?_some h
  simpa using this

theorem start_failed (env : Env) (id : Str) (k' : Nat) (s : State) (hi : Inv s) {k}
    (h : Failed s k) : Failed (startSession env id k' s).1 k := by
  have h1 := stopInternal_failed env id s k h
  have hinv := (stopInternal_sub env id s).inv hi
  have hfresh : Failed (let (s1, st) := stopInternal env id s
      if st = .error then (s1, .error)
      else
        match get s1 k' with
        | some m => let (m', st) := m.start env id; (put s1 m', st)
        | none =>
          if env.init then let (m', st) := MS.start env ⟨k', [], false, false⟩ id; (m' :: s1, st)
          else (s1, .error) : State × Status).1 k := by
    generalize stopInternal env id s = r at *
    obtain ⟨s1, st⟩ := r
    simp only at *
    split
    · exact h1
    · cases hg : get s1 k' with
      | some m =>
        have := start_key_err env m id
        exact put_failed hinv hg (this.1.trans (get_key hg)) this.2 h1
      | none =>
        simp only
        split
        · obtain ⟨x, hx, h⟩ := h1
          exact ⟨x, List.mem_cons_of_mem _ hx, h⟩
        · exact h1
  unfold startSession
  cases env.valid
  · exact h1
  · simp only [Bool.not_true, Bool.false_eq_true, if_false]
    cases hg : get s k' with
    | none => exact hfresh
    | some m =>
      simp only
      split
      · split
        · exact h
        · split
          · have := start_key_err env (m.remove id) id
            exact put_failed hi hg (this.1.trans (show (m.remove id).key = k' from get_key (m := m) hg)) this.2 h
          · exact h
      · exact hfresh

theorem stopAll_failed (env : Env) (l : List Str) (s : State) (k) (h : Failed s k) :
    Failed (stopAll env l s).1 k := by
  induction l generalizing s with
  | nil => exact h
  | cons id l ih =>
    simp only [stopAll]
    split
    · exact ih _ (stopInternal_failed env id s k h)
    · exact stopInternal_failed env id s k h

theorem shutLoop_failed (env : Env) (s : State) (k) (h : Failed s k) :
    (shutLoop env s).2 = false ∧ Failed (shutLoop env s).1 k := by
  induction s with
  | nil => obtain ⟨x, hx, _⟩ := h; cases hx
  | cons m r ih =>
    obtain ⟨x, hx, hk, he⟩ := h
    simp only [shutLoop]
    rcases List.mem_cons.mp hx with rfl | hx
    · rw [if_neg (by simp [he])]
      exact ⟨rfl, _, List.mem_cons_self .., hk, he⟩
    · split
      · obtain ⟨h1, y, hy, h2⟩ := ih ⟨x, hx, hk, he⟩
        exact ⟨h1, y, List.mem_cons_of_mem _ hy, h2⟩
      · exact ⟨rfl, x, List.mem_cons_of_mem _ hx, hk, he⟩

theorem apply_failed (env : Env) (op : Op) (s : State) (hi : Inv s) (k) (h : Failed s k) :
    Failed (apply env op s).1 k := by
  cases op with
  | start id k' => exact start_failed env id k' s hi h
  | stop f =>
    simp only [apply, stopSession]
    split
    · exact h
    · exact stopAll_failed env _ s k h
  | shutdown =>
    obtain ⟨h1, h2⟩ := shutLoop_failed env s k h
    simp only [apply, shutdown, h1]
    exact h2
  | runnerFails k' =>
    obtain ⟨x, hx, hk, he⟩ := h
    refine ⟨if x.key = k' then { x with err := true } else x, List.mem_map_of_mem hx, ?_, ?_⟩
    · split <;> exact hk
    · split
      · rfl
      · exact he

/-- Histories that continue `s`. -/
inductive After (s : State) : State → Prop
  | refl : After s s
  | step {t u} (env : Env) (op : Op) : After s t → Reorder u t → After s (apply env op u).1

theorem After.keep {s t : State} (h : Inv s) {k : Nat} (hf : Failed s k) (ha : After s t) :
    Inv t ∧ Failed t k := by
  induction ha with
  | refl => exact ⟨h, hf⟩
  | step env op _ r ih =>
    exact ⟨apply_inv env op _ (r.keep.1 ih.1),
      apply_failed env op _ (r.keep.1 ih.1) k ((r.keep.2.2 k).mpr ih.2)⟩

theorem get_failed {s : State} (hi : Inv s) {k} (h : Failed s k) :
    ∃ m, get s k = some m ∧ m.err = true := by
  obtain ⟨x, hx, hk, he⟩ := h
  cases hg : get s k with
  | none =>
    have := List.find?_eq_none.mp hg x hx
    simp [hk] at this
  | some m =>
    refine ⟨m, rfl, ?_⟩
    obtain ⟨hk', a, b, rfl, -⟩ := get_split hi hg
    have hn := hi.keys
    simp only [List.map_append, List.map_cons] at hn
    obtain ⟨_, h2, h3⟩ := List.nodup_append.mp hn
    rcases List.mem_append.mp hx with hx | hx
    · exact absurd (hk.trans hk'.symm)
        (h3 x.key (List.mem_map_of_mem hx) m.key (List.mem_cons_self ..))
    · rcases List.mem_cons.mp hx with rfl | hx
      · exact he
      · exact absurd (List.mem_map.mpr ⟨x, hx, hk.trans hk'.symm⟩) (List.nodup_cons.mp h2).1

/-- **C61 fails**: once the streaming of a directory has failed (for example because the directory
was unreadable for a moment while the first manifest was built), then after any further calls,
stopping and shutting down included, and whatever the environment is like by then, starting a session
for an instance from this directory fails, and the manager cannot be shut down. -/
theorem C61_failed_directory_violated {s t : State} (h : Reach s) (k : Nat) (hf : Failed s k)
    (ha : After s t) (env : Env) (id : Str) (hid : ¬ Streams t id k) :
    (startSession env id k t).2 = .error ∧ (shutdown env t).2 = .error := by
  obtain ⟨hi, hF⟩ := ha.keep h.inv hf
  refine ⟨?_, ?_⟩
  · obtain ⟨m, hg, he⟩ := get_failed hi hF
    have hm : id ∉ m.ids := fun hm => hid ⟨m, List.mem_of_find?_eq_some hg, get_key hg, hm⟩
    have hinv := (stopInternal_sub env id t).inv hi
    obtain ⟨m1, hg1, he1⟩ := get_failed hinv (stopInternal_failed env id t k hF)
    unfold startSession
    cases env.valid
    · rfl
    · simp only [Bool.not_true, Bool.false_eq_true, if_false, hg, hm]
      by_cases hst : (stopInternal env id t).2 = .error
      · rw [if_pos hst]
      · rw [if_neg hst, hg1]
        simp only [MS.start, he1, if_true]
        split <;> rfl
  · simp [shutdown, (shutLoop_failed env t k hF).1]

end Verif.Sessions
