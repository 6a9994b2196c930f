/-!
# What is reported about the use of a session (C198, C199), and the end of a multi-session (C200)

cdc_stream/session.cc, cdc_stream/multi_session.cc, cdc_stream/cdc_fuse_manager.cc
-/

namespace Verif.Stream.Usage

/-- An instance id. -/
abbrev Id := Nat

/-! ## Model -/

/-- A `Session`, session.h:81-95, as far as it is about what was sent.  `num` is its `session_id_` (metrics_recorder.cc:53, unique): the number
of operations before the one that created it. -/
structure Session where
  id : Id
  num : Nat
  bytes : Nat := 0
  chunks : Nat := 0
  lastBytes : Nat := 0
  lastChunks : Nat := 0
  deriving DecidableEq, Repr

/-- `kSessionHeartBeat` and `kSessionEnd`. -/
inductive Kind
  | beat | ended
  deriving DecidableEq, Repr

/-- An event a session records, session.cc:31-39. -/
structure Event where
  num : Nat
  kind : Kind
  bytes : Nat
  chunks : Nat
  deriving DecidableEq, Repr

/-- `sessions_`, multi_session.h:260-261, and what the sessions have recorded, oldest first. -/
structure State where
  sessions : List Session := []
  log : List Event := []
  deriving DecidableEq, Repr

/-- How a `StartSession` goes that is not refused because the session exists: it is refused because the runner has failed (multi_session.cc:501-508),
the session is created but does not start or its manifest is not acknowledged (514-519), it starts. -/
inductive Start
  | refused | fails | ok
  deriving DecidableEq, Repr

/-- What happens to a multi-session: each holds `sessions_mutex_` or `transferred_data_mu_` while it happens, so they do not overlap. -/
inductive Op
  /-- `StartSession`; `early` is the bytes and chunks sent to the instance meanwhile -/
  | start (i : Id) (out : Start) (early : List (Nat × Nat))
  /-- `StopSession`; whether `CdcFuseManager::Stop` succeeds -/
  | stop (i : Id) (ok : Bool)
  /-- `OnContentSent` for an instance that has acknowledged a manifest -/
  | sent (i : Id) (bytes chunks : Nat)
  /-- the watcher wakes up -/
  | beat
  deriving DecidableEq, Repr

/-- The event `Session::Stop` records, session.cc:86-91. -/
def Session.ended (x : Session) : Event := ⟨x.num, .ended, x.bytes, x.chunks⟩

/-- `Session::OnContentSent`, session.cc:107-111.  Simplified: the amounts are numbers below 2^64, no overflow. -/
def Session.sent (x : Session) (b c : Nat) : Session := { x with bytes := x.bytes + b, chunks := x.chunks + c }

/-- `RecordHeartBeatIfChanged`, session.cc:113-124: the event, if any. -/
def Session.beat (x : Session) : List Event :=
  if x.bytes = x.lastBytes ∧ x.chunks = x.lastChunks then [] else [⟨x.num, .beat, x.bytes, x.chunks⟩]

/-- The session after `RecordHeartBeatIfChanged`. -/
def Session.beaten (x : Session) : Session := { x with lastBytes := x.bytes, lastChunks := x.chunks }

/-- One operation; `n` operations came before.  `StartSession` multi_session.cc:490-523 (content sent meanwhile is dropped, 666-677: the instance id is
still empty); a `Session` that is not kept is destroyed, and its destructor stops it, session.cc:63-69.  `StopSession` 525-539: after a successful `Stop` the
session is erased, and the destructor stops it again.  `OnContentSent` 678-684.  The watcher 687-700. -/
def step (n : Nat) (s : State) : Op → State
  | .start i out _ =>
    match s.sessions.find? (·.id = i) with
    | some _ => s
    | none =>
      match out with
      | .refused => s
      | .fails => { s with log := s.log ++ [Session.ended { id := i, num := n }] }
      | .ok => { s with sessions := { id := i, num := n } :: s.sessions }
  | .stop i ok =>
    match s.sessions.find? (·.id = i) with
    | none => s
    | some x =>
      if ok then { sessions := s.sessions.filter (·.id ≠ i), log := s.log ++ [x.ended, x.ended] }
      else { s with log := s.log ++ [x.ended] }
  | .sent i b c => { s with sessions := s.sessions.map fun x => if x.id = i then x.sent b c else x }
  | .beat => { sessions := s.sessions.map Session.beaten, log := s.log ++ s.sessions.flatMap Session.beat }

/-- The multi-session after some operations, newest first. -/
def after : List Op → State
  | [] => {}
  | op :: h => step h.length (after h) op

/-! ## Specification -/

/-- Which session runs for an instance. -/
def running : List Op → Id → Option Nat
  | [], _ => none
  | .start j .ok _ :: h, i => if j = i ∧ running h i = none then some h.length else running h i
  | .stop j true :: h, i => if j = i then none else running h i
  | _ :: h, i => running h i

/-- The bytes and chunks sent to the instance of session `k` while it was running. -/
def sentWhile : List Op → Nat → Nat × Nat
  | [], _ => (0, 0)
  | .sent i b c :: h, k => if running h i = some k then ((sentWhile h k).1 + b, (sentWhile h k).2 + c) else sentWhile h k
  | _ :: h, k => sentWhile h k

/-- The bytes sent to the instance of session `k` while the session was being started. -/
def sentBefore : List Op → Nat → Nat
  | [], _ => 0
  | .start i .ok early :: h, k => if h.length = k ∧ running h i = none then (early.map (·.1)).sum else sentBefore h k
  | _ :: h, k => sentBefore h k

/-- An event tells what had been sent when the operation that recorded it happened, `h` being what had happened before it. -/
def Told (h : List Op) (e : Event) : Prop := (e.bytes, e.chunks) = sentWhile h e.num

/-- What an event was recorded for, `op` having been the operation and `h` what had happened before: a heartbeat of a running session at a beat, the end
of a running session when it was to be stopped, the end of a session that could not be started. -/
def Cause (op : Op) (h : List Op) (e : Event) : Prop :=
  (op = .beat ∧ e.kind = .beat ∧ ∃ i, running h i = some e.num) ∨
  (∃ i ok, op = .stop i ok ∧ e.kind = .ended ∧ running h i = some e.num) ∨
  (∃ i early, op = .start i .fails early ∧ e.kind = .ended ∧ running h i = none ∧ e.num = h.length)

/-! ## Proof -/

theorem running_lt {h : List Op} {i : Id} {k : Nat} (hr : running h i = some k) : k < h.length := by
  induction h with
  | nil => exact nomatch hr
  | cons op h ih =>
    have hx : running h i = some k → k < (op :: h).length := fun hr => Nat.lt_succ_of_lt (ih hr)
    rcases op with ⟨j, _ | _ | _, e⟩ | ⟨j, _ | _⟩ | ⟨j, b, c⟩ | _ <;> simp only [running] at hr <;> try exact hx hr
    · split at hr
      · injection hr with hr; subst hr; exact Nat.lt_succ_self _
      · exact hx hr
    · split at hr
      · exact nomatch hr
      · exact hx hr

theorem sentWhile_new {h : List Op} {k : Nat} (hk : h.length ≤ k) : sentWhile h k = (0, 0) := by
  induction h with
  | nil => rfl
  | cons op h ih =>
    have hk' : h.length ≤ k := Nat.le_of_succ_le hk
    rcases op with ⟨j, o, e⟩ | ⟨j, o⟩ | ⟨j, b, c⟩ | _ <;> simp only [sentWhile] <;> try exact ih hk'
    split
    · next hr => exact absurd (running_lt hr) (by omega)
    · exact ih hk'

theorem sentWhile_mono (op : Op) (h : List Op) (k : Nat) :
    (sentWhile h k).1 ≤ (sentWhile (op :: h) k).1 ∧ (sentWhile h k).2 ≤ (sentWhile (op :: h) k).2 := by
  rcases op with ⟨j, o, e⟩ | ⟨j, o⟩ | ⟨j, b, c⟩ | _ <;> simp only [sentWhile] <;> try exact ⟨Nat.le_refl _, Nat.le_refl _⟩
  split
  · exact ⟨Nat.le_add_right _ _, Nat.le_add_right _ _⟩
  · exact ⟨Nat.le_refl _, Nat.le_refl _⟩

/-- A running session was started by the operation it is numbered after. -/
theorem running_started {h : List Op} {i : Id} {k : Nat} (hr : running h i = some k) : ∃ early, h.reverse[k]? = some (.start i .ok early) := by
  induction h with
  | nil => exact nomatch hr
  | cons op h ih =>
    have hx : running h i = some k → ∃ early, (op :: h).reverse[k]? = some (.start i .ok early) := fun hr => by
      obtain ⟨e, he⟩ := ih hr
      refine ⟨e, ?_⟩
      rw [List.reverse_cons, List.getElem?_append_left (by simpa using running_lt hr)]; exact he
    rcases op with ⟨j, _ | _ | _, e⟩ | ⟨j, _ | _⟩ | ⟨j, b, c⟩ | _ <;> simp only [running] at hr <;> try exact hx hr
    · split at hr
      · next hj =>
        injection hr with hr; subst hr
        refine ⟨e, ?_⟩
        rw [hj.1]; simp
      · exact hx hr
    · split at hr
      · exact nomatch hr
      · exact hx hr

/-- A number belongs to one instance. -/
theorem running_inj {h a b : List Op} {op : Op} (hh : h = a ++ op :: b) {i j : Id} {k : Nat} (hb : running b j = some k) (ha : running h i = some k) :
    j = i := by
  obtain ⟨e, h1⟩ := running_started hb
  obtain ⟨f, h2⟩ := running_started ha
  have hlt := running_lt hb
  rw [hh, show a ++ op :: b = (a ++ [op]) ++ b by simp, List.reverse_append, List.getElem?_append_left (by simpa using hlt), h1] at h2
  injection h2 with h2
  injection h2

/-- Two heartbeats of one session. -/
def Later (e f : Event) : Prop :=
  e.num = f.num → e.kind = .beat → f.kind = .beat → e.bytes ≤ f.bytes ∧ e.chunks ≤ f.chunks ∧ ¬ (e.bytes = f.bytes ∧ e.chunks = f.chunks)

/-- What holds after every history. -/
structure Inv (h : List Op) (s : State) : Prop where
  run : ∀ x ∈ s.sessions, running h x.id = some x.num
  all : ∀ i k, running h i = some k → ∃ x ∈ s.sessions, x.id = i ∧ x.num = k
  apart : s.sessions.Pairwise fun x y => x.num ≠ y.num
  amount : ∀ x ∈ s.sessions, (x.bytes, x.chunks) = sentWhile h x.num
  last : ∀ x ∈ s.sessions, x.lastBytes ≤ x.bytes ∧ x.lastChunks ≤ x.chunks
  told : ∀ x ∈ s.sessions, (x.lastBytes = 0 ∧ x.lastChunks = 0) ∨ (⟨x.num, .beat, x.lastBytes, x.lastChunks⟩ : Event) ∈ s.log
  bound : ∀ x ∈ s.sessions, ∀ e ∈ s.log, e.num = x.num → e.kind = .beat → e.bytes ≤ x.lastBytes ∧ e.chunks ≤ x.lastChunks
  old : ∀ e ∈ s.log, e.num < h.length
  later : s.log.Pairwise Later

theorem find_some {s : List Session} {i : Id} {x : Session} (h : s.find? (·.id = i) = some x) : x ∈ s ∧ x.id = i :=
  ⟨List.mem_of_find?_eq_some h, by simpa using List.find?_some h⟩

theorem find_none {h : List Op} {s : State} (hi : Inv h s) {i : Id} (hf : s.sessions.find? (·.id = i) = none) : running h i = none := by
  cases hr : running h i with
  | none => rfl
  | some k =>
    obtain ⟨x, hx, hxi, _⟩ := hi.all i k hr
    exact absurd (List.find?_eq_none.mp hf x hx) (by simp [hxi])

theorem num_inj {l : List Session} (hl : l.Pairwise fun x y => x.num ≠ y.num) {x y : Session} (hx : x ∈ l) (hy : y ∈ l) (h : x.num = y.num) : x = y := by
  induction l with
  | nil => exact nomatch hx
  | cons a l ih =>
    obtain ⟨h1, h2⟩ := List.pairwise_cons.mp hl
    rcases List.mem_cons.mp hx with rfl | hx <;> rcases List.mem_cons.mp hy with rfl | hy
    · rfl
    · exact absurd h (h1 y hy)
    · exact absurd h.symm (h1 x (by assumption))
    · exact ih h2 hx hy

theorem later_end {l : List Event} (hl : l.Pairwise Later) {m : List Event} (hm : ∀ e ∈ m, e.kind = .ended) : (l ++ m).Pairwise Later := by
  refine List.pairwise_append.mpr ⟨hl, ?_, fun e _ f hf _ _ hk => ?_⟩
  · refine List.Pairwise.imp_of_mem ?_ (List.pairwise_of_forall (R := fun _ _ => True) (fun _ _ => trivial))
    intro e f _ hf _ _ _ hk
    rw [hm f hf] at hk; exact nomatch hk
  · rw [hm f hf] at hk; exact nomatch hk

theorem inv (h : List Op) : Inv h (after h) := by
  induction h with
  | nil => constructor <;> simp [after, running]
  | cons op h ih =>
    generalize hs : after h = s at ih
    show Inv (op :: h) (step h.length (after h) op)
    rw [hs]
    have old : ∀ e ∈ s.log, e.num < (op :: h).length := fun e he => Nat.lt_succ_of_lt (ih.old e he)
    -- nothing changes
    have same : (∀ i, running (op :: h) i = running h i) → (∀ k, sentWhile (op :: h) k = sentWhile h k) → Inv (op :: h) s := fun h1 h2 =>
      ⟨fun x hx => by rw [h1]; exact ih.run x hx, fun i k hr => ih.all i k (by rw [← h1]; exact hr), ih.apart,
        fun x hx => by rw [h2]; exact ih.amount x hx, ih.last, ih.told, ih.bound, old, ih.later⟩
    -- only end events are added
    have ends : ∀ m : List Event, (∀ e ∈ m, e.kind = .ended ∧ e.num < (op :: h).length) → (∀ i, running (op :: h) i = running h i) →
        (∀ k, sentWhile (op :: h) k = sentWhile h k) → Inv (op :: h) { s with log := s.log ++ m } := fun m hm h1 h2 =>
      ⟨fun x hx => by rw [h1]; exact ih.run x hx, fun i k hr => ih.all i k (by rw [← h1]; exact hr), ih.apart,
        fun x hx => by rw [h2]; exact ih.amount x hx, ih.last,
        fun x hx => (ih.told x hx).imp id (List.mem_append_left _),
        fun x hx e he h3 h4 => by
          rcases List.mem_append.mp he with he | he
          · exact ih.bound x hx e he h3 h4
          · rw [(hm e he).1] at h4; exact (nomatch h4),
        fun e he => by
          rcases List.mem_append.mp he with he | he
          · exact old e he
          · exact (hm e he).2,
        later_end ih.later fun e he => (hm e he).1⟩
    cases op with
    | start i out early =>
      simp only [step]
      cases hf : s.sessions.find? (·.id = i) with
      | some x =>
        obtain ⟨hx, hxi⟩ := find_some hf
        refine same (fun j => ?_) (fun k => rfl)
        cases out with
        | ok =>
          simp only [running]
          rw [if_neg]
          rintro ⟨rfl, hr⟩
          have := ih.run x hx
          rw [hxi, hr] at this; exact nomatch this
        | refused => rfl
        | fails => rfl
      | none =>
        have hr := find_none ih hf
        cases out with
        | refused => exact same (fun _ => rfl) (fun _ => rfl)
        | fails =>
          refine ends _ (fun e he => ?_) (fun _ => rfl) (fun _ => rfl)
          rw [List.mem_singleton.mp he]
          exact ⟨rfl, Nat.lt_succ_self _⟩
        | ok =>
          have hlt : ∀ x ∈ s.sessions, x.num < h.length := fun x hx => running_lt (ih.run x hx)
          have hne : ∀ x ∈ s.sessions, x.id ≠ i := fun x hx he => by
            have := ih.run x hx
            rw [he, hr] at this; exact nomatch this
          refine ⟨fun x hx => ?_, fun j k hk => ?_, ?_, fun x hx => ?_, fun x hx => ?_, fun x hx => ?_, fun x hx e he h3 h4 => ?_, old, ih.later⟩
          · rcases List.mem_cons.mp hx with rfl | hx
            · simp [running, hr]
            · simp only [running]; rw [if_neg (fun h => hne x hx h.1.symm)]; exact ih.run x hx
          · simp only [running] at hk
            split at hk
            · next he =>
              injection hk with hk
              exact ⟨_, List.mem_cons_self .., he.1, hk⟩
            · obtain ⟨x, hx, h1⟩ := ih.all j k hk
              exact ⟨x, List.mem_cons_of_mem _ hx, h1⟩
          · exact List.pairwise_cons.mpr ⟨fun x hx => Nat.ne_of_gt (hlt x hx), ih.apart⟩
          · rcases List.mem_cons.mp hx with rfl | hx
            · show (0, 0) = sentWhile h h.length
              exact (sentWhile_new (Nat.le_refl _)).symm
            · exact ih.amount x hx
          · rcases List.mem_cons.mp hx with rfl | hx
            · exact ⟨Nat.le_refl _, Nat.le_refl _⟩
            · exact ih.last x hx
          · rcases List.mem_cons.mp hx with rfl | hx
            · exact .inl ⟨rfl, rfl⟩
            · exact ih.told x hx
          · rcases List.mem_cons.mp hx with rfl | hx
            · have := ih.old e he
              rw [h3] at this
              exact absurd this (Nat.lt_irrefl _)
            · exact ih.bound x hx e he h3 h4
    | stop i ok =>
      simp only [step]
      cases hf : s.sessions.find? (·.id = i) with
      | none =>
        have hr := find_none ih hf
        refine same (fun j => ?_) (fun k => rfl)
        cases ok with
        | false => rfl
        | true =>
          simp only [running]
          split
          · next he => rw [← he, hr]
          · rfl
      | some x =>
        obtain ⟨hx, hxi⟩ := find_some hf
        have hn : x.num < (Op.stop i ok :: h).length := Nat.lt_succ_of_lt (running_lt (ih.run x hx))
        cases ok with
        | false =>
          refine ends _ (fun e he => ?_) (fun _ => rfl) (fun _ => rfl)
          rw [List.mem_singleton.mp he]
          exact ⟨rfl, hn⟩
        | true =>
          have hi := ends [x.ended, x.ended] (fun e he => by
            have : e = x.ended := by simpa using he
            rw [this]; exact ⟨rfl, hn⟩)
          have hmem : ∀ y ∈ s.sessions.filter (·.id ≠ i), y ∈ s.sessions ∧ y.id ≠ i := fun y hy => by simpa using hy
          refine ⟨fun y hy => ?_, fun j k hk => ?_, ih.apart.filter _, fun y hy => ih.amount y (hmem y hy).1, fun y hy => ih.last y (hmem y hy).1,
            fun y hy => (ih.told y (hmem y hy).1).imp id (List.mem_append_left _), fun y hy e he h3 h4 => ?_, fun e he => ?_, ?_⟩
          · simp only [running]; rw [if_neg (fun h => (hmem y hy).2 h.symm)]; exact ih.run y (hmem y hy).1
          · simp only [running] at hk
            split at hk
            · exact nomatch hk
            · next hne =>
              obtain ⟨y, hy, h1, h2⟩ := ih.all j k hk
              exact ⟨y, by simp [hy, h1, Ne.symm hne], h1, h2⟩
          · rcases List.mem_append.mp he with he | he
            · exact ih.bound y (hmem y hy).1 e he h3 h4
            · have : e = x.ended := by simpa using he
              rw [this] at h4; exact nomatch h4
          · rcases List.mem_append.mp he with he | he
            · exact old e he
            · have : e = x.ended := by simpa using he
              rw [this]; exact hn
          · refine later_end ih.later fun e he => ?_
            have : e = x.ended := by simpa using he
            rw [this]; rfl
    | sent i b c =>
      simp only [step]
      have hid : ∀ x : Session, (if x.id = i then x.sent b c else x).id = x.id := fun x => by split <;> rfl
      have hnum : ∀ x : Session, (if x.id = i then x.sent b c else x).num = x.num := fun x => by split <;> rfl
      have hlb : ∀ x : Session, (if x.id = i then x.sent b c else x).lastBytes = x.lastBytes := fun x => by split <;> rfl
      have hlc : ∀ x : Session, (if x.id = i then x.sent b c else x).lastChunks = x.lastChunks := fun x => by split <;> rfl
      have hrun : ∀ j, running (.sent i b c :: h) j = running h j := fun _ => rfl
      -- a session for `i` is the only one whose number is the one running for `i`
      have uniq : ∀ x ∈ s.sessions, running h i = some x.num → x.id = i := fun x hx hr => by
        obtain ⟨y, hy, h1, h2⟩ := ih.all i x.num hr
        have : x = y := by
          by_cases hxy : x = y
          · exact hxy
          · exfalso
            have hp := ih.apart
            exact hxy (num_inj hp hx hy h2.symm)
        rw [this]; exact h1
      refine ⟨fun y hy => ?_, fun j k hk => ?_, ?_, fun y hy => ?_, fun y hy => ?_, fun y hy => ?_, fun y hy e he h3 h4 => ?_, old, ih.later⟩
      · obtain ⟨x, hx, rfl⟩ := List.mem_map.mp hy
        rw [hid, hnum]; exact ih.run x hx
      · obtain ⟨x, hx, h1, h2⟩ := ih.all j k hk
        exact ⟨_, List.mem_map_of_mem hx, by rw [hid]; exact h1, by rw [hnum]; exact h2⟩
      · exact List.pairwise_map.mpr (ih.apart.imp fun h => by rw [hnum, hnum]; exact h)
      · obtain ⟨x, hx, rfl⟩ := List.mem_map.mp hy
        rw [hnum]
        simp only [sentWhile]
        have := ih.amount x hx
        by_cases hxi : x.id = i
        · rw [if_pos hxi, if_pos (by rw [← hxi]; exact ih.run x hx), ← this]; rfl
        · rw [if_neg hxi, if_neg (fun hr => hxi (uniq x hx hr))]; exact this
      · obtain ⟨x, hx, rfl⟩ := List.mem_map.mp hy
        rw [hlb, hlc]
        have := ih.last x hx
        split
        · exact ⟨Nat.le_trans this.1 (Nat.le_add_right _ _), Nat.le_trans this.2 (Nat.le_add_right _ _)⟩
        · exact this
      · obtain ⟨x, hx, rfl⟩ := List.mem_map.mp hy
        rw [hlb, hlc, hnum]; exact ih.told x hx
      · obtain ⟨x, hx, rfl⟩ := List.mem_map.mp hy
        rw [hnum] at h3
        rw [hlb, hlc]; exact ih.bound x hx e he h3 h4
    | beat =>
      simp only [step]
      have hbeat : ∀ x ∈ s.sessions, ∀ e ∈ x.beat, e = ⟨x.num, .beat, x.bytes, x.chunks⟩ ∧ ¬ (x.bytes = x.lastBytes ∧ x.chunks = x.lastChunks) :=
        fun x _ e he => by
          unfold Session.beat at he
          split at he
          · exact nomatch he
          · next hn => exact ⟨List.mem_singleton.mp he, hn⟩
      refine ⟨fun y hy => ?_, fun j k hk => ?_, ?_, fun y hy => ?_, fun y hy => ?_, fun y hy => ?_, fun y hy e he h3 h4 => ?_, fun e he => ?_, ?_⟩
      · obtain ⟨x, hx, rfl⟩ := List.mem_map.mp hy
        exact ih.run x hx
      · obtain ⟨x, hx, h1, h2⟩ := ih.all j k hk
        exact ⟨_, List.mem_map_of_mem hx, h1, h2⟩
      · exact List.pairwise_map.mpr ih.apart
      · obtain ⟨x, hx, rfl⟩ := List.mem_map.mp hy
        exact ih.amount x hx
      · obtain ⟨x, hx, rfl⟩ := List.mem_map.mp hy
        exact ⟨Nat.le_refl _, Nat.le_refl _⟩
      · obtain ⟨x, hx, rfl⟩ := List.mem_map.mp hy
        show (x.bytes = 0 ∧ x.chunks = 0) ∨ _
        by_cases hn : x.bytes = x.lastBytes ∧ x.chunks = x.lastChunks
        · rcases ih.told x hx with h0 | h0
          · left; omega
          · right
            refine List.mem_append_left _ ?_
            show (⟨x.num, .beat, x.bytes, x.chunks⟩ : Event) ∈ _
            rw [hn.1, hn.2]; exact h0
        · right
          refine List.mem_append_right _ (List.mem_flatMap.mpr ⟨x, hx, ?_⟩)
          unfold Session.beat
          rw [if_neg hn]
          exact List.mem_singleton.mpr rfl
      · obtain ⟨x, hx, rfl⟩ := List.mem_map.mp hy
        show e.bytes ≤ x.bytes ∧ e.chunks ≤ x.chunks
        have h3 : e.num = x.num := h3
        rcases List.mem_append.mp he with he | he
        · have h1 := ih.bound x hx e he h3 h4
          have h2 := ih.last x hx
          omega
        · obtain ⟨y, hy, he⟩ := List.mem_flatMap.mp he
          obtain ⟨he, _⟩ := hbeat y hy e he
          have hyx : y.num = x.num := by rw [← h3, he]
          have h1 := ih.amount x hx
          have h2 := ih.amount y hy
          rw [hyx, ← h1] at h2
          have h2 := Prod.mk.inj h2
          rw [he]
          exact ⟨Nat.le_of_eq h2.1, Nat.le_of_eq h2.2⟩
      · rcases List.mem_append.mp he with he | he
        · exact old e he
        · obtain ⟨y, hy, he⟩ := List.mem_flatMap.mp he
          obtain ⟨he, _⟩ := hbeat y hy e he
          rw [he]; exact Nat.lt_succ_of_lt (running_lt (ih.run y hy))
      · refine List.pairwise_append.mpr ⟨ih.later, ?_, fun e he f hf h1 h2 h3 => ?_⟩
        · refine List.pairwise_flatMap.mpr ⟨fun x _ => ?_, ih.apart.imp_of_mem fun hx hy hne e he f hf h1 => ?_⟩
          · unfold Session.beat; split <;> simp
          · rw [(hbeat _ hx e he).1, (hbeat _ hy f hf).1] at h1
            exact absurd h1 hne
        · obtain ⟨y, hy, hf⟩ := List.mem_flatMap.mp hf
          obtain ⟨hf, hn⟩ := hbeat y hy f hf
          have hb := ih.bound y hy e he (by rw [h1, hf]) h2
          have hl := ih.last y hy
          rw [hf]
          show e.bytes ≤ y.bytes ∧ e.chunks ≤ y.chunks ∧ ¬ (e.bytes = y.bytes ∧ e.chunks = y.chunks)
          omega

theorem mem_after {h : List Op} {e : Event} (he : e ∈ (after h).log) : ∃ a op b, h = a ++ op :: b ∧ Told b e ∧
    Cause op b e := by
  induction h with
  | nil => exact nomatch he
  | cons op h ih =>
    have hi := inv h
    have old : e ∈ (after h).log → ∃ a o b, op :: h = a ++ o :: b ∧ Told b e ∧ Cause o b e := fun he => by
      obtain ⟨a, o, b, hh, hr⟩ := ih he
      exact ⟨op :: a, o, b, by rw [hh]; rfl, hr⟩
    have he : e ∈ (step h.length (after h) op).log := he
    cases op with
    | start i out early =>
      simp only [step] at he
      cases hf : (after h).sessions.find? (·.id = i) with
      | some x => rw [hf] at he; exact old he
      | none =>
        rw [hf] at he
        cases out with
        | refused => exact old he
        | ok => exact old he
        | fails =>
          rcases List.mem_append.mp he with he | he
          · exact old he
          · have he := List.mem_singleton.mp he
            subst he
            refine ⟨[], _, h, rfl, ?_, .inr (.inr ⟨i, early, rfl, rfl, find_none hi hf, rfl⟩)⟩
            exact (sentWhile_new (Nat.le_refl _)).symm
    | stop i ok =>
      simp only [step] at he
      cases hf : (after h).sessions.find? (·.id = i) with
      | none => rw [hf] at he; exact old he
      | some x =>
        rw [hf] at he
        obtain ⟨hx, hxi⟩ := find_some hf
        have new : e = x.ended → ∃ a o b, .stop i ok :: h = a ++ o :: b ∧ Told b e ∧ Cause o b e := fun he => by
          subst he
          exact ⟨[], .stop i ok, h, rfl, hi.amount x hx, .inr (.inl ⟨i, ok, rfl, rfl, by rw [← hxi]; exact hi.run x hx⟩)⟩
        cases ok with
        | false =>
          rcases List.mem_append.mp he with he | he
          · exact old he
          · exact new (List.mem_singleton.mp he)
        | true =>
          rcases List.mem_append.mp he with he | he
          · exact old he
          · exact new (by simpa using he)
    | sent i b c => exact old he
    | beat =>
      rcases List.mem_append.mp he with he | he
      · exact old he
      · obtain ⟨x, hx, he⟩ := List.mem_flatMap.mp he
        unfold Session.beat at he
        split at he
        · exact nomatch he
        · have he := List.mem_singleton.mp he
          subst he
          exact ⟨[], .beat, h, rfl, hi.amount x hx, .inl ⟨rfl, rfl, x.id, hi.run x hx⟩⟩

/-! ## C198 -/

/-- **C198**, the part that holds.  Every event about a session gives the bytes and chunks that had been sent to its instance since the session had started:
a heartbeat those at a beat at which the session was running, an end those when it was to be stopped, or none if it could not be started.  Later
heartbeats of a session give more than earlier ones.  And whatever was sent to a running session has been told after the next beat.
Missing: what was sent while the session was being started. -/
theorem C198_reported_partial (h : List Op) :
    (∀ e ∈ (after h).log, ∃ a op b, h = a ++ op :: b ∧ Told b e ∧ Cause op b e) ∧
    (after h).log.Pairwise Later ∧
    (∀ i k, running h i = some k → sentWhile h k ≠ (0, 0) →
      (⟨k, .beat, (sentWhile h k).1, (sentWhile h k).2⟩ : Event) ∈ (after (.beat :: h)).log) := by
  refine ⟨fun e he => mem_after he, (inv h).later, fun i k hr hn => ?_⟩
  obtain ⟨x, hx, _, hk⟩ := (inv (.beat :: h)).all i k hr
  have ha := (inv (.beat :: h)).amount x hx
  obtain ⟨y, hy, hyx⟩ := List.mem_map.mp hx
  have hl : (x.lastBytes, x.lastChunks) = (x.bytes, x.chunks) := by rw [← hyx]; rfl
  have ha : (x.bytes, x.chunks) = sentWhile h k := by rw [← hk]; exact ha
  rcases (inv (.beat :: h)).told x hx with h0 | h0
  · exact absurd (by rw [← ha, ← hl, h0.1, h0.2]) hn
  · have h1 := Prod.mk.inj hl
    rw [h1.1, h1.2, hk] at h0
    rw [← ha]; exact h0

theorem sentBefore_keep {b : List Op} {k : Nat} (hk : k < b.length) (a : List Op) : sentBefore (a ++ b) k = sentBefore b k := by
  induction a with
  | nil => rfl
  | cons op a ih =>
    have hne : (a ++ b).length ≠ k := by rw [List.length_append]; omega
    rcases op with ⟨j, _ | _ | _, e⟩ | ⟨j, o⟩ | ⟨j, y, c⟩ | _ <;> simp only [List.cons_append, sentBefore] <;> try exact ih
    rw [if_neg (fun h => hne h.1)]; exact ih

theorem sentBefore_new {b : List Op} {k : Nat} (hk : b.length ≤ k) : sentBefore b k = 0 := by
  induction b with
  | nil => rfl
  | cons op b ih =>
    have hk' : b.length < k := hk
    rcases op with ⟨j, _ | _ | _, e⟩ | ⟨j, o⟩ | ⟨j, y, c⟩ | _ <;> simp only [sentBefore] <;> try exact ih (Nat.le_of_lt hk')
    rw [if_neg (fun h => by omega)]; exact ih (Nat.le_of_lt hk')

/-- **C198** is false of the code: if anything was sent to the instance before its session had started (it loads the manifest before it acknowledges it),
no event about the session, whenever it is recorded, gives the amount that had been sent. -/
theorem C198_early_violated {h : List Op} {k : Nat} (hk : 0 < sentBefore h k) :
    ∀ e ∈ (after h).log, e.num = k → ∃ a op b, h = a ++ op :: b ∧ e.bytes < (sentWhile b k).1 + sentBefore b k := by
  intro e he hek
  obtain ⟨a, op, b, hh, ht, hc⟩ := mem_after he
  refine ⟨a, op, b, hh, ?_⟩
  have hb : e.bytes = (sentWhile b k).1 := by rw [← hek, ← ht]
  have hlt : e.num < b.length → 0 < sentBefore b k := fun hlt => by
    rw [hh, show a ++ op :: b = (a ++ [op]) ++ b by simp, sentBefore_keep (by rw [← hek]; exact hlt)] at hk
    exact hk
  rcases hc with ⟨_, _, i, hr⟩ | ⟨i, ok, _, _, hr⟩ | ⟨i, early, ho, _, _, hn⟩
  · have := hlt (running_lt hr); omega
  · have := hlt (running_lt hr); omega
  · exfalso
    rw [hh, ho, sentBefore_keep (by rw [← hek, hn]; exact Nat.lt_succ_self _)] at hk
    simp only [sentBefore] at hk
    rw [sentBefore_new (by omega)] at hk
    exact absurd hk (Nat.lt_irrefl _)

/-! ## C199 -/

/-- **C199**, the part that holds: when a session is stopped or could not be started, its end is recorded; and it is not recorded while the session runs and
nobody has tried to stop it. -/
theorem C199_end_recorded_partial (h : List Op) (i : Id) :
    (∀ k ok, running h i = some k → ⟨k, .ended, (sentWhile h k).1, (sentWhile h k).2⟩ ∈ (after (.stop i ok :: h)).log) ∧
    (∀ early, running h i = none → ⟨h.length, .ended, 0, 0⟩ ∈ (after (.start i .fails early :: h)).log) ∧
    (∀ k, running h i = some k → (∀ ok, .stop i ok ∉ h.take (h.length - k)) → ∀ e ∈ (after h).log, e.num = k → e.kind = .beat) := by
  have hi := inv h
  refine ⟨fun k ok hr => ?_, fun early hr => ?_, fun k hr hno e he hek => ?_⟩
  · obtain ⟨x, hx, hxi, hk⟩ := hi.all i k hr
    show _ ∈ (step h.length (after h) (.stop i ok)).log
    simp only [step]
    cases hf : (after h).sessions.find? (·.id = i) with
    | none => exact absurd (List.find?_eq_none.mp hf x hx) (by simp [hxi])
    | some y =>
      obtain ⟨hy, hyi⟩ := find_some hf
      have hyk : y.num = k := by
        have := hi.run y hy
        rw [hyi, hr] at this; injection this with this; exact this.symm
      have : y.ended = ⟨k, .ended, (sentWhile h k).1, (sentWhile h k).2⟩ := by
        have ha := hi.amount y hy
        rw [hyk] at ha
        rw [← ha, ← hyk]; rfl
      cases ok with
      | true => exact List.mem_append_right _ (by rw [this]; exact List.mem_cons_self ..)
      | false => exact List.mem_append_right _ (by rw [this]; exact List.mem_cons_self ..)
  · show _ ∈ (step h.length (after h) (.start i .fails early)).log
    simp only [step]
    cases hf : (after h).sessions.find? (·.id = i) with
    | some x =>
      obtain ⟨hx, hxi⟩ := find_some hf
      have := hi.run x hx
      rw [hxi, hr] at this; exact nomatch this
    | none => exact List.mem_append_right _ (List.mem_cons_self ..)
  · obtain ⟨a, op, b, hh, _, hc⟩ := mem_after he
    rcases hc with ⟨_, h1, _⟩ | ⟨j, ok, ho, _, hr'⟩ | ⟨j, early, ho, _, _, hn⟩
    · exact h1
    · exfalso
      rw [hek] at hr'
      have hkb := running_lt hr'
      have hji : j = i := running_inj hh hr' hr
      refine hno ok ?_
      rw [hh, ho, hji]
      refine List.mem_take_iff_getElem.mpr ⟨a.length, ?_, ?_⟩
      · simp only [List.length_append, List.length_cons]; omega
      · simp
    · exfalso
      rw [hek] at hn
      have := running_started hr
      rw [hh, ho] at this
      have h2 : (a ++ Op.start j .fails early :: b).reverse[k]? = some (.start j .fails early) := by
        rw [hn]; simp
      obtain ⟨l, this⟩ := this
      rw [this] at h2; exact nomatch h2

/-- **C199** is false of the code: the end of every session that is stopped is recorded at least twice, also if the first attempt succeeds. -/
theorem C199_twice_violated (h : List Op) {i : Id} {k : Nat} (hr : running h i = some k) :
    (after (.stop i true :: h)).log = (after h).log ++
      [⟨k, .ended, (sentWhile h k).1, (sentWhile h k).2⟩, ⟨k, .ended, (sentWhile h k).1, (sentWhile h k).2⟩] := by
  have hi := inv h
  obtain ⟨x, hx, hxi, hk⟩ := hi.all i k hr
  show (step h.length (after h) (.stop i true)).log = _
  simp only [step]
  cases hf : (after h).sessions.find? (·.id = i) with
  | none => exact absurd (List.find?_eq_none.mp hf x hx) (by simp [hxi])
  | some y =>
    obtain ⟨hy, hyi⟩ := find_some hf
    have hyk : y.num = k := by
      have := hi.run y hy
      rw [hyi, hr] at this; injection this with this; exact this.symm
    have : y.ended = ⟨k, .ended, (sentWhile h k).1, (sentWhile h k).2⟩ := by
      have ha := hi.amount y hy
      rw [hyk] at ha
      rw [← ha, ← hyk]; rfl
    simp [this]

/-! ## Examples -/

/-- A session of instance 7 to which 10 bytes are sent while it is started and 100 and 50 while it runs, with beats between. -/
def day : List Op := [.beat, .sent 7 50 1, .beat, .beat, .sent 7 100 2, .start 8 .fails [], .start 7 .ok [(10, 1)]]

example : running day 7 = some 0 ∧ sentWhile day 0 = (150, 3) ∧ sentBefore day 0 = 10 := by decide
example : (after day).log = [⟨1, .ended, 0, 0⟩, ⟨0, .beat, 100, 2⟩, ⟨0, .beat, 150, 3⟩] := by decide
example : (after (.stop 7 true :: day)).log.count ⟨0, .ended, 150, 3⟩ = 2 := by decide
example : running (.start 7 .ok [] :: .stop 7 true :: day) 7 = some 8 ∧ sentWhile (.sent 7 5 1 :: .start 7 .ok [] :: .stop 7 true :: day) 8 = (5, 1) := by decide

/-! ## C200: the end of a multi-session -/

/-- A `MultiSession` with its sessions in the order of the map.  For each session: whether `CdcFuseManager::Stop` (cdc_fuse_manager.cc:238-249) will fail when
it is called next; after it was called it has no processes and cannot fail.  `beats` and `runs`: `heartbeat_watcher_` and the thread of the runner are joinable. -/
structure Multi where
  sessions : List Bool
  beats : Bool
  runs : Bool
  deriving DecidableEq, Repr

/-- The loop over the sessions in `Shutdown`, multi_session.cc:467-472: what is left, and whether it succeeds.  The session that cannot be stopped stays. -/
def stopAll : List Bool → List Bool × Bool
  | [] => ([], true)
  | true :: r => (false :: r, false)
  | false :: r => stopAll r

/-- `MultiSession::Shutdown`, multi_session.cc:458-484; `runner_->Shutdown` 125-143 joins the thread. -/
def shutdown (m : Multi) : Multi × Bool :=
  match stopAll m.sessions with
  | (r, false) => ({ m with sessions := r }, false)
  | (r, true) => ({ sessions := r, beats := false, runs := false }, true)

/-- How a destruction ends. -/
inductive Death
  | gone | terminated
  deriving DecidableEq, Repr

/-- `~MultiSession`, multi_session.cc:420-426: shuts down, then the members are destroyed; `std::terminate` is called if a thread is joinable. -/
def destroy (m : Multi) : Death :=
  if (shutdown m).1.beats ∨ (shutdown m).1.runs then .terminated else .gone

/-- So many calls of `Shutdown`. -/
def shutdowns : Nat → Multi → Multi
  | 0, m => m
  | k + 1, m => shutdowns k (shutdown m).1

theorem stopAll_ok {l : List Bool} (h : l.count true = 0) : stopAll l = ([], true) := by
  induction l with
  | nil => rfl
  | cons a l ih => cases a <;> simp_all [stopAll]

theorem stopAll_bad {l : List Bool} (h : 0 < l.count true) : (stopAll l).2 = false ∧ (stopAll l).1.count true + 1 = l.count true := by
  induction l with
  | nil => exact absurd h (Nat.lt_irrefl _)
  | cons a l ih =>
    cases a with
    | true => simp [stopAll]
    | false => simpa [stopAll] using ih (by simpa using h)

theorem shutdown_bad {m : Multi} (h : 0 < m.sessions.count true) :
    (shutdown m).2 = false ∧ (shutdown m).1.beats = m.beats ∧ (shutdown m).1.runs = m.runs ∧
      (shutdown m).1.sessions.count true + 1 = m.sessions.count true := by
  obtain ⟨h1, h2⟩ := stopAll_bad h
  unfold shutdown
  rcases hs : stopAll m.sessions with ⟨r, b⟩
  rw [hs] at h1 h2
  have h1 : b = false := h1
  subst h1
  exact ⟨rfl, rfl, rfl, h2⟩

theorem shutdown_good {m : Multi} (h : m.sessions.count true = 0) : shutdown m = (⟨[], false, false⟩, true) := by
  unfold shutdown
  rw [stopAll_ok h]

/-- **C200**, the part that holds: if all sessions can be stopped, the shutdown succeeds, no session and no thread is left, and the destructor returns,
however often `Shutdown` was called before. -/
theorem C200_shutdown_partial (m : Multi) (h : true ∉ m.sessions) :
    shutdown m = (⟨[], false, false⟩, true) ∧ ∀ k, destroy (shutdowns k m) = .gone := by
  have hc : m.sessions.count true = 0 := List.count_eq_zero.mpr h
  refine ⟨shutdown_good hc, fun k => ?_⟩
  induction k generalizing m with
  | zero => unfold destroy; rw [show shutdowns 0 m = m from rfl, shutdown_good hc]; rfl
  | succ k ih =>
    show destroy (shutdowns k (shutdown m).1) = _
    rw [shutdown_good hc]
    exact ih _ (by simp) (by simp)

/-- **C200** is false of the code: `Shutdown` gives up at the first session that cannot be stopped, with the threads not joined, and if more sessions cannot be
stopped than `Shutdown` was called for before, the destructor ends the whole program: the streaming from all other directories ends with it. -/
theorem C200_terminates_violated (m : Multi) (hm : m.beats = true) (k : Nat) : destroy (shutdowns k m) = .terminated ↔ k < m.sessions.count true := by
  induction k generalizing m with
  | zero =>
    show destroy m = _ ↔ _
    unfold destroy
    by_cases h : 0 < m.sessions.count true
    · rw [(shutdown_bad h).2.1, hm]
      simp [h]
    · rw [shutdown_good (by omega)]
      simp [h]
  | succ k ih =>
    show destroy (shutdowns k (shutdown m).1) = _ ↔ _
    by_cases h : 0 < m.sessions.count true
    · obtain ⟨_, h1, _, h2⟩ := shutdown_bad h
      rw [ih _ (by rw [h1]; exact hm)]
      omega
    · have hc : m.sessions.count true = 0 := by omega
      have hg := (C200_shutdown_partial m (List.count_eq_zero.mp hc)).2 (k + 1)
      have hg : destroy (shutdowns k (shutdown m).1) = .gone := hg
      rw [hg]
      simp [hc]

/-- One session that cannot be stopped, and no call of `Shutdown` before the destructor. -/
example : destroy ⟨[false, true, false], true, true⟩ = .terminated ∧ shutdown ⟨[false, false], true, true⟩ = (⟨[], false, false⟩, true) := by decide

end Verif.Stream.Usage
