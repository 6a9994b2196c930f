/-!
# Requests that have to wait (C66, C67): cdc_fuse_fs/cdc_fuse_fs.cc

A request for a file or a directory that the manifest marks as "in progress" is put into a queue;
after every manifest update the requests in the queue are processed again.  Requests arrive at any
time, at any of libfuse's worker threads, in particular while an update is going on.
-/

namespace Verif.FuseFs.Queue

abbrev Ino := Nat
abbrev Name := List UInt8
abbrev Worker := Nat

/-- `IsValid()` and `in_progress()` of a node. -/
inductive Status
  | gone | inProgress | ready
  deriving DecidableEq

/-- What the current manifest says: about each node, and which node a name in a directory is. -/
structure Manifest where
  status : Ino → Status
  entry : Ino → Name → Option Ino

/-- The requests that may have to wait.  Open requests that are refused for other reasons (flags,
types) do not wait and are not modelled. -/
inductive Kind
  | open (i : Ino)
  | openDir (i : Ino)
  | lookup (i : Ino) (name : Name)
  deriving DecidableEq

inductive Answer
  | error
  | opened
  | entry (r : Option Ino)
  deriving DecidableEq

def Kind.ino : Kind → Ino
  | .open i => i
  | .openDir i => i
  | .lookup i _ => i

/-- `CdcFuseOpen`, `CdcFuseOpenDir`, `CdcFuseLookup` (cdc_fuse_fs.cc:542-591, 649-673, 465-512).
`none`: the request has to wait. -/
def answer (m : Manifest) (k : Kind) : Option Answer :=
  match m.status k.ino with
  | .gone => some .error
  | .inProgress => none
  | .ready => match k with
    | .lookup i name => some (.entry (m.entry i name))
    | _ => some .opened

/-- `QueuedRequest` (cdc_fuse_fs.cc:130-150).  For a lookup it has a pointer to the name, which is
in the buffer of the worker thread that has received the request. -/
structure Waiting where
  id : Nat
  worker : Worker
  kind : Kind

/-- The request as it is read from the queue. -/
def Waiting.read (buf : Worker → Name) (q : Waiting) : Kind :=
  match q.kind with
  | .lookup i _ => .lookup i (buf q.worker)
  | k => k

/-- Where `SetManifest` (cdc_fuse_fs.cc:1532-1620) is: not running; the manifest has been replaced and
`manifest_mutex` released; the queue has been taken and these requests are still to be processed. -/
inductive Phase
  | idle
  | replaced
  | resuming (l : List Waiting)

/-- The state.  `buf`: the text in each worker's buffer at the place where a lookup has its name.
`asked` and the manifest in `replies` are for the specification only. -/
structure State where
  m : Manifest
  phase : Phase
  queue : List Waiting
  buf : Worker → Name
  asked : List (Nat × Kind)
  replies : List (Nat × Answer × Manifest)

def State.init (m : Manifest) : State := ⟨m, .idle, [], fun _ => [], [], []⟩

/-- Answers a request or puts it into the queue (`QueueOpenRequest` and so on,
cdc_fuse_fs.cc:416-459).  All this is done while the manifest cannot be replaced. -/
def process (q : Waiting) (k : Kind) (s : State) : State :=
  match answer s.m k with
  | none => { s with queue := s.queue ++ [q] }
  | some a => { s with replies := (q.id, a, s.m) :: s.replies }

def Phase.waiting : Phase → List Waiting
  | .resuming l => l
  | _ => []

/-- The requests that have not been answered. -/
def State.open (s : State) : List Waiting := s.queue ++ s.phase.waiting

/-- A worker receives a request. -/
def arrive (w : Worker) (id : Nat) (k : Kind) (raw : Name) (s : State) : State :=
  process ⟨id, w, k⟩ k
    { s with buf := fun v => if v = w then raw else s.buf v, asked := (id, k) :: s.asked }

/-- One iteration of the loop over the requests taken from the queue (cdc_fuse_fs.cc:1588-1606). -/
def resume (q : Waiting) (l : List Waiting) (s : State) : State :=
  process q (q.read s.buf) { s with phase := .resuming l }

/-- What can happen.  `arrive`: a worker receives a request; `raw` is what is in its buffer then at
the place of a name, which for a lookup is the name.  A new manifest comes from one thread, one
after the other (config_stream_client.cc:55-72).  A manifest that cannot be loaded changes nothing.  `quiet`:
only histories in which a worker that has put a request into the queue receives nothing before that
request is answered. -/
inductive Step (quiet : Bool) : State → State → Prop
  | arrive {s} (w : Worker) (id : Nat) (k : Kind) (raw : Name) :
      id ∉ s.asked.map (·.1) → (∀ i name, k = .lookup i name → raw = name) →
      (quiet = true → ∀ q ∈ s.open, q.worker ≠ w) → Step quiet s (arrive w id k raw s)
  | replace {s} (m : Manifest) : s.phase = .idle → Step quiet s { s with m := m, phase := .replaced }
  | take {s} : s.phase = .replaced → Step quiet s { s with phase := .resuming s.queue, queue := [] }
  | resume {s} (q : Waiting) (l : List Waiting) : s.phase = .resuming (q :: l) →
      Step quiet s (resume q l s)
  | finish {s} : s.phase = .resuming [] → Step quiet s { s with phase := .idle }

inductive Reach (quiet : Bool) (m0 : Manifest) : State → Prop
  | init : Reach quiet m0 (.init m0)
  | step {s t} : Reach quiet m0 s → Step quiet s t → Reach quiet m0 t

/-! ## C67: no request is lost -/

structure Inv (s : State) : Prop where
  wait : s.phase ≠ .replaced → ∀ q ∈ s.queue, s.m.status q.kind.ino = .inProgress
  once : (s.asked.map (·.1)).Perm (s.replies.map (·.1) ++ s.open.map (·.id))
  nodup : (s.asked.map (·.1)).Nodup
  kind : ∀ q ∈ s.open, (q.id, q.kind) ∈ s.asked

theorem read_ino (buf : Worker → Name) (q : Waiting) : (q.read buf).ino = q.kind.ino := by
  obtain ⟨_, _, k⟩ := q
  cases k <;> rfl

theorem answer_none {m : Manifest} {k : Kind} : answer m k = none ↔ m.status k.ino = .inProgress := by
  simp only [answer]
  cases m.status k.ino <;> simp
  cases k <;> simp

theorem Inv.init (m : Manifest) : Inv (.init m) :=
  ⟨fun _ q hq => by simp [State.init] at hq, by simp [State.init, State.open, Phase.waiting],
    by simp [State.init], fun q hq => by simp [State.init, State.open, Phase.waiting] at hq⟩

/-- Processing a request that is in no other place. -/
theorem Inv.process {s : State} {q : Waiting} {k : Kind} (hk : k.ino = q.kind.ino)
    (h1 : s.phase ≠ .replaced → ∀ q ∈ s.queue, s.m.status q.kind.ino = .inProgress)
    (h2 : (s.asked.map (·.1)).Perm (q.id :: (s.replies.map (·.1) ++ s.open.map (·.id))))
    (h3 : (s.asked.map (·.1)).Nodup) (h4 : ∀ q ∈ s.open, (q.id, q.kind) ∈ s.asked)
    (h5 : (q.id, q.kind) ∈ s.asked) : Inv (process q k s) := by
  simp only [Queue.process]
  split
  · rename_i h
    rw [answer_none, hk] at h
    refine ⟨fun hp q' hq' => ?_, ?_, h3, fun q' hq' => ?_⟩
    · rcases List.mem_append.mp hq' with h' | h'
      · exact h1 hp q' h'
      · rw [List.mem_singleton.mp h']; exact h
    · refine h2.trans ?_
      simp only [State.open, List.map_append, List.map_cons, List.map_nil]
      refine List.perm_middle.symm.trans ?_
      refine List.Perm.append_left _ ?_
      rw [List.append_assoc]
      exact List.perm_middle.symm
    · simp only [State.open, List.append_assoc, List.mem_append, List.mem_singleton] at hq'
      rcases hq' with h' | rfl | h'
      · exact h4 q' (by simp [State.open, h'])
      · exact h5
      · exact h4 q' (by simp [State.open, h'])
  · exact ⟨h1, h2, h3, h4⟩

theorem Inv.step {quiet : Bool} {s t : State} (h : Inv s) (hs : Step quiet s t) : Inv t := by
  cases hs with
  | arrive w id k raw hid hraw hq =>
    refine Inv.process rfl h.wait ?_ ?_ ?_ (List.mem_cons_self ..)
    · exact h.once.cons id
    · exact List.nodup_cons.mpr ⟨hid, h.nodup⟩
    · exact fun q hq => List.mem_cons_of_mem _ (h.kind q hq)
  | replace m hp =>
    refine ⟨fun h' => absurd rfl h', ?_, h.nodup, ?_⟩
    · have := h.once
      simpa [State.open, hp, Phase.waiting] using this
    · intro q hq
      apply h.kind
      simpa [State.open, hp, Phase.waiting] using hq
  | take hp =>
    refine ⟨fun _ q hq => absurd hq (by simp), ?_, h.nodup, ?_⟩
    · have := h.once
      simpa [State.open, hp, Phase.waiting] using this
    · intro q hq
      apply h.kind
      simpa [State.open, hp, Phase.waiting] using hq
  | resume q l hp =>
    have h0 : s.phase ≠ .replaced := by rw [hp]; intro h'; cases h'
    refine Inv.process (read_ino _ _) (fun _ => h.wait h0) ?_ h.nodup ?_ ?_
    · refine h.once.trans ?_
      simp only [State.open, hp, Phase.waiting, List.map_append, List.map_cons]
      rw [← List.append_assoc, ← List.append_assoc]
      exact List.perm_middle
    · intro q' hq'
      apply h.kind
      simp only [State.open, hp, Phase.waiting, List.mem_append, List.mem_cons] at hq' ⊢
      rcases hq' with h' | h'
      · exact .inl h'
      · exact .inr (.inr h')
    · exact h.kind q (by simp [State.open, hp, Phase.waiting])
  | finish hp =>
    refine ⟨fun _ => h.wait (by rw [hp]; intro h'; cases h'), ?_, h.nodup, ?_⟩
    · have := h.once
      simpa [State.open, hp, Phase.waiting] using this
    · intro q hq
      apply h.kind
      simpa [State.open, hp, Phase.waiting] using hq

theorem Reach.inv {quiet : Bool} {m0 : Manifest} {s : State} (h : Reach quiet m0 s) : Inv s := by
  induction h with
  | init => exact .init m0
  | step _ hs ih => exact ih.step hs

/-- **C67**: whenever no update is going on, every request that has arrived has been answered unless
the current manifest marks what it is for as in progress.  So once an update with a manifest in which
it is complete (or does not exist) is over, the request has been answered, however the arrival of
requests and the update are interleaved. -/
theorem C67_answered {quiet : Bool} {m0 : Manifest} {s : State} (h : Reach quiet m0 s) (hi : s.phase = .idle) {id : Nat}
    {k : Kind} (ha : (id, k) ∈ s.asked) (hk : s.m.status k.ino ≠ .inProgress) :
    id ∈ s.replies.map (·.1) := by
  have hinv := h.inv
  have h1 : id ∈ s.asked.map (·.1) := List.mem_map.mpr ⟨_, ha, rfl⟩
  rcases List.mem_append.mp (hinv.once.mem_iff.mp h1) with h2 | h2
  · exact h2
  · obtain ⟨q, hq, e⟩ := List.mem_map.mp h2
    have hq' : q ∈ s.queue := by
      simpa [State.open, hi, Phase.waiting] using hq
    have h3 := hinv.wait (by rw [hi]; intro h'; cases h') q hq'
    have h4 := hinv.kind q hq
    have h5 : q.kind = k := by
      rw [e] at h4
      have hn := hinv.nodup
      revert hn h4 ha
      generalize s.asked = l
      intro ha h4 hn
      induction l with
      | nil => cases ha
      | cons x r ih =>
        rw [List.map_cons, List.nodup_cons] at hn
        rcases List.mem_cons.mp ha with rfl | ha' <;> rcases List.mem_cons.mp h4 with h5 | h5
        · exact (Prod.mk.inj h5).2
        · exact absurd (List.mem_map.mpr ⟨_, h5, rfl⟩) hn.1
        · subst h5; exact absurd (List.mem_map.mpr ⟨_, ha', rfl⟩) hn.1
        · exact ih ha' h5 hn.2
    rw [h5] at h3
    exact absurd h3 hk

/-- **C67**: no request is answered twice, and what is answered has been asked. -/
theorem C67_once {quiet : Bool} {m0 : Manifest} {s : State} (h : Reach quiet m0 s) :
    (s.replies.map (·.1)).Nodup ∧ ∀ id ∈ s.replies.map (·.1), id ∈ s.asked.map (·.1) := by
  have hinv := h.inv
  have hn := hinv.once.nodup_iff.mp hinv.nodup
  rw [List.nodup_append] at hn
  exact ⟨hn.1, fun id hid => hinv.once.mem_iff.mpr (List.mem_append.mpr (.inl hid))⟩

/-- An update that has begun can be brought to its end without new requests: `resume` and `finish`
are always possible, so the theorem above is not about states that are never reached. -/
theorem C67_update_ends {quiet : Bool} {m0 : Manifest} {s : State} (h : Reach quiet m0 s) :
    ∃ t, Reach quiet m0 t ∧ t.phase = .idle ∧ t.m = s.m ∧ t.asked = s.asked := by
  have key : ∀ (l : List Waiting) (s : State), Reach quiet m0 s → s.phase = .resuming l →
      ∃ t, Reach quiet m0 t ∧ t.phase = .idle ∧ t.m = s.m ∧ t.asked = s.asked := by
    intro l
    induction l with
    | nil => exact fun s h hp => ⟨_, .step h (.finish hp), rfl, rfl, rfl⟩
    | cons q l ih =>
      intro s h hp
      obtain ⟨t, h1, h2, h3, h4⟩ := ih _ (.step h (.resume q l hp)) (by
        simp only [resume, process]; split <;> rfl)
      refine ⟨t, h1, h2, ?_, ?_⟩
      · rw [h3]; simp only [resume, process]; split <;> rfl
      · rw [h4]; simp only [resume, process]; split <;> rfl
  cases hp : s.phase with
  | idle => exact ⟨s, h, hp, rfl, rfl⟩
  | replaced =>
    obtain ⟨t, h1, h2, h3, h4⟩ := key _ _ (.step h (.take hp)) rfl
    exact ⟨t, h1, h2, h3, h4⟩
  | resuming l => exact key l s h hp

/-! ## C66: which name is looked up -/

/-- Every reply is the right answer to the request, according to the manifest at that time. -/
def AllRight (s : State) : Prop :=
  ∀ x ∈ s.replies, ∃ k, (x.1, k) ∈ s.asked ∧ answer x.2.2 k = some x.2.1

/-- Manifests of the example: node 1 is the root, with the directory 16 in it, which is in progress
in the first one and has two files in the second one. -/
def exM1 : Manifest := ⟨fun i => if i = 16 then .inProgress else .ready, fun _ _ => none⟩
def exM2 : Manifest := ⟨fun _ => .ready, fun i a =>
  if i = 16 then (if a = [97] then some 32 else if a = [98] then some 48 else none) else none⟩

/-- A worker receives a lookup of `a` in the directory, which has to wait; then it receives another
request (here a lookup of `b` in the root, which does not exist); then the directory is complete. -/
def ex1 : State := arrive 0 7 (.lookup 16 [97]) [97] (State.init exM1)
def ex2 : State := arrive 0 8 (.lookup 1 [98]) [98] ex1
def ex3 : State := { ex2 with m := exM2, phase := .replaced }
def ex4 : State := { ex3 with phase := .resuming ex3.queue, queue := [] }
def ex5 : State := resume ⟨7, 0, .lookup 16 [97]⟩ [] ex4

theorem ex_reach : Reach false exM1 ex5 := by
  have h1 : Reach false exM1 ex1 := .step .init (.arrive 0 7 (.lookup 16 [97]) [97] (by simp [State.init])
    (by intro i name h; cases h; rfl) (by simp))
  have h2 : Reach false exM1 ex2 := .step h1 (.arrive 0 8 (.lookup 1 [98]) [98] (by decide)
    (by intro i name h; cases h; rfl) (by simp))
  have h3 : Reach false exM1 ex3 := .step h2 (.replace exM2 rfl)
  have h4 : Reach false exM1 ex4 := .step h3 (.take rfl)
  exact .step h4 (.resume _ _ rfl)

/-- **C66** is false of the code: the lookup of `a` is answered with the node of `b`. -/
theorem C66_wrong_name_violated : ∃ s, Reach false exM1 s ∧ (7, Kind.lookup 16 [97]) ∈ s.asked ∧
    (∃ m, (7, Answer.entry (some 48), m) ∈ s.replies ∧ answer m (.lookup 16 [97]) = some (.entry (some 32))) ∧
    ¬ AllRight s := by
  have hmem : (7, Answer.entry (some 48), exM2) ∈ ex5.replies := List.mem_cons_self ..
  have hask : ex5.asked = [(8, .lookup 1 [98]), (7, .lookup 16 [97])] := rfl
  have hans : answer exM2 (.lookup 16 [97]) = some (.entry (some 32)) := rfl
  refine ⟨ex5, ex_reach, by rw [hask]; decide, ⟨exM2, hmem, hans⟩, fun h => ?_⟩
  obtain ⟨k, h1, h2⟩ := h _ hmem
  rw [hask] at h1
  simp only [List.mem_cons, Prod.mk.injEq, List.not_mem_nil, or_false] at h1
  rcases h1 with ⟨h1, _⟩ | ⟨_, rfl⟩
  · cases h1
  · simp only at h2
    rw [hans] at h2
    cases h2

structure QInv (s : State) : Prop where
  right : AllRight s
  buf : ∀ q ∈ s.open, q.read s.buf = q.kind

theorem process_right {s : State} {q : Waiting} (h : AllRight s) (hk : (q.id, q.kind) ∈ s.asked) :
    AllRight (process q q.kind s) := by
  simp only [process]
  split
  · exact h
  · rename_i a ha
    intro x hx
    rcases List.mem_cons.mp hx with rfl | hx
    · exact ⟨q.kind, hk, ha⟩
    · exact h x hx

theorem process_open {s : State} {q : Waiting} {k : Kind} {q' : Waiting} (h : q' ∈ (process q k s).open) :
    q' = q ∨ q' ∈ s.open := by
  simp only [process] at h
  split at h
  · simp only [State.open, List.mem_append, List.mem_singleton] at h ⊢
    rcases h with (h | h) | h
    · exact .inr (.inl h)
    · exact .inl h
    · exact .inr (.inr h)
  · exact .inr h

theorem process_buf (s : State) (q : Waiting) (k : Kind) : (process q k s).buf = s.buf := by
  simp only [process]; split <;> rfl

theorem QInv.step {s t : State} (hi : Inv s) (h : QInv s) (hs : Step true s t) : QInv t := by
  cases hs with
  | arrive w id k raw hid hraw hq =>
    refine ⟨?_, fun q' hq' => ?_⟩
    · refine process_right (q := ⟨id, w, k⟩) (fun x hx => ?_) (List.mem_cons_self ..)
      obtain ⟨k', h1, h2⟩ := h.right x hx
      exact ⟨k', List.mem_cons_of_mem _ h1, h2⟩
    · rw [arrive, process_buf]
      rcases process_open hq' with rfl | h'
      · cases k with
        | lookup i name => simp [Waiting.read, hraw i name rfl]
        | _ => rfl
      · have h1 := h.buf q' h'
        have h2 : q'.worker ≠ w := hq rfl q' h'
        obtain ⟨id', w', k'⟩ := q'
        cases k' with
        | lookup i name =>
          simp only [Waiting.read, Kind.lookup.injEq, true_and] at h1 ⊢
          have h2' : ¬ w' = w := h2
          rw [if_neg h2']
          exact h1
        | _ => rfl
  | replace m hp =>
    refine ⟨h.right, fun q' hq' => h.buf q' ?_⟩
    simpa [State.open, hp, Phase.waiting] using hq'
  | take hp =>
    refine ⟨h.right, fun q' hq' => h.buf q' ?_⟩
    simpa [State.open, hp, Phase.waiting] using hq'
  | resume q l hp =>
    have hq : q ∈ s.open := by simp [State.open, hp, Phase.waiting]
    have hsub : ∀ q' ∈ ({ s with phase := .resuming l } : State).open, q' ∈ s.open := by
      intro q' hq'
      simp only [State.open, hp, Phase.waiting, List.mem_append, List.mem_cons] at hq' ⊢
      rcases hq' with h' | h'
      · exact .inl h'
      · exact .inr (.inr h')
    rw [resume, h.buf q hq]
    refine ⟨process_right h.right (hi.kind q hq), fun q' hq' => ?_⟩
    rw [process_buf]
    rcases process_open hq' with rfl | h'
    · exact h.buf _ hq
    · exact h.buf q' (hsub q' h')
  | finish hp =>
    refine ⟨h.right, fun q' hq' => h.buf q' ?_⟩
    simpa [State.open, hp, Phase.waiting] using hq'

/-- **C66**, the part that holds: every reply is right as long as no worker that has put a lookup
into the queue receives another request before that lookup is answered.  Missing: all other
histories, for which it is false. -/
theorem C66_right_partial {m0 : Manifest} {s : State} (h : Reach true m0 s) : AllRight s := by
  suffices QInv s from this.right
  induction h with
  | init =>
    refine ⟨fun x hx => ?_, fun q hq => ?_⟩
    · simp [State.init] at hx
    · simp [State.init, State.open, Phase.waiting] at hq
  | step hr hs ih => exact ih.step hr.inv hs

theorem process_cases (P : State → Prop) {s : State} {q : Waiting} {k : Kind}
    (h1 : answer s.m k = none → P { s with queue := s.queue ++ [q] })
    (h2 : ∀ a, answer s.m k = some a → P { s with replies := (q.id, a, s.m) :: s.replies }) :
    P (process q k s) := by
  simp only [process]
  split
  · rename_i h; exact h1 h
  · rename_i a h; exact h2 a h

/-- Every reply is right, but for a lookup it may be about another name in the same directory. -/
def OthersRight (s : State) : Prop :=
  ∀ x ∈ s.replies, ∃ k, (x.1, k) ∈ s.asked ∧ (answer x.2.2 k = some x.2.1 ∨
    ∃ i name name', k = .lookup i name ∧ answer x.2.2 (.lookup i name') = some x.2.1)

/-- **C104**, what always holds: replies to other requests than lookups are right in all histories,
and a lookup is at least done in the right directory. -/
theorem C104_others {quiet : Bool} {m0 : Manifest} {s : State} (h : Reach quiet m0 s) :
    OthersRight s := by
  induction h with
  | init => intro x hx; simp [State.init] at hx
  | step hr hs ih =>
    rename_i s t
    cases hs with
    | arrive w id k raw hid hraw hq =>
      refine process_cases OthersRight (fun _ x hx => ?_)
        (fun a ha x hx => ?_)
      · obtain ⟨k', h1, h2⟩ := ih x hx
        exact ⟨k', List.mem_cons_of_mem _ h1, h2⟩
      · rcases List.mem_cons.mp hx with rfl | hx
        · exact ⟨k, List.mem_cons_self .., .inl ha⟩
        · obtain ⟨k', h1, h2⟩ := ih x hx
          exact ⟨k', List.mem_cons_of_mem _ h1, h2⟩
    | replace m hp => exact ih
    | take hp => exact ih
    | resume q l hp =>
      refine process_cases OthersRight (fun _ x hx => ?_)
        (fun a ha x hx => ?_)
      · exact ih x hx
      · rcases List.mem_cons.mp hx with rfl | hx
        · refine ⟨q.kind, hr.inv.kind q (by simp [State.open, hp, Phase.waiting]), ?_⟩
          obtain ⟨id', w', k'⟩ := q
          cases k' with
          | lookup i name => exact .inr ⟨i, name, _, rfl, ha⟩
          | _ => exact .inl ha
        · exact ih x hx
    | finish hp => exact ih

/-! ## Examples -/

/-- A request for the directory that waits, and is answered after the update: the hypotheses of
C67 and of `C66_right_partial` are met with a request that had to wait. -/
example : ∃ s, Reach true exM1 s ∧ s.phase = .idle ∧ (7, Kind.lookup 16 [97]) ∈ s.asked ∧
    s.m.status 16 ≠ .inProgress ∧ s.replies.map (fun x => (x.1, x.2.1)) = [(7, .entry (some 32))] := by
  have h1 : Reach true exM1 _ := .step .init (.arrive 0 7 (.lookup 16 [97]) [97] (by simp [State.init])
    (by intro i name h; cases h; rfl) (by simp [State.init, State.open, Phase.waiting]))
  have h2 := Reach.step h1 (.replace exM2 rfl)
  have h3 := Reach.step h2 (.take rfl)
  have h4 := Reach.step h3 (.resume ⟨7, 0, .lookup 16 [97]⟩ [] rfl)
  have h5 := Reach.step h4 (.finish rfl)
  exact ⟨_, h5, rfl, List.mem_cons_self .., by decide, rfl⟩

end Verif.FuseFs.Queue
