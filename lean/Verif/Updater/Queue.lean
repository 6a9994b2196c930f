import Mathlib.Data.List.Perm.Basic

/-! # C33: `PendingAssetsQueue` (manifest/pending_assets_queue.cc)

Times are integers, `absl::InfiniteFuture()` is `none`. The time of a request and the minimum processing
time are finite, so their sum is. -/
namespace Verif.Updater

abbrev Path := List UInt8

/-- What an asset is: `type`, `relative_path` and `filename` of `PendingAsset`, pending_assets_queue.h:43-50. -/
structure Key where
  dir : Bool
  path : Path
  name : Path
deriving DecidableEq, Repr

/-- `PendingAsset`, pending_assets_queue.h:34-66. -/
structure Pending where
  key : Key
  prioritized : Bool := false
  deadline : Option Int := none
deriving DecidableEq, Repr

/-- `PriorityAsset`, pending_assets_queue.h:26-31. -/
structure Prio where
  file : Path
  received : Int

/-- What `ManifestBuilder::GetOrCreateAsset(path, UNKNOWN)` finds: relative path, name and `InProgress`. -/
abbrev Find := Path → Option (Path × Path × Bool)

abbrev Queue := List Pending

/-- Insert before the first item without a deadline (`std::find_if` and `insert`). -/
def insertPrio (p : Pending) : Queue → Queue
  | [] => [p]
  | q :: l => if q.deadline = none then p :: q :: l else q :: insertPrio p l

/-- `Add`, pending_assets_queue.cc:25-38. -/
def Queue.add (p : Pending) (q : Queue) : Queue :=
  if p.deadline = none then q ++ [p] else insertPrio p q

/-- `Dequeue`, pending_assets_queue.cc:40-47. -/
def Queue.dequeue (accept : Pending → Bool) : Queue → Option (Pending × Queue)
  | [] => none
  | p :: q => if accept p then some (p, q) else (Queue.dequeue accept q).map fun r => (r.1, p :: r.2)

/-- Inner loop of `Prioritize`, pending_assets_queue.cc:67-88. `before` are the items already passed, `prioEnd` is the position
of the first of them without a deadline, if any. -/
def prioLoop (path name : Path) (deadline : Int) : (before : Queue) → (prioEnd : Option Nat) → Queue → Queue
  | before, _, [] => before
  | before, prioEnd, p :: rest =>
    let prioEnd := if prioEnd = none ∧ p.deadline = none then some before.length else prioEnd
    if p.key.path = path ∧ p.key.name = name then
      match p.deadline, prioEnd with
      | none, some i =>
        before.take i ++ { p with deadline := some deadline, prioritized := true } :: (before.drop i ++ rest)
      | _, _ => before ++ p :: rest
    else prioLoop path name deadline (before ++ [p]) prioEnd rest

/-- One iteration of the outer loop of `Prioritize`, pending_assets_queue.cc:54-89. -/
def prioritizeOne (find : Find) (minTime : Int) (q : Queue) (p : Prio) : Queue :=
  match find p.file with
  | none => q
  | some (path, name, inProgress) => if inProgress then prioLoop path name (p.received + minTime) [] none q else q

/-- `Prioritize`, pending_assets_queue.cc:49-92, without the returned deadline. -/
def Queue.prioritize (find : Find) (minTime : Int) (ps : List Prio) (q : Queue) : Queue :=
  ps.foldl (prioritizeOne find minTime) q

/-! ### Specification -/

inductive Op where
  | add (p : Pending)
  /-- removes an item -/
  | dequeue (accept : Pending → Bool)
  /-- `Prioritize`, with the state of the manifest at that time -/
  | prioritize (find : Find) (minTime : Int) (ps : List Prio)

/-- One operation; also returns what was dequeued. -/
def step (q : Queue) : Op → Queue × List Pending
  | .add p => (q.add p, [])
  | .dequeue accept => match q.dequeue accept with
    | none => (q, [])
    | some (p, q) => (q, [p])
  | .prioritize find minTime ps => (q.prioritize find minTime ps, [])

/-- A history: the queue at the end and everything that was dequeued, in order. -/
def run (q : Queue) : List Op → Queue × List Pending
  | [] => (q, [])
  | op :: ops => let r := step q op; let s := run r.1 ops; (s.1, r.2 ++ s.2)

/-- The assets added in a history. -/
def added : List Op → List Key
  | [] => []
  | .add p :: ops => p.key :: added ops
  | _ :: ops => added ops

def hasDeadline (p : Pending) : Bool := p.deadline.isSome

/-- Assets with a deadline come first. -/
def PrioFirst (q : Queue) : Prop := q.Pairwise fun a b => hasDeadline b → hasDeadline a

/-! ### Proof -/

theorem prioFirst_iff (q : Queue) : PrioFirst q ↔ q = q.filter hasDeadline ++ q.filter (! hasDeadline ·) := by
  unfold PrioFirst
  induction q with
  | nil => simp
  | cons p q ih =>
    rw [List.pairwise_cons, ih]
    cases hp : hasDeadline p with
    | true => simp [hp]
    | false =>
      simp only [hp, Bool.false_eq_true, List.filter_cons, Bool.not_false, if_true, if_false]
      constructor
      · rintro ⟨h1, h2⟩
        have h3 : q.filter hasDeadline = [] := by
          rw [List.filter_eq_nil_iff]; intro b hb hd; exact h1 b hb hd
        rw [h3] at h2 ⊢
        simpa using h2
      · intro h
        cases hq : q.filter hasDeadline with
        | nil =>
          rw [hq] at h
          simp only [List.nil_append, List.cons.injEq, true_and] at h
          rw [List.filter_eq_nil_iff] at hq
          exact ⟨fun b hb hd => hq b hb hd, by simpa using h⟩
        | cons x xs =>
          have hx : x ∈ q.filter hasDeadline := by rw [hq]; simp
          rw [hq] at h
          simp only [List.cons_append, List.cons.injEq] at h
          have := (List.mem_filter.mp hx).2
          rw [← h.1, hp] at this; cases this

theorem filter_eq_self_of {q : Queue} {f : Pending → Bool} (h : ∀ p ∈ q, f p = true) : q.filter f = q :=
  List.filter_eq_self.mpr h

/-- A queue in parts: those with deadline, those without. -/
structure Parts (q a b : Queue) : Prop where
  eq : q = a ++ b
  dead : ∀ p ∈ a, p.deadline ≠ none
  free : ∀ p ∈ b, p.deadline = none

theorem Parts.filter {q a b : Queue} (h : Parts q a b) : q.filter hasDeadline = a ∧ q.filter (! hasDeadline ·) = b := by
  obtain ⟨rfl, ha, hb⟩ := h
  have h1 : a.filter hasDeadline = a := List.filter_eq_self.mpr fun p hp => Option.isSome_iff_ne_none.mpr (ha p hp)
  have h2 : a.filter (! hasDeadline ·) = [] := List.filter_eq_nil_iff.mpr fun p hp => by
    simp [hasDeadline, ha p hp]
  have h3 : b.filter hasDeadline = [] := List.filter_eq_nil_iff.mpr fun p hp => by simp [hasDeadline, hb p hp]
  have h4 : b.filter (! hasDeadline ·) = b := List.filter_eq_self.mpr fun p hp => by simp [hasDeadline, hb p hp]
  rw [List.filter_append, List.filter_append, h1, h2, h3, h4]
  simp

theorem parts_iff {q : Queue} : PrioFirst q ↔ ∃ a b, Parts q a b := by
  rw [prioFirst_iff]
  constructor
  · intro h
    refine ⟨_, _, h, fun p hp => ?_, fun p hp => ?_⟩
    · have := (List.mem_filter.mp hp).2
      exact Option.isSome_iff_ne_none.mp this
    · have := (List.mem_filter.mp hp).2
      simpa [hasDeadline] using this
  · rintro ⟨a, b, h⟩
    rw [h.filter.1, h.filter.2]; exact h.eq

theorem insertPrio_parts {q a b : Queue} (h : Parts q a b) (p : Pending) : insertPrio p q = a ++ p :: b := by
  obtain ⟨rfl, ha, hb⟩ := h
  induction a with
  | nil => cases b with
    | nil => rfl
    | cons c b => simp [insertPrio, hb c (by simp)]
  | cons c a ih =>
    simp only [List.cons_append, insertPrio]
    rw [if_neg (ha c (by simp)), ih fun p hp => ha p (by simp [hp])]

theorem add_parts {q a b : Queue} (h : Parts q a b) (p : Pending) :
    Parts (q.add p) (if p.deadline = none then a else a ++ [p]) (if p.deadline = none then b ++ [p] else b) := by
  unfold Queue.add
  by_cases hp : p.deadline = none
  · rw [if_pos hp, if_pos hp, if_pos hp]
    refine ⟨by rw [h.eq, List.append_assoc], h.dead, fun x hx => ?_⟩
    rcases List.mem_append.mp hx with hx | hx
    · exact h.free x hx
    · rw [List.mem_singleton.mp hx]; exact hp
  · rw [if_neg hp, if_neg hp, if_neg hp]
    refine ⟨by rw [insertPrio_parts h, List.append_assoc]; rfl, fun x hx => ?_, h.free⟩
    rcases List.mem_append.mp hx with hx | hx
    · exact h.dead x hx
    · rw [List.mem_singleton.mp hx]; exact hp

theorem dequeue_spec {accept : Pending → Bool} {q r : Queue} {p : Pending} (h : q.dequeue accept = some (p, r)) :
    accept p = true ∧ ∃ l₁ l₂, q = l₁ ++ p :: l₂ ∧ r = l₁ ++ l₂ ∧ ∀ x ∈ l₁, accept x = false := by
  induction q generalizing r with
  | nil => cases h
  | cons c q ih =>
    unfold Queue.dequeue at h
    split at h
    · cases h; exact ⟨by assumption, [], q, rfl, rfl, by simp⟩
    · rename_i hc
      cases hd : Queue.dequeue accept q with
      | none => rw [hd] at h; cases h
      | some x =>
        rw [hd] at h
        cases h
        obtain ⟨h1, l₁, l₂, h2, h3, h4⟩ := ih hd
        refine ⟨h1, c :: l₁, l₂, by rw [h2]; rfl, by rw [h3]; rfl, fun x hx => ?_⟩
        rcases List.mem_cons.mp hx with rfl | hx
        · simpa using hc
        · exact h4 x hx

theorem dequeue_none {accept : Pending → Bool} {q : Queue} (h : q.dequeue accept = none) : ∀ x ∈ q, accept x = false := by
  induction q with
  | nil => simp
  | cons c q ih =>
    unfold Queue.dequeue at h
    split at h
    · cases h
    · rename_i hc
      intro x hx
      rcases List.mem_cons.mp hx with rfl | hx
      · simpa using hc
      · exact ih (Option.map_eq_none_iff.mp h) x hx

/-- What prioritising one asset does. -/
inductive Moved (path name : Path) (deadline : Int) (a b : Queue) : Queue → Queue → Prop where
  /-- nothing to do: every queued item for the asset (up to the first one) has a deadline already -/
  | none (h : (∃ p ∈ a, p.key.path = path ∧ p.key.name = name) ∨ ∀ p ∈ a ++ b, ¬ (p.key.path = path ∧ p.key.name = name)) :
      Moved path name deadline a b a b
  | move {b₁ b₂ : Queue} {p : Pending} (hb : b = b₁ ++ p :: b₂) (hk : p.key.path = path ∧ p.key.name = name)
      (h : ∀ x ∈ a ++ b₁, ¬ (x.key.path = path ∧ x.key.name = name)) :
      Moved path name deadline a b (a ++ [{ p with deadline := some deadline, prioritized := true }]) (b₁ ++ b₂)

theorem prioLoop_free {path name : Path} {deadline : Int} {a : Queue} : ∀ {b₀ b : Queue},
    (∀ p ∈ b₀, p.deadline = none) → (∀ p ∈ b, p.deadline = none) → b₀ ≠ [] →
    (∀ x ∈ a ++ b₀, ¬ (x.key.path = path ∧ x.key.name = name)) →
    ∃ a' b', prioLoop path name deadline (a ++ b₀) (some a.length) b = a' ++ b' ∧ Moved path name deadline a (b₀ ++ b) a' b'
  | b₀, [], _, _, _, h => ⟨a, b₀, rfl, by rw [List.append_nil]; exact .none (.inr h)⟩
  | b₀, p :: b, h0, hb, hne, h => by
    unfold prioLoop
    dsimp only
    rw [if_neg (show ¬ (some a.length = none ∧ p.deadline = none) by simp)]
    by_cases hk : p.key.path = path ∧ p.key.name = name
    · rw [if_pos hk, hb p (by simp)]
      dsimp only
      rw [List.take_left, List.drop_left]
      refine ⟨a ++ [_], b₀ ++ b, by simp, .move rfl hk h⟩
    · rw [if_neg hk]
      have := prioLoop_free (deadline := deadline) (a := a) (b₀ := b₀ ++ [p]) (b := b)
        (fun x hx => (List.mem_append.mp hx).elim (h0 x) fun hx => by rw [List.mem_singleton.mp hx]; exact hb p (by simp))
        (fun x hx => hb x (by simp [hx])) (by simp)
        (fun x hx => by
          rw [← List.append_assoc] at hx
          rcases List.mem_append.mp hx with hx | hx
          · exact h x hx
          · rw [List.mem_singleton.mp hx]; exact hk)
      rw [← List.append_assoc, List.append_assoc b₀] at this
      exact this

theorem prioLoop_spec {path name : Path} {deadline : Int} : ∀ {a₀ a b : Queue},
    (∀ p ∈ a₀ ++ a, p.deadline ≠ none) → (∀ p ∈ b, p.deadline = none) →
    (∀ x ∈ a₀, ¬ (x.key.path = path ∧ x.key.name = name)) →
    ∃ a' b', prioLoop path name deadline a₀ none (a ++ b) = a' ++ b' ∧ Moved path name deadline (a₀ ++ a) b a' b'
  | a₀, [], [], _, _, h => ⟨a₀, [], by simp [prioLoop], by rw [List.append_nil]; exact .none (.inr (by simpa using h))⟩
  | a₀, [], p :: b, ha, hb, h => by
    rw [List.nil_append, List.append_nil]
    unfold prioLoop
    dsimp only
    rw [if_pos (show (none : Option Nat) = none ∧ p.deadline = none from ⟨rfl, hb p (by simp)⟩)]
    by_cases hk : p.key.path = path ∧ p.key.name = name
    · rw [if_pos hk, hb p (by simp)]
      dsimp only
      rw [List.take_length, List.drop_length]
      exact ⟨a₀ ++ [_], b, by simp, .move (b₁ := []) rfl hk (by simpa using h)⟩
    · rw [if_neg hk]
      exact prioLoop_free (a := a₀) (b₀ := [p]) (b := b) (fun x hx => by rw [List.mem_singleton.mp hx]; exact hb p (by simp))
        (fun x hx => hb x (by simp [hx])) (by simp) (fun x hx => by
          rcases List.mem_append.mp hx with hx | hx
          · exact h x hx
          · rw [List.mem_singleton.mp hx]; exact hk)
  | a₀, p :: a, b, ha, hb, h => by
    have hp : p.deadline ≠ none := ha p (by simp)
    rw [List.cons_append]
    unfold prioLoop
    dsimp only
    rw [if_neg (show ¬ ((none : Option Nat) = none ∧ p.deadline = none) from fun h => hp h.2)]
    by_cases hk : p.key.path = path ∧ p.key.name = name
    · rw [if_pos hk]
      have : (match p.deadline, (none : Option Nat) with
        | none, some i => a₀.take i ++ { p with deadline := some deadline, prioritized := true } :: (a₀.drop i ++ (a ++ b))
        | _, _ => a₀ ++ p :: (a ++ b)) = a₀ ++ p :: (a ++ b) := by
          cases p.deadline <;> rfl
      rw [this]
      exact ⟨a₀ ++ p :: a, b, by simp, .none (.inl ⟨p, by simp, hk⟩)⟩
    · rw [if_neg hk]
      have := prioLoop_spec (deadline := deadline) (a₀ := a₀ ++ [p]) (a := a) (b := b) (fun x hx => ha x (by simpa using hx)) hb
        (fun x hx => by
          rcases List.mem_append.mp hx with hx | hx
          · exact h x hx
          · rw [List.mem_singleton.mp hx]; exact hk)
      rw [List.append_assoc] at this
      exact this

theorem Moved.keys {path name : Path} {deadline : Int} {a b a' b' : Queue} (h : Moved path name deadline a b a' b') :
    ((a' ++ b').map Pending.key).Perm ((a ++ b).map Pending.key) := by
  cases h with
  | none => exact .refl _
  | move hb _ _ =>
    rw [hb]
    simp only [List.map_append, List.map_cons, List.append_assoc]
    exact List.Perm.append_left _ (by simpa using List.perm_middle.symm)

theorem Moved.parts {path name : Path} {deadline : Int} {a b a' b' : Queue} (h : Moved path name deadline a b a' b')
    {q : Queue} (hq : Parts q a b) : Parts (a' ++ b') a' b' := by
  cases h with
  | none => exact ⟨rfl, hq.dead, hq.free⟩
  | move hb _ _ =>
    refine ⟨rfl, fun x hx => ?_, fun x hx => hq.free x ?_⟩
    · rcases List.mem_append.mp hx with hx | hx
      · exact hq.dead x hx
      · rw [List.mem_singleton.mp hx]; simp
    · rw [hb]
      rcases List.mem_append.mp hx with hx | hx <;> simp [hx]

theorem Moved.order {path name : Path} {deadline : Int} {a b a' b' : Queue} (h : Moved path name deadline a b a' b') :
    a <+: a' ∧ b'.Sublist b := by
  cases h with
  | none => exact ⟨List.prefix_refl _, .refl _⟩
  | move hb _ _ => exact ⟨⟨_, rfl⟩, by rw [hb]; exact (List.Sublist.refl _).append (List.sublist_cons_self _ _)⟩

theorem prioritizeOne_moved {q a b : Queue} (h : Parts q a b) {find : Find} {minTime : Int} {p : Prio} {path name : Path}
    (hf : find p.file = some (path, name, true)) :
    ∃ a' b', prioritizeOne find minTime q p = a' ++ b' ∧ Moved path name (p.received + minTime) a b a' b' := by
  have := prioLoop_spec (path := path) (name := name) (deadline := p.received + minTime) (a₀ := []) (a := a) (b := b)
    (by simpa using h.dead) h.free (by simp)
  rw [List.nil_append, ← h.eq] at this
  unfold prioritizeOne
  rw [hf]
  exact this

theorem prioritizeOne_spec {q a b : Queue} (h : Parts q a b) (find : Find) (minTime : Int) (p : Prio) :
    ∃ a' b', Parts (prioritizeOne find minTime q p) a' b' ∧ a <+: a' ∧ b'.Sublist b ∧
      ((prioritizeOne find minTime q p).map Pending.key).Perm (q.map Pending.key) := by
  rcases hf : find p.file with _ | ⟨path, name, inProgress⟩
  · unfold prioritizeOne; rw [hf]; exact ⟨a, b, h, List.prefix_refl _, .refl _, .refl _⟩
  · cases inProgress with
    | false => unfold prioritizeOne; rw [hf]; exact ⟨a, b, h, List.prefix_refl _, .refl _, .refl _⟩
    | true =>
      obtain ⟨a', b', h1, h2⟩ := prioritizeOne_moved (minTime := minTime) h hf
      rw [h1]
      exact ⟨a', b', h2.parts h, h2.order.1, h2.order.2, by rw [h.eq]; exact h2.keys⟩

theorem prioritize_spec {q a b : Queue} (h : Parts q a b) (find : Find) (minTime : Int) (ps : List Prio) :
    ∃ a' b', Parts (q.prioritize find minTime ps) a' b' ∧ a <+: a' ∧ b'.Sublist b ∧
      ((q.prioritize find minTime ps).map Pending.key).Perm (q.map Pending.key) := by
  induction ps generalizing q a b with
  | nil => exact ⟨a, b, h, List.prefix_refl _, .refl _, .refl _⟩
  | cons p ps ih =>
    obtain ⟨a', b', h1, h2, h3, h4⟩ := prioritizeOne_spec h find minTime p
    obtain ⟨a2, b2, g1, g2, g3, g4⟩ := ih h1
    exact ⟨a2, b2, g1, h2.trans g2, g3.trans h3, g4.trans h4⟩

theorem step_spec {q a b : Queue} (h : Parts q a b) (op : Op) :
    (∃ a' b', Parts (step q op).1 a' b') ∧
      (((step q op).1 ++ (step q op).2).map Pending.key).Perm (q.map Pending.key ++ added [op]) := by
  cases op with
  | add p =>
    refine ⟨⟨_, _, add_parts h p⟩, ?_⟩
    have := (add_parts h p).eq
    simp only [step, added, List.append_nil]
    rw [this, h.eq]
    by_cases hp : p.deadline = none
    · simp [hp]
    · simp only [hp, if_false, List.map_append, List.map_cons, List.append_assoc]
      exact List.Perm.append_left _ (by simpa using (List.perm_middle (l₁ := b.map Pending.key) (a := p.key) (l₂ := [])).symm)
  | dequeue accept =>
    simp only [step, added, List.append_nil]
    rcases hd : q.dequeue accept with _ | ⟨p, r⟩
    · exact ⟨⟨a, b, h⟩, by simp⟩
    · obtain ⟨-, l₁, l₂, h1, h2, -⟩ := dequeue_spec hd
      dsimp only
      constructor
      · rw [← parts_iff]
        have : PrioFirst q := parts_iff.mpr ⟨a, b, h⟩
        unfold PrioFirst at this ⊢
        rw [h1] at this; rw [h2]
        exact this.sublist ((List.Sublist.refl _).append (List.sublist_cons_self _ _))
      · rw [h1, h2]
        simp only [List.map_append, List.map_cons, List.append_assoc]
        exact List.Perm.append_left _ (by simp)
  | prioritize find minTime ps =>
    obtain ⟨a', b', h1, -, -, h4⟩ := prioritize_spec h find minTime ps
    exact ⟨⟨a', b', h1⟩, by simpa [step, added] using h4⟩

theorem run_spec {q a b : Queue} (h : Parts q a b) (ops : List Op) :
    (∃ a' b', Parts (run q ops).1 a' b') ∧
      (((run q ops).1 ++ (run q ops).2).map Pending.key).Perm (q.map Pending.key ++ added ops) := by
  induction ops generalizing q a b with
  | nil => exact ⟨⟨a, b, h⟩, by simp [run, added]⟩
  | cons op ops ih =>
    obtain ⟨⟨a', b', h1⟩, h2⟩ := step_spec h op
    obtain ⟨h3, h4⟩ := ih h1
    refine ⟨h3, ?_⟩
    have hadd : added (op :: ops) = added [op] ++ added ops := by cases op <;> rfl
    rw [hadd]
    simp only [run, List.map_append] at h2 h4 ⊢
    calc _ = ((run (step q op).1 ops).1.map Pending.key ++ ((step q op).2.map Pending.key ++ (run (step q op).1 ops).2.map Pending.key)) := rfl
      _ |>.Perm ((step q op).2.map Pending.key ++ ((run (step q op).1 ops).1.map Pending.key ++ (run (step q op).1 ops).2.map Pending.key)) := by
        rw [← List.append_assoc, ← List.append_assoc]
        exact List.Perm.append_right _ List.perm_append_comm
      _ |>.Perm ((step q op).2.map Pending.key ++ ((step q op).1.map Pending.key ++ added ops)) := List.Perm.append_left _ h4
      _ |>.Perm _ := by
        rw [← List.append_assoc, ← List.append_assoc]
        exact List.Perm.append_right _ (List.perm_append_comm.trans h2)

/-- C33: after any history of adding, dequeuing and prioritising, assets with a deadline precede all others, and every
asset that was added is still in the queue or was dequeued, exactly as often as it was added. -/
theorem C33_nothing_lost (ops : List Op) :
    PrioFirst (run [] ops).1 ∧ (((run [] ops).1 ++ (run [] ops).2).map Pending.key).Perm (added ops) := by
  have h0 : Parts [] [] [] := ⟨rfl, by simp, by simp⟩
  obtain ⟨h1, h2⟩ := run_spec h0 ops
  exact ⟨parts_iff.mpr h1, by simpa using h2⟩

/-- C33: in every state of every history
* a new asset goes behind all others of its class,
* `Dequeue` takes the first asset accepted, and only fails if none is,
* prioritising appends to the assets with a deadline, without touching those already there, and keeps the order of
  the others. -/
theorem C33_order_kept (ops : List Op) :
    let q := (run [] ops).1
    let prio := q.filter hasDeadline
    let rest := q.filter (! hasDeadline ·)
    (∀ p, q.add p = if hasDeadline p then prio ++ p :: rest else prio ++ (rest ++ [p])) ∧
    (∀ accept, (q.dequeue accept).map Prod.fst = q.find? accept) ∧
    (∀ accept p r, q.dequeue accept = some (p, r) → r = q.eraseP accept) ∧
    (∀ find minTime ps, let q' := q.prioritize find minTime ps
      prio <+: q'.filter hasDeadline ∧ (q'.filter (! hasDeadline ·)).Sublist rest) := by
  have h0 : Parts [] [] [] := ⟨rfl, by simp, by simp⟩
  obtain ⟨⟨a, b, h⟩, -⟩ := run_spec h0 ops
  dsimp only
  rw [h.filter.1, h.filter.2]
  refine ⟨fun p => ?_, fun accept => ?_, fun accept p r hd => ?_, fun find minTime ps => ?_⟩
  · have := (add_parts h p).eq
    rw [this]
    cases hp : p.deadline <;> simp [hasDeadline, hp]
  · generalize (run [] ops).1 = q
    induction q with
    | nil => rfl
    | cons c q ih =>
      unfold Queue.dequeue
      rw [List.find?_cons]
      cases hc : accept c with
      | true => rfl
      | false =>
        rw [if_neg (by simp), ← ih, Option.map_map]
        congr 1
  · obtain ⟨h1, l₁, l₂, h2, h3, h4⟩ := dequeue_spec hd
    rw [h2, h3, List.eraseP_append_right _ (fun b hb => by rw [h4 b hb]; simp), List.eraseP_cons_of_pos h1]
  · obtain ⟨a', b', g1, g2, g3, -⟩ := prioritize_spec h find minTime ps
    rw [g1.filter.1, g1.filter.2]
    exact ⟨g2, g3⟩

/-- C33: in every state of every history, prioritising an asset that is in progress and queued gives it a deadline: the
first item queued for it keeps its deadline if it has one and gets the requested one otherwise. -/
theorem C33_prioritised_gets_deadline (ops : List Op) (find : Find) (minTime : Int) (p : Prio) (path name : Path)
    (hf : find p.file = some (path, name, true)) (x : Pending)
    (hx : (run [] ops).1.find? (fun x => x.key.path = path ∧ x.key.name = name) = some x) :
    ∃ y ∈ (run [] ops).1.prioritize find minTime [p], y.key = x.key ∧ y.deadline = some (x.deadline.getD (p.received + minTime)) := by
  have h0 : Parts [] [] [] := ⟨rfl, by simp, by simp⟩
  obtain ⟨⟨a, b, h⟩, -⟩ := run_spec h0 ops
  generalize (run [] ops).1 = q at *
  obtain ⟨a', b', h1, h2⟩ := prioritizeOne_moved (minTime := minTime) h hf
  show ∃ y ∈ prioritizeOne find minTime q p, _
  rw [h1]
  obtain ⟨hk, l₁, l₂, hl, hn⟩ := List.find?_eq_some_iff_append.mp hx
  simp only [decide_eq_true_eq] at hk hn
  have hn : ∀ y ∈ l₁, ¬ (y.key.path = path ∧ y.key.name = name) := fun y hy e => by have := hn y hy; simp [e] at this
  rw [h.eq] at hl
  -- the first item for the asset is unique in position
  have uniq : ∀ {m₁ m₂ : Queue} {y : Pending}, a ++ b = m₁ ++ y :: m₂ → (y.key.path = path ∧ y.key.name = name) →
      (∀ z ∈ m₁, ¬ (z.key.path = path ∧ z.key.name = name)) → y = x := by
    intro m₁ m₂ y hm hy hz
    have e1 : (a ++ b).find? (fun x => x.key.path = path ∧ x.key.name = name) = some y :=
      List.find?_eq_some_iff_append.mpr ⟨by simpa using hy, m₁, m₂, hm, fun z hzz => by have := hz z hzz; simpa using (Decidable.not_and_iff_or_not).mp this⟩
    rw [← h.eq, hx] at e1
    exact (Option.some.inj e1).symm
  cases h2 with
  | none hh =>
    refine ⟨x, by rw [hl]; simp, rfl, ?_⟩
    rcases hh with ⟨y, hy, hyk⟩ | hh
    · -- the first one has a deadline
      have hxa : x ∈ a := by
        by_contra hxa
        have hfa : a.find? (fun x => x.key.path = path ∧ x.key.name = name) = none ∨
          ∃ z ∈ a, a.find? (fun x => x.key.path = path ∧ x.key.name = name) = some z := by
          cases hz : a.find? (fun x => x.key.path = path ∧ x.key.name = name) with
          | none => exact .inl rfl
          | some z => exact .inr ⟨z, List.mem_of_find?_eq_some hz, rfl⟩
        rcases hfa with hfa | ⟨z, hz, hfa⟩
        · have := List.find?_eq_none.mp hfa y hy
          exact this (by simpa using hyk)
        · have : (a ++ b).find? (fun x => x.key.path = path ∧ x.key.name = name) = some z := by
            rw [List.find?_append, hfa]; rfl
          rw [← h.eq, hx] at this
          cases this; exact hxa hz
      have := h.dead x hxa
      cases hd : x.deadline with
      | none => exact absurd hd this
      | some d => rfl
    · exact absurd hk (hh x (by rw [hl]; simp))
  | @move b₁ b₂ y hb hyk hh =>
    have hyx : y = x := uniq (m₁ := a ++ b₁) (m₂ := b₂) (by rw [hb]; simp) hyk hh
    subst hyx
    have hy : y.deadline = none := h.free y (by rw [hb]; simp)
    exact ⟨{ y with deadline := some (p.received + minTime), prioritized := true }, by simp, rfl, by simp [hy]⟩

namespace QueueExample

def k (c : UInt8) : Key := ⟨false, [], [c]⟩
def find : Find := fun p => some ([], p, true)
def ops : List Op := [.add { key := k 1 }, .add { key := k 2 }, .add { key := k 3, deadline := some 7 }, .add { key := k 4 },
  .prioritize find 10 [⟨[4], 5⟩, ⟨[2], 6⟩, ⟨[9], 6⟩], .dequeue fun p => p.key ≠ k 3]

/-- The items 4 and 2 are moved behind 3; then 4 is dequeued. -/
example : run [] ops = ([⟨k 3, false, some 7⟩, ⟨k 2, true, some 16⟩, ⟨k 1, false, none⟩], [⟨k 4, true, some 15⟩]) := by
  decide +kernel

end QueueExample
end Verif.Updater
