import Mathlib.Data.List.Perm.Basic

/-! # C32, C56: the update loop (`ManifestUpdater::Update`, manifest/manifest_updater.cc:765-904) -/
namespace Verif.Updater

/-! ## C56: the loop does not wait for a task that was never queued, and ends -/
namespace Loop

/-- A file or directory that is to be processed; the children are what a scan of the directory will queue at most. -/
inductive Tree where
  | node (dir : Bool) (children : List Tree)

def Tree.dir : Tree → Bool
  | .node d _ => d

def Tree.children : Tree → List Tree
  | .node _ c => c

mutual
/-- Number of files and directories. -/
def Tree.size : Tree → Nat
  | .node _ c => 1 + sizes c
def sizes : List Tree → Nat
  | [] => 0
  | t :: ts => t.size + sizes ts
end

/-- `queue_`, the tasks in the thread pool (queued, running or completed but not yet fetched) and the number of free
`buffers_`. -/
structure State where
  queue : List Tree
  tasks : List Tree
  buffers : Nat

/-- `scanner_tasks_queued`. -/
def State.scanners (s : State) : Nat := (s.tasks.filter Tree.dir).length

/-- What `accept` allows, manifest_updater.cc:568-574. -/
def accepts (drain : Bool) (t : Tree) : Bool := ! (drain && t.dir)

/-- `QueueTasks`, manifest_updater.cc:560-617. `maxQueued` is `MaxQueuedTasks`. `NumQueuedTasks` of the pool is not more than the
number of tasks in it. Which asset is first in the queue depends on prioritisation (C33); `Dequeue` takes the first
that is accepted. With `reliable` every directory is found in the manifest. -/
inductive QueueTasks (maxQueued : Nat) (drain reliable : Bool) : State → State → Prop where
  | stop {s : State} : (∃ k ≤ s.tasks.length, maxQueued ≤ k) ∨ s.buffers = 0 ∨ (∀ t ∈ s.queue, accepts drain t = false) →
      QueueTasks maxQueued drain reliable s s
  | file {s s' : State} {l₁ l₂ : List Tree} {t : Tree} : s.queue = l₁ ++ t :: l₂ → (∀ x ∈ l₁, accepts drain x = false) →
      accepts drain t = true → t.dir = false → s.buffers ≠ 0 →
      QueueTasks maxQueued drain reliable ⟨l₁ ++ l₂, s.tasks ++ [t], s.buffers - 1⟩ s' → QueueTasks maxQueued drain reliable s s'
  | directory {s s' : State} {l₁ l₂ : List Tree} {t : Tree} : s.queue = l₁ ++ t :: l₂ → (∀ x ∈ l₁, accepts drain x = false) →
      accepts drain t = true → t.dir = true → s.buffers ≠ 0 →
      QueueTasks maxQueued drain reliable ⟨l₁ ++ l₂, s.tasks ++ [t], s.buffers⟩ s' → QueueTasks maxQueued drain reliable s s'
  /-- `GetOrCreateAsset` fails: the directory is skipped, manifest_updater.cc:597-603 -/
  | skip {s s' : State} {l₁ l₂ : List Tree} {t : Tree} : reliable = false → s.queue = l₁ ++ t :: l₂ →
      (∀ x ∈ l₁, accepts drain x = false) → accepts drain t = true → t.dir = true → s.buffers ≠ 0 →
      QueueTasks maxQueued drain reliable ⟨l₁ ++ l₂, s.tasks, s.buffers⟩ s' → QueueTasks maxQueued drain reliable s s'

/-- The value of `drain_dir_scanners`, manifest_updater.cc:834-840. If no scanner was active and the manifest was to be flushed, it
has just been flushed and is not to be flushed again. So the value is `true` only if a scanner is active, or
if the deadline passed after it was checked in line 834; the latter is excluded with `timely`. -/
def Drain (timely : Bool) (s : State) (drain : Bool) : Prop := timely = true → drain = true → s.scanners ≠ 0

/-- The loop condition, manifest_updater.cc:833. -/
def State.busy (s : State) : Prop := s.queue ≠ [] ∨ s.tasks ≠ []

/-- One iteration, manifest_updater.cc:833-873: some task is complete, it is handled and queues some of its children, in any
order (`PrioritizeQueuedAssets` reorders the queue, too). A file task gives back its buffer. -/
inductive Iter (maxQueued : Nat) (timely reliable : Bool) : State → State → Prop where
  | mk {s s1 : State} {drain : Bool} {l₁ l₂ new queue : List Tree} {t : Tree} : s.busy → Drain timely s drain →
      QueueTasks maxQueued drain reliable s s1 → s1.tasks = l₁ ++ t :: l₂ → new.Sublist t.children →
      queue.Perm (s1.queue ++ new) →
      Iter maxQueued timely reliable s ⟨queue, l₁ ++ l₂, if t.dir then s1.buffers else s1.buffers + 1⟩

/-- `GetCompletedTask`, manifest_updater.cc:846, is called but there is no task: the thread waits for ever. -/
def Stuck (maxQueued : Nat) (timely reliable : Bool) (s : State) : Prop :=
  s.busy ∧ ∃ drain s1, Drain timely s drain ∧ QueueTasks maxQueued drain reliable s s1 ∧ s1.tasks = []

/-- `n` iterations. -/
inductive Iters (maxQueued : Nat) (timely reliable : Bool) : Nat → State → State → Prop where
  | zero (s : State) : Iters maxQueued timely reliable 0 s s
  | succ {n : Nat} {s t u : State} : Iters maxQueued timely reliable n s t → Iter maxQueued timely reliable t u →
      Iters maxQueued timely reliable (n + 1) s u

/-- The state before the loop, manifest_updater.cc:817-822: one buffer per queueable task. -/
def start (maxQueued : Nat) (queue : List Tree) : State := ⟨queue, [], maxQueued⟩

/-- C56: the loop never waits for a task when there is none. -/
def NeverStuck (timely reliable : Bool) : Prop :=
  ∀ maxQueued n queue s, 0 < maxQueued → Iters maxQueued timely reliable n (start maxQueued queue) s → ¬ Stuck maxQueued timely reliable s

/-! ### Proof -/

theorem sizes_append (a b : List Tree) : sizes (a ++ b) = sizes a + sizes b := by
  induction a with
  | nil => simp [sizes]
  | cons t a ih => simp only [List.cons_append, sizes, ih]; omega

theorem sizes_perm {a b : List Tree} (h : a.Perm b) : sizes a = sizes b := by
  induction h with
  | nil => rfl
  | cons _ _ ih => simp only [sizes, ih]
  | swap => simp only [sizes]; omega
  | trans _ _ ih1 ih2 => exact ih1.trans ih2

theorem sizes_sublist {a b : List Tree} (h : a.Sublist b) : sizes a ≤ sizes b := by
  induction h with
  | slnil => exact Nat.le_refl _
  | cons _ _ ih => simp only [sizes]; omega
  | cons_cons _ _ ih => simp only [sizes]; omega

def State.size (s : State) : Nat := sizes s.queue + sizes s.tasks

/-- Files in the pool. -/
def State.files (s : State) : Nat := (s.tasks.filter fun t => ! t.dir).length

theorem queueTasks_size {m : Nat} {d r : Bool} {s s' : State} (h : QueueTasks m d r s s') : s'.size ≤ s.size := by
  induction h with
  | stop => exact Nat.le_refl _
  | file hq _ _ _ _ _ ih | directory hq _ _ _ _ _ ih | skip _ hq _ _ _ _ _ ih =>
    refine Nat.le_trans ih ?_
    simp only [State.size, hq, sizes_append, sizes]
    omega

theorem queueTasks_buffers {m : Nat} {d r : Bool} {s s' : State} (h : QueueTasks m d r s s') :
    s'.buffers + s'.files = s.buffers + s.files := by
  induction h with
  | stop => rfl
  | file _ _ _ hd hb _ ih =>
    rw [ih]
    simp only [State.files, List.filter_append, List.filter_cons, hd, List.length_append]
    simp
    omega
  | directory _ _ _ hd _ _ ih =>
    rw [ih]
    simp only [State.files, List.filter_append, List.filter_cons, hd, List.length_append]
    simp
  | skip _ _ _ _ _ _ _ ih => exact ih

theorem iter_buffers {m : Nat} {ti r : Bool} {s s' : State} (h : Iter m ti r s s') :
    s'.buffers + s'.files = s.buffers + s.files := by
  cases h with
  | @mk s1 drain l₁ l₂ new queue t _ _ hq ht _ _ =>
    rw [← queueTasks_buffers hq]
    simp only [State.files, ht, List.filter_append, List.filter_cons, List.length_append]
    cases hd : t.dir <;> simp
    omega

theorem iter_size {m : Nat} {ti r : Bool} {s s' : State} (h : Iter m ti r s s') : s'.size < s.size := by
  cases h with
  | @mk s1 drain l₁ l₂ new queue t _ _ hq ht hn hp =>
    have h1 := queueTasks_size hq
    have h2 := sizes_sublist hn
    have h3 : t.size = 1 + sizes t.children := by cases t; simp [Tree.size, Tree.children]
    simp only [State.size, ht, sizes_append, sizes] at h1
    simp only [State.size, sizes_perm hp, sizes_append]
    omega

theorem queueTasks_mono {m : Nat} {d r : Bool} {s s' : State} (h : QueueTasks m d r s s') : s.tasks.length ≤ s'.tasks.length := by
  induction h with
  | stop => exact Nat.le_refl _
  | file _ _ _ _ _ _ ih | directory _ _ _ _ _ _ ih => simp at ih; omega
  | skip _ _ _ _ _ _ _ ih => exact ih

/-- C56, partial: the loop never waits for ever if every directory is found in the manifest and no flush deadline passes between
the two checks. Missing: the other cases, in which it may (see below). -/
theorem C56_never_stuck_partial : NeverStuck true true := by
  intro m n queue s hm hi
  have hinv : s.buffers + s.files = m := by
    generalize hs : start m queue = s0 at hi
    induction hi with
    | zero => subst hs; simp [start, State.files]
    | succ _ h ih => rw [iter_buffers h]; exact ih hs
  rintro ⟨hb, drain, s1, hd, hq, ht⟩
  have ht0 : s.tasks = [] := by
    have := queueTasks_mono hq
    rw [ht] at this
    exact List.length_eq_zero_iff.mp (Nat.le_zero.mp this)
  have hqn : s.queue ≠ [] := hb.resolve_right (fun h => h ht0)
  have hdr : drain = false := by
    cases drain with
    | false => rfl
    | true => exact absurd (by simp [State.scanners, ht0]) (hd rfl rfl)
  have hbuf : s.buffers = m := by simpa [State.files, ht0] using hinv
  subst hdr
  cases hq with
  | stop h =>
    rcases h with ⟨k, h1, h2⟩ | h | h
    · rw [ht0] at h1; simp at h1; omega
    · omega
    · obtain ⟨t, q, hq⟩ := List.exists_cons_of_ne_nil hqn
      have := h t (by rw [hq]; simp)
      simp [accepts] at this
  | file _ _ _ _ _ h | directory _ _ _ _ _ h =>
    have := queueTasks_mono h
    rw [ht] at this; simp at this
  | skip h => cases h

/-- C56: the loop ends: it is run at most once for each file and directory that is to be processed, whatever the deadlines and
failures. -/
theorem C56_update_loop_bounded (maxQueued : Nat) (timely reliable : Bool) (queue : List Tree) (n : Nat) (s : State)
    (h : Iters maxQueued timely reliable n (start maxQueued queue) s) : n + s.size ≤ sizes queue := by
  generalize hs : start maxQueued queue = s0 at h
  induction h with
  | zero => subst hs; simp [start, State.size, sizes]
  | succ _ h ih =>
    have := ih hs
    have := iter_size h
    omega

/-- C56 is violated: a deadline that passes between the two checks (manifest_updater.cc:834 and 840), while only directories are
queued and no task is outstanding. -/
theorem C56_deadline_race_violated : ¬ NeverStuck false true := by
  intro h
  refine h 2 0 [.node true []] _ (by decide) (.zero _) ⟨.inl (by simp [start]), true, start 2 [.node true []], (by intro h; cases h), .stop (.inr (.inr ?_)), rfl⟩
  intro t ht
  simp only [start, List.mem_singleton] at ht
  rw [ht]; rfl

/-- C56 is violated: a directory that is not found in the manifest, for instance because of a failing read, is skipped, and if
nothing else is to be done the loop waits for a task that was never queued. -/
theorem C56_skipped_directory_violated : ¬ NeverStuck true false := by
  intro h
  refine h 2 0 [.node true []] _ (by decide) (.zero _) ⟨.inl (by simp [start]), false, ⟨[], [], 2⟩, (by intro _ h; cases h), ?_, rfl⟩
  exact .skip (l₁ := []) (l₂ := []) rfl rfl (by simp) rfl rfl (by simp [start]) (.stop (.inr (.inr (by simp))))

/-- A run of two iterations: a directory with a file. -/
example : ∃ s, Iters 2 true true 2 (start 2 [.node true [.node false []]]) s ∧ ¬ s.busy := by
  refine ⟨⟨[], [], 2⟩, .succ (t := ⟨[.node false []], [], 2⟩) (.succ (.zero _) ?_) ?_, by simp [State.busy]⟩
  · exact .mk (s1 := ⟨[], [.node true [.node false []]], 2⟩) (drain := false) (l₁ := []) (l₂ := []) (new := [.node false []]) (t := .node true [.node false []])
      (.inl (by simp [start])) (by intro _ h; cases h)
      (.directory (l₁ := []) (l₂ := []) rfl (by simp) rfl rfl (by simp [start]) (.stop (.inr (.inr (by simp))))) rfl (.refl _) (.refl _)
  · exact .mk (s1 := ⟨[], [.node false []], 1⟩) (drain := false) (l₁ := []) (l₂ := []) (new := []) (t := .node false [])
      (.inl (by simp)) (by intro _ h; cases h)
      (.file (l₁ := []) (l₂ := []) rfl (by simp) rfl rfl (by simp) (.stop (.inr (.inr (by simp))))) rfl (.refl _) (.refl _)

end Loop

/-! ## C32: pruning the store after the update

A directory of the manifest is identified by its path. `own p` are the ids of the lists that the directory `p` refers to:
its indirect asset lists and the indirect chunk lists of its files; `none` if there is no such directory. -/
namespace Prune

abbrev Id := List UInt8
abbrev DirPath := List (List UInt8)

structure State where
  own : DirPath → Option (List Id)
  /-- directories queued or being scanned -/
  pending : DirPath → Bool
  /-- `manifest_content_ids` -/
  keep : List Id
  /-- `status.ok()` -/
  ok : Bool

/-- The directory still refers to some of the lists it referred to before, and to no others except those in `new`. -/
def Shrinks (old now : Option (List Id)) (new : List Id) : Prop :=
  ∀ l', now = some l' → ∃ l, old = some l ∧ ∀ id ∈ l', id ∈ l ∨ id ∈ new

inductive Step (reliable : Bool) : State → State → Prop where
  /-- A directory was scanned: `HandleDirScannerResult`, manifest_updater.cc:740-763. The ids of all its lists are collected
  (298-306, 332-336). Some of its entries may be deleted or truncated. Its sub-directories are queued (those on disk, all
  others are removed from the manifest with everything below). -/
  | scanned {s s' : State} {p : DirPath} {l : List Id} : s.pending p = true → s.own p = some l →
      Shrinks (some l) (s'.own p) [] → s'.keep = s.keep ++ l → s'.ok = true →
      (∀ q, s.pending q = true → q ≠ p → s'.pending q = true) →
      (∀ n r, s'.own (p ++ n :: r) ≠ none → s'.pending (p ++ [n]) = true) →
      (∀ q, ¬ p <+: q → s'.own q = s.own q) → Step reliable s s'
  /-- Applying the operations of a scan failed, manifest_updater.cc:756-757: the ids are not collected. -/
  | failed {s s' : State} {p : DirPath} : reliable = false → s.pending p = true → s'.own = s.own → s'.keep = s.keep → s'.ok = false →
      (∀ q, s'.pending q = (s.pending q && q != p)) → Step reliable s s'
  /-- The directory was not found, manifest_updater.cc:597-603. -/
  | skipped {s s' : State} {p : DirPath} : reliable = false → s.pending p = true → s'.own = s.own → s'.keep = s.keep → s'.ok = s.ok →
      (∀ q, s'.pending q = (s.pending q && q != p)) → Step reliable s s'
  /-- A file of a directory was chunked (`HandleFileChunkerResult`, 704-738), with or without success: its lists are dropped. -/
  | chunked {s s' : State} {p : DirPath} : Shrinks (s.own p) (s'.own p) [] → (∀ q, q ≠ p → s'.own q = s.own q) → s'.keep = s.keep →
      s'.pending = s.pending → Step reliable s s'
  /-- The manifest was flushed (`FlushAndPushManifest`, 506-519): directories may refer to the lists written. -/
  | flushed {s s' : State} {new : List Id} : (∀ q, Shrinks (s.own q) (s'.own q) new) → s'.keep = s.keep ++ new →
      s'.pending = s.pending → s'.ok = s.ok → Step reliable s s'

inductive Steps (reliable : Bool) : State → State → Prop where
  | nil (s : State) : Steps reliable s s
  | cons {s t u : State} : Steps reliable s t → Step reliable t u → Steps reliable s u

/-- Before the loop: the root directory is queued, the manifest is what was loaded. -/
def start (own : DirPath → Option (List Id)) (ok : Bool) : State := ⟨own, fun p => p == [], [], ok⟩

/-- At the end, the store is pruned if the status is ok (manifest_updater.cc:889-898): everything not in `keep` is removed. Nothing
the manifest refers to must be removed. -/
def PruneSafe (reliable : Bool) : Prop :=
  ∀ own ok s, Steps reliable (start own ok) s → (∀ p, s.pending p = false) → s.ok = true →
    ∀ p l, s.own p = some l → ∀ id ∈ l, id ∈ s.keep

def Inv (s : State) : Prop :=
  ∀ q l, s.own q = some l → (∀ id ∈ l, id ∈ s.keep) ∨ ∃ p, p <+: q ∧ s.pending p = true

theorem step_inv {s s' : State} (h : Step true s s') (hi : Inv s) : Inv s' := by
  intro q l' hl'
  cases h with
  | @scanned p l hp hown hsh hk _ hpend hsub hrest =>
    by_cases hpq : p <+: q
    · obtain ⟨r, rfl⟩ := hpq
      cases r with
      | nil =>
        rw [List.append_nil] at hl'
        obtain ⟨_, e, h2⟩ := hsh l' hl'
        cases e
        refine .inl fun id hid => ?_
        rw [hk]
        exact List.mem_append_right _ ((h2 id hid).resolve_right (by simp))
      | cons n r =>
        exact .inr ⟨p ++ [n], ⟨r, by simp⟩, hsub n r (by rw [hl']; simp)⟩
    · rw [hrest q hpq] at hl'
      rcases hi q l' hl' with h | ⟨p', h1, h2⟩
      · exact .inl fun id hid => by rw [hk]; exact List.mem_append_left _ (h id hid)
      · exact .inr ⟨p', h1, hpend p' h2 (fun e => hpq (e ▸ h1))⟩
  | failed h => cases h
  | skipped h => cases h
  | @chunked p hsh hrest hk hp =>
    by_cases hq : q = p
    · subst hq
      obtain ⟨l, hl, h2⟩ := hsh l' hl'
      rw [hk, hp]
      rcases hi q l hl with h | h
      · exact .inl fun id hid => h id ((h2 id hid).resolve_right (by simp))
      · exact .inr h
    · rw [hrest q hq] at hl'
      rw [hk, hp]; exact hi q l' hl'
  | @flushed new hsh hk hp _ =>
    obtain ⟨l, hl, h2⟩ := hsh q l' hl'
    rw [hk, hp]
    rcases hi q l hl with h | h
    · refine .inl fun id hid => ?_
      rcases h2 id hid with h3 | h3
      · exact List.mem_append_left _ (h id h3)
      · exact List.mem_append_right _ h3
    · exact .inr h

/-- C87, partial: if every directory is found and every scan can be applied, pruning removes nothing that the manifest refers to.
Missing: updates in which that fails, for which it is false (see below). -/
theorem C87_prune_keeps_manifest_partial : PruneSafe true := by
  intro own ok s hs hp _ p l hl id hid
  have hi : Inv s := by
    rename_i hok
    clear hp hl hok
    induction hs with
    | nil => exact fun q l _ => .inr ⟨[], List.nil_prefix, by simp [start]⟩
    | cons _ h ih => exact step_inv h ih
  rcases hi p l hl with h | ⟨q, -, hq⟩
  · exact h id hid
  · rw [hp q] at hq; cases hq

namespace Example

/-- The root directory with the sub-directories 1 and 2; the first refers to the list 7. -/
def own : DirPath → Option (List Id)
  | [] => some []
  | [[1]] => some [[7]]
  | [[2]] => some []
  | _ => none

def s1 : State := ⟨own, fun p => p == [[1]] || p == [[2]], [], true⟩
def s2 : State := ⟨own, fun p => p == [[2]], [], false⟩
def s2' : State := ⟨own, fun p => p == [[2]], [], true⟩
def s3 : State := ⟨own, fun _ => false, [], true⟩

theorem scan1 (r : Bool) : Step r (start own true) s1 := by
  refine .scanned (p := []) (l := []) (by simp [start]) rfl (fun l h => ⟨[], rfl, fun id hid => by cases h; exact .inl hid⟩) rfl rfl ?_ ?_ (fun q _ => rfl)
  · intro q hq hne
    exact absurd (by simpa [start] using hq) hne
  · intro n r h
    rw [List.nil_append] at h ⊢
    by_cases h1 : n = [1]
    · simp [s1, h1]
    · by_cases h2 : n = [2]
      · simp [s1, h2]
      · exfalso
        apply h
        show own (n :: r) = none
        unfold own
        split
        · rename_i e; cases e
        · rename_i e; cases e; exact absurd rfl h1
        · rename_i e; cases e; exact absurd rfl h2
        · rfl

theorem scan2 (r : Bool) {s : State} (ho : s.own = own) (hp : s.pending = fun p => p == [[2]]) (hk : s.keep = []) : Step r s s3 := by
  refine .scanned (p := [[2]]) (l := []) (by simp [hp]) (by rw [ho]; rfl) (fun l h => ⟨[], rfl, fun id hid => by cases h; exact .inl hid⟩)
    (by rw [hk]; rfl) rfl ?_ ?_ (fun q _ => by rw [ho]; rfl)
  · intro q hq hne
    exact absurd (by simpa [hp] using hq) hne
  · intro n r h
    exact absurd rfl h

/-- C87 is violated: the status is that of the last task only (manifest_updater.cc:846-873), so a scan that could not be applied is
forgotten when a later one succeeds, and pruning then removes lists that the manifest refers to. -/
theorem C87_prune_after_failed_scan_violated : ¬ PruneSafe false := by
  intro h
  have hst : Steps false (start own true) s3 := .cons (.cons (.cons (.nil _) (scan1 _))
    (.failed (p := [[1]]) (s' := s2) rfl (by simp [s1]) rfl rfl rfl fun q => by
      by_cases h1 : q = [[1]]
      · subst h1; rfl
      · have e1 : (q == [[1]]) = false := by simpa using h1
        simp only [s1, s2, e1, bne, Bool.false_or, Bool.not_false, Bool.and_true])) (scan2 _ rfl rfl rfl)
  have := h own true s3 hst (fun _ => rfl) rfl [[1]] [[7]] rfl [7] (by simp)
  cases this

/-- The same for a directory that was not found; the status is not even changed. -/
theorem C87_prune_after_skipped_directory_violated : ¬ PruneSafe false := by
  intro h
  have hst : Steps false (start own true) s3 := .cons (.cons (.cons (.nil _) (scan1 _))
    (.skipped (p := [[1]]) (s' := s2') rfl (by simp [s1]) rfl rfl rfl fun q => by
      by_cases h1 : q = [[1]]
      · subst h1; rfl
      · have e1 : (q == [[1]]) = false := by simpa using h1
        simp only [s1, s2', e1, bne, Bool.false_or, Bool.not_false, Bool.and_true])) (scan2 _ rfl rfl rfl)
  have := h own true s3 hst (fun _ => rfl) rfl [[1]] [[7]] rfl [7] (by simp)
  cases this

/-- A run in which all directories are scanned and the list of the first is kept. -/
example : ∃ s, Steps true (start own true) s ∧ (∀ p, s.pending p = false) ∧ s.ok = true ∧ s.own [[1]] = some [[7]] ∧ [7] ∈ s.keep := by
  let s3' : State := ⟨own, fun _ => false, [[7]], true⟩
  let s2'' : State := ⟨own, fun p => p == [[2]], [[7]], true⟩
  refine ⟨s3', .cons (t := s2'') (.cons (.cons (.nil _) (scan1 _)) ?_) ?_, fun _ => rfl, rfl, rfl, by simp [s3']⟩
  · refine .scanned (p := [[1]]) (l := [[7]]) (by simp [s1]) rfl (fun l h => ⟨_, rfl, fun id hid => by cases h; exact .inl hid⟩) rfl rfl ?_ ?_ (fun q _ => rfl)
    · intro q hq hne
      simpa [s1, s2'', hne] using hq
    · intro n r h
      exact absurd rfl h
  · refine .scanned (p := [[2]]) (l := []) (by simp [s2'']) rfl (fun l h => ⟨_, rfl, fun id hid => by cases h; exact .inl hid⟩) rfl rfl ?_ ?_ (fun q _ => rfl)
    · intro q hq hne
      exact absurd (by simpa [s2''] using hq) hne
    · intro n r h
      exact absurd rfl h

end Example
end Prune
end Verif.Updater
