/-!
# C187: a file a program waits for is delivered while the update goes on

manifest/manifest_updater.cc (`Update`, `MaybeFlushAndPushManifest`, `WantManifestFlushed`, `AddPriorityAssets`,
`PrioritizeQueuedAssets`), manifest/pending_assets_queue.cc (the deadline returned by `Prioritize`),
cdc_stream/grpc_asset_stream_server.cc (`GetManifestId`, `ProcessAssets`), cdc_fuse_fs/cdc_fuse_fs.cc (`QueueOpenRequest`,
`SetManifest`).

A program on the remote side opens a file or directory that is still being processed. The file system asks the workstation to
prioritise it and keeps the request; after every new manifest it tries again and, if it still has to wait, asks again. The workstation
pushes an intermediate manifest some time after it was asked.

One update, one remote side. Assets are numbers; a manifest is the list of the assets processed so far, in order, which stands for its
content id: two manifests are the same exactly if the lists are. An asset processed twice (files do not change here) gives the same
manifest again; that happens if the queue holds it twice, for instance because an earlier `Update` failed and left it there. In which order assets are started is C33; how requests that arrive
while a manifest is replaced are handled is C67. The order of steps of the two threads involved (the updater and the file system) and
the passing of time are arbitrary.
-/
namespace Verif.Updater.Prompt

abbrev Asset := Nat

/-- A queued or running task: chunking a file or scanning a directory. -/
structure Task where
  asset : Asset
  dir : Bool
deriving DecidableEq, Repr

/-- Where the loop manifest_updater.cc:833-873 is. -/
inductive Pc where
  /-- at the top, line 833 -/
  | top
  /-- after `MaybeFlushAndPushManifest`, line 840 -/
  | decide
  /-- in `QueueTasks`, line 842 -/
  | queue (drain : Bool)
  /-- in `GetCompletedTask`, line 846 -/
  | wait
  /-- after the loop: the final manifest was pushed, line 884 -/
  | done
deriving DecidableEq, Repr

structure State where
  now : Int := 0
  pc : Pc := .top
  /-- `queue_` -/
  queued : List Task
  /-- the tasks in the thread pool -/
  tasks : List Task := []
  /-- the manifest in memory: what has been processed, with the time (the time is only for the specification) -/
  built : List (Asset × Int) := []
  /-- the manifest last pushed: `id_` of the configuration service -/
  pushed : List (Asset × Int) := []
  /-- the manifest of the file system: the last one sent to it -/
  told : List (Asset × Int) := []
  /-- `flush_deadline_`; `none` is the infinite future -/
  deadline : Option Int := none
  /-- `last_manifest_flush_` -/
  lastFlush : Int := 0
  /-- `priority_assets_`: when the requests were received -/
  prio : List Int := []
  /-- requests sent by the file system (`ProcessAssets`) and not yet received -/
  inFlight : Nat := 0
  /-- the programs waiting, with the time they asked (only for the specification) -/
  waiting : List (Asset × Int) := []
deriving DecidableEq, Repr

/-- `kMinAssetProcessingTime` (ms), manifest_updater.h:306-307. -/
def minProcessing : Int := 200
/-- `kMinDelayBetweenFlush` (ms), manifest_updater.h:310-311. -/
def minDelay : Int := 500

/-- `WantManifestFlushed`, manifest_updater.cc:521-525; the handler is set. -/
def State.want (s : State) : Bool :=
  (match s.deadline with
   | none => false
   | some d => decide (d < s.now)) && decide (s.lastFlush + minDelay < s.now)

/-- `dir_scanner_tasks_queued`. -/
def State.scanners (s : State) : List Task := s.tasks.filter Task.dir

/-- The deadline `Prioritize` returns, pending_assets_queue.cc:52-55 and 91: the time of the first request plus the processing time. -/
def returned : List Int → Option Int
  | [] => none
  | r :: l => match returned l with
    | none => some (r + minProcessing)
    | some d => some (min (r + minProcessing) d)

/-- `if (deadline < flush_deadline_) flush_deadline_ = deadline`, manifest_updater.cc:557. -/
def earlier : Option Int → Option Int → Option Int
  | none, d => d
  | some d, none => some d
  | some d, some e => if e < d then some e else some d

/-- What may be restricted: `once`: only runs in which no asset is queued twice. -/
structure Mode where
  once : Bool

def has (m : List (Asset × Int)) (a : Asset) : Bool := m.any (·.1 == a)

/-- The assets of the tasks are pairwise different and not processed yet. -/
def Distinct (l : List Task) (built : List (Asset × Int)) : Prop := (l.map Task.asset).Nodup ∧ ∀ t ∈ l, has built t.asset = false

/-- One step. -/
inductive Step (o : Mode) : State → State → Prop where
  /-- time passes -/
  | tick {s : State} (d : Int) : 0 ≤ d → Step o s { s with now := s.now + d }
  /-- `MaybeFlushAndPushManifest`, manifest_updater.cc:527-538, 834: flush and push (`FlushAndPushManifest`, 505-519; `SetManifestId`,
  grpc_asset_stream_server.cc:204-209) -/
  | flush {s : State} : s.pc = .top → (s.queued ≠ [] ∨ s.tasks ≠ []) → s.scanners = [] → s.want = true →
      Step o s { s with pc := .decide, pushed := s.built, deadline := none, lastFlush := s.now }
  | noFlush {s : State} : s.pc = .top → (s.queued ≠ [] ∨ s.tasks ≠ []) → ¬ (s.scanners = [] ∧ s.want = true) → Step o s { s with pc := .decide }
  /-- `drain_dir_scanners` and `PrioritizeQueuedAssets`, manifest_updater.cc:840-842, 564, 548-558 -/
  | prioritize {s : State} : s.pc = .decide →
      Step o s { s with pc := .queue s.want, prio := [], deadline := if s.prio = [] then s.deadline else earlier s.deadline (returned s.prio) }
  /-- a task is started, manifest_updater.cc:576-616 -/
  | start {s : State} {drain : Bool} {l₁ l₂ : List Task} {t : Task} : s.pc = .queue drain → s.queued = l₁ ++ t :: l₂ →
      (drain = true → t.dir = false) → Step o s { s with queued := l₁ ++ l₂, tasks := s.tasks ++ [t] }
  | started {s : State} {drain : Bool} : s.pc = .queue drain → Step o s { s with pc := .wait }
  /-- a task is complete, manifest_updater.cc:846-873 (704-738 for a file, failed or not, 740-766 for a directory); scanning a directory may
  queue more -/
  | complete {s : State} {l₁ l₂ new : List Task} {t : Task} : s.pc = .wait → s.tasks = l₁ ++ t :: l₂ → (t.dir = false → new = []) →
      (o.once = true → Distinct (s.queued ++ s.tasks ++ new) s.built) →
      Step o s { s with pc := .top, tasks := l₁ ++ l₂, queued := s.queued ++ new,
                        built := if has s.built t.asset then s.built else s.built ++ [(t.asset, s.now)] }
  /-- the end of the loop and the final push, manifest_updater.cc:875-884 -/
  | finish {s : State} : s.pc = .top → s.queued = [] → s.tasks = [] → Step o s { s with pc := .done, pushed := s.built, lastFlush := s.now }
  /-- a program asks for an asset that is in progress in the manifest of the file system: it waits, and a request is sent (cdc_fuse_fs.cc:402-459) -/
  | ask {s : State} (a : Asset) : has s.told a = false →
      Step o s { s with waiting := s.waiting ++ [(a, s.now)], inFlight := s.inFlight + 1 }
  /-- `ProcessAssets` (grpc_asset_stream_server.cc:190-202) and `AddPriorityAssets` (manifest_updater.cc:540-546) -/
  | receive {s : State} : s.inFlight ≠ 0 → Step o s { s with inFlight := s.inFlight - 1, prio := s.prio ++ [s.now] }
  /-- the stream of manifest ids sends the current one if it differs from the one sent last (grpc_asset_stream_server.cc:155-178, 244-252); the
  file system takes it over, answers the requests it can answer and asks again for the others (cdc_fuse_fs.cc:1532-1606) -/
  | tell {s : State} : s.told ≠ s.pushed →
      Step o s { s with told := s.pushed, waiting := s.waiting.filter (fun w => ! has s.pushed w.1),
                        inFlight := s.inFlight + (s.waiting.filter (fun w => ! has s.pushed w.1)).length }

/-- Any number of steps. -/
inductive Run (o : Mode) : State → State → Prop where
  | refl (s : State) : Run o s s
  | tail {s t u : State} : Run o s t → Step o t u → Run o s u

/-- The beginning of the loop: the first intermediate manifest has just been pushed (manifest_updater.cc:822-826), there may be requests. -/
structure Start (s : State) : Prop where
  pc : s.pc = .top
  built : s.built = []
  pushed : s.pushed = []
  told : s.told = []
  tasks : s.tasks = []
  waiting : s.waiting = []

/-! ## Specification -/

/-- Something is on its way that makes the updater push, or the file system look, again. -/
def Promised (s : State) : Prop := s.inFlight ≠ 0 ∨ s.prio ≠ [] ∨ s.deadline ≠ none ∨ s.told ≠ s.pushed

/-- A program that waits is not forgotten while the update goes on. -/
def NotForgotten (o : Mode) : Prop := ∀ s₀ s, Start s₀ → (o.once = true → Distinct s₀.queued []) → Run o s₀ s → s.pc ≠ .done → s.waiting ≠ [] → Promised s

/-- An asset that has been processed is delivered within `T` milliseconds to a program waiting for it. -/
def Within (T : Int) (o : Mode) : Prop := ∀ s₀ s, Start s₀ → (o.once = true → Distinct s₀.queued []) → Run o s₀ s → ∀ a r b, (a, r) ∈ s.waiting → (a, b) ∈ s.built → s.now ≤ max r b + T

/-! ## Proof -/

theorem returned_ne {l : List Int} (h : l ≠ []) : returned l ≠ none := by
  cases l with
  | nil => exact absurd rfl h
  | cons r l => unfold returned; split <;> simp

theorem earlier_ne {d e : Option Int} (h : e ≠ none) : earlier d e ≠ none := by
  cases d <;> cases e <;> simp_all [earlier]
  split <;> simp
theorem earlier_left {d : Int} {e : Option Int} : ∃ x, earlier (some d) e = some x ∧ x ≤ d := by
  cases e with
  | none => exact ⟨d, rfl, Int.le_refl _⟩
  | some e => unfold earlier; dsimp only; split
              · exact ⟨e, rfl, by omega⟩
              · exact ⟨d, rfl, Int.le_refl _⟩

/-- What is known in every run: manifests only grow. -/
structure Inv (s : State) : Prop where
  told : s.told <+: s.pushed
  pushed : s.pushed <+: s.built
  waiting : ∀ w ∈ s.waiting, has s.told w.1 = false

theorem inv_step {o : Mode} {s t : State} (h : Inv s) (hs : Step o s t) : Inv t := by
  cases hs with
  | tick d _ => exact ⟨h.told, h.pushed, h.waiting⟩
  | flush => exact ⟨h.told.trans h.pushed, List.prefix_refl _, h.waiting⟩
  | noFlush => exact ⟨h.told, h.pushed, h.waiting⟩
  | prioritize => exact ⟨h.told, h.pushed, h.waiting⟩
  | start => exact ⟨h.told, h.pushed, h.waiting⟩
  | started => exact ⟨h.told, h.pushed, h.waiting⟩
  | complete =>
    refine ⟨h.told, h.pushed.trans ?_, h.waiting⟩
    dsimp only
    split
    · exact List.prefix_refl _
    · exact List.prefix_append ..
  | finish => exact ⟨h.told.trans h.pushed, List.prefix_refl _, h.waiting⟩
  | ask a ha =>
    refine ⟨h.told, h.pushed, fun w hw => ?_⟩
    rcases List.mem_append.mp hw with hw | hw
    · exact h.waiting w hw
    · simp only [List.mem_singleton] at hw; subst hw; exact ha
  | receive => exact ⟨h.told, h.pushed, h.waiting⟩
  | tell =>
    refine ⟨List.prefix_refl _, h.pushed, fun w hw => ?_⟩
    have := (List.mem_filter.1 hw).2
    simpa using this

theorem Start.inv {s : State} (h : Start s) : Inv s :=
  ⟨by rw [h.told, h.pushed]; exact List.prefix_refl _, by rw [h.pushed]; exact List.nil_prefix, by rw [h.waiting]; simp⟩

theorem Run.inv {o : Mode} {s t : State} (hr : Run o s t) (h : Inv s) : Inv t := by
  induction hr with
  | refl => exact h
  | tail _ hs ih => exact inv_step (ih) hs

/-- At the top of the loop something has been processed since the last push, or no request has been looked at since. -/
def News (s : State) : Prop := s.pc = .top → s.built ≠ s.pushed ∨ (s.waiting ≠ [] → s.inFlight ≠ 0 ∨ s.prio ≠ [])

theorem news_step {o : Mode} (ho : o.once = true) {s t : State} (hi : Inv s) (h : News s) (hs : Step o s t) : News t := by
  intro hp
  cases hs with
  | tick d _ => exact h hp
  | flush => cases hp
  | noFlush => cases hp
  | prioritize => cases hp
  | start h1 => rw [show s.pc = .top from hp] at h1; cases h1
  | started => cases hp
  | @complete l₁ l₂ new t h1 h2 h3 h4 =>
    left
    have hd : has s.built t.asset = false := (h4 ho).2 t (by rw [h2]; simp)
    dsimp only
    rw [if_neg (by simp [hd])]
    intro he
    have := hi.pushed.length_le
    rw [← he] at this
    simp only [List.length_append, List.length_singleton] at this
    omega
  | finish => cases hp
  | ask a ha => right; intro _; left; dsimp only; omega
  | receive _ => right; intro _; right; simp
  | tell _ =>
    right
    dsimp only
    intro hw
    left
    have := List.length_pos_iff.2 hw
    omega

theorem promised_step {o : Mode} {s t : State} (hi : Inv s) (hn : News s) (h : s.pc ≠ .done → s.waiting ≠ [] → Promised s) (hs : Step o s t) :
    t.pc ≠ .done → t.waiting ≠ [] → Promised t := by
  intro hp hw
  unfold Promised at *
  cases hs with
  | tick d _ => exact h hp hw
  | flush h1 _ _ _ =>
    rcases hn h1 with hn | hn
    · right; right; right
      intro he
      have he : s.told = s.built := he
      apply hn
      have a := hi.told.length_le
      have b := hi.pushed.length_le
      rw [he] at a
      exact (hi.pushed.eq_of_length (by omega)).symm
    · rcases hn hw with h | h
      · exact .inl h
      · exact .inr (.inl h)
  | noFlush h1 => exact h (by rw [h1]; simp) hw
  | prioritize h1 =>
    have h := h (by rw [h1]; simp) hw
    dsimp only
    by_cases hq : s.prio = []
    · rw [if_pos hq]
      rcases h with h | h | h | h
      · exact .inl h
      · exact absurd hq h
      · exact .inr (.inr (.inl h))
      · exact .inr (.inr (.inr h))
    · rw [if_neg hq]
      exact .inr (.inr (.inl (earlier_ne (returned_ne hq))))
  | start h1 => exact h (by rw [h1]; simp) hw
  | started h1 => exact h (by rw [h1]; simp) hw
  | complete h1 => exact h (by rw [h1]; simp) hw
  | finish => exact absurd rfl hp
  | ask a ha => left; dsimp only; omega
  | receive _ => right; left; simp
  | tell _ =>
    left
    dsimp only at hw ⊢
    have := List.length_pos_iff.2 hw
    omega

/-- C187: as long as no asset is queued twice, a program that waits for a file or directory is not forgotten: in every state of every run a
request is on its way, or the updater has a deadline to push, or a new manifest is on its way to the file system. -/
theorem C187_not_forgotten_partial : NotForgotten ⟨true⟩ := by
  intro s₀ s h0 _ hr
  have : News s ∧ (s.pc ≠ .done → s.waiting ≠ [] → Promised s) := by
    induction hr with
    | refl => exact ⟨fun _ => .inr fun hw => absurd h0.waiting hw, fun _ hw => absurd h0.waiting hw⟩
    | tail hr hs ih => exact ⟨news_step rfl (hr.inv h0.inv) ih.1 hs, promised_step (hr.inv h0.inv) ih.1 ih.2 hs⟩
  exact this.2

/-- A run in which the updater does not push. -/
inductive Quiet (o : Mode) : State → State → Prop where
  | refl (s : State) : Quiet o s s
  | tail {s t u : State} : Quiet o s t → Step o t u → u.lastFlush = t.lastFlush → u.pushed = t.pushed →
      (t.pc = .top → u.pc = .decide → ¬ (t.scanners = [] ∧ t.want = true)) → Quiet o s u

/-- The deadline has passed and the last push is long enough ago. -/
def Due (s : State) : Prop := ∃ d, s.deadline = some d ∧ d < s.now ∧ s.lastFlush + minDelay < s.now

theorem due_want {s : State} : Due s ↔ s.want = true := by
  unfold Due State.want
  cases s.deadline with
  | none => simp
  | some d => simp

/-- In a run without push that starts when a push is due, a push stays due and no scan of a directory is started. -/
theorem quiet_due {o : Mode} {s t : State} (hq : Quiet o s t) (hpc : s.pc = .top ∨ s.pc = .decide) (hd : Due s) :
    Due t ∧ (∃ x, t.scanners.Sublist x ∧ x = s.scanners) ∧ (t.pc ≠ .queue false) := by
  induction hq with
  | refl =>
    refine ⟨hd, ⟨_, List.Sublist.refl _, rfl⟩, ?_⟩
    rcases hpc with h | h <;> rw [h] <;> simp
  | @tail t u hq hs hl hp hn ih =>
    obtain ⟨hd, ⟨x, hsub, hx⟩, hdr⟩ := ih
    have hw : t.want = true := due_want.1 hd
    cases hs with
    | tick d h0 =>
      obtain ⟨e, h1, h2, h3⟩ := hd
      exact ⟨⟨e, h1, by dsimp only; omega, by dsimp only; omega⟩, ⟨x, hsub, hx⟩, hdr⟩
    | flush h1 _ h3 h4 => exact absurd ⟨h3, h4⟩ (hn h1 rfl)
    | noFlush h1 h2 => exact ⟨hd, ⟨x, hsub, hx⟩, by simp⟩
    | prioritize h1 =>
      obtain ⟨e, h1, h2, h3⟩ := hd
      refine ⟨?_, ⟨x, hsub, hx⟩, by rw [hw]; simp⟩
      by_cases hq : t.prio = []
      · exact ⟨e, by simp [hq, h1], h2, h3⟩
      · obtain ⟨y, hy, hle⟩ := earlier_left (d := e) (e := returned t.prio)
        refine ⟨y, by simp [hq, h1, hy], by dsimp only; omega, h3⟩
    | @start drain l₁ l₂ tk h1 h2 h3 =>
      refine ⟨hd, ⟨x, ?_, hx⟩, by dsimp only; exact hdr⟩
      have hdr' : drain = true := by
        cases drain with
        | true => rfl
        | false => exact absurd h1 hdr
      have : tk.dir = false := h3 hdr'
      show (List.filter Task.dir (t.tasks ++ [tk])).Sublist x
      rw [List.filter_append]
      have e : List.filter Task.dir [tk] = [] := by simp [this]
      rw [e, List.append_nil]
      exact hsub
    | started h1 => exact ⟨hd, ⟨x, hsub, hx⟩, by simp⟩
    | @complete l₁ l₂ new tk h1 h2 h3 h4 =>
      refine ⟨hd, ⟨x, ?_, hx⟩, by simp⟩
      have e : t.scanners = List.filter Task.dir (l₁ ++ tk :: l₂) := by unfold State.scanners; rw [h2]
      rw [e] at hsub
      refine List.Sublist.trans ?_ hsub
      show (List.filter Task.dir (l₁ ++ l₂)).Sublist _
      exact List.Sublist.filter _ (List.Sublist.append_left (List.sublist_cons_self ..) _)
    | finish h1 =>
      obtain ⟨e, _, _, h3⟩ := hd
      have hl : t.now = t.lastFlush := hl
      unfold minDelay at h3
      omega
    | ask a ha => exact ⟨hd, ⟨x, hsub, hx⟩, hdr⟩
    | receive h1 => exact ⟨hd, ⟨x, hsub, hx⟩, hdr⟩
    | tell h1 => exact ⟨hd, ⟨x, hsub, hx⟩, hdr⟩

/-- C187: once a push is due at the top of the loop, no directory scan is started before it, and as soon as those that are running are
done the manifest is pushed in the next iteration: then no other step of the updater is possible. What is pushed has everything
processed until then. -/
theorem C187_next_push {o : Mode} {s t : State} (hq : Quiet o s t) (hpc : s.pc = .top) (hd : Due s) :
    t.scanners.Sublist s.scanners ∧
    (t.pc = .top → t.scanners = [] → (t.queued ≠ [] ∨ t.tasks ≠ []) → ∀ u, Step o t u → u.pc ≠ .top → u.pushed = t.built ∧ u.lastFlush = t.now) := by
  obtain ⟨h1, ⟨x, h2, rfl⟩, h3⟩ := quiet_due hq (.inl hpc) hd
  refine ⟨h2, fun hp hs hb u hu hne => ?_⟩
  have hw := due_want.1 h1
  cases hu with
  | tick d _ => exact absurd hp hne
  | flush => exact ⟨rfl, rfl⟩
  | noFlush _ _ h => exact absurd ⟨hs, hw⟩ h
  | prioritize h => rw [hp] at h; cases h
  | start h => rw [hp] at h; cases h
  | started h => rw [hp] at h; cases h
  | complete h => rw [hp] at h; cases h
  | finish => exact ⟨rfl, rfl⟩
  | ask a _ => exact absurd hp hne
  | receive _ => exact absurd hp hne
  | tell _ => exact absurd hp hne

theorem returned_le {l : List Int} {r : Int} (h : r ∈ l) : ∃ d, returned l = some d ∧ d ≤ r + 200 := by
  induction l with
  | nil => cases h
  | cons x l ih =>
    unfold returned
    rcases List.mem_cons.mp h with rfl | h
    · cases hl : returned l with
      | none => exact ⟨_, rfl, Int.le_refl _⟩
      | some d => exact ⟨_, rfl, Int.min_le_left ..⟩
    · obtain ⟨d, hd, hle⟩ := ih h
      rw [hd]
      exact ⟨_, rfl, Int.le_trans (Int.min_le_right ..) hle⟩

theorem earlier_right {d : Option Int} {e : Int} : ∃ x, earlier d (some e) = some x ∧ x ≤ e := by
  cases d with
  | none => exact ⟨e, rfl, Int.le_refl _⟩
  | some d =>
    unfold earlier
    dsimp only
    split
    · exact ⟨e, rfl, Int.le_refl _⟩
    · exact ⟨d, rfl, by omega⟩

/-- C187: a request that has been received sets the deadline to at most 200 ms after it was received, as soon as the updater looks at it, and
neither further requests nor anything else than a push moves the deadline to a later time. -/
theorem C187_deadline {o : Mode} {s t : State} (hq : Quiet o s t) :
    (∀ r ∈ s.prio, r ∈ t.prio ∨ ∃ d, t.deadline = some d ∧ d ≤ r + 200) ∧
    (∀ d, s.deadline = some d → ∃ d', t.deadline = some d' ∧ d' ≤ d) := by
  have key : ∀ {t u : State}, Step o t u → (t.pc = .top → u.pc = .decide → ¬ (t.scanners = [] ∧ t.want = true)) →
      (∀ r ∈ t.prio, r ∈ u.prio ∨ ∃ d, u.deadline = some d ∧ d ≤ r + 200) ∧
      (∀ d, t.deadline = some d → ∃ d', u.deadline = some d' ∧ d' ≤ d) := by
    intro t u hs hn
    have same : (∀ r ∈ t.prio, r ∈ t.prio ∨ ∃ d, t.deadline = some d ∧ d ≤ r + 200) ∧
      (∀ d, t.deadline = some d → ∃ d', t.deadline = some d' ∧ d' ≤ d) := ⟨fun r hr => .inl hr, fun d hd => ⟨d, hd, Int.le_refl _⟩⟩
    cases hs with
    | tick => exact same
    | flush h1 _ h3 h4 => exact absurd ⟨h3, h4⟩ (hn h1 rfl)
    | noFlush => exact same
    | prioritize =>
      refine ⟨fun r hr => .inr ?_, fun d hd => ?_⟩
      · have hne : t.prio ≠ [] := fun e => by rw [e] at hr; cases hr
        obtain ⟨d, hd, hle⟩ := returned_le hr
        obtain ⟨x, hx, hle'⟩ := earlier_right (d := t.deadline) (e := d)
        refine ⟨x, ?_, by omega⟩
        show (if _ then _ else _) = _
        rw [if_neg hne, hd, hx]
      · by_cases hq : t.prio = []
        · exact ⟨d, by simp [hq, hd], Int.le_refl _⟩
        · obtain ⟨y, hy, hle⟩ := earlier_left (d := d) (e := returned t.prio)
          exact ⟨y, by simp [hq, hd, hy], hle⟩
    | start => exact same
    | started => exact same
    | complete => exact same
    | finish => exact same
    | ask => exact same
    | receive => exact ⟨fun r hr => .inl (List.mem_append_left _ hr), same.2⟩
    | tell => exact same
  induction hq with
  | refl => exact ⟨fun r hr => .inl hr, fun d hd => ⟨d, hd, Int.le_refl _⟩⟩
  | tail _ hs _ _ hn ih =>
    obtain ⟨k1, k2⟩ := key hs hn
    refine ⟨fun r hr => ?_, fun d hd => ?_⟩
    · rcases ih.1 r hr with h | ⟨d, hd, hle⟩
      · exact k1 r h
      · obtain ⟨d', hd', hle'⟩ := k2 d hd
        exact .inr ⟨d', hd', by omega⟩
    · obtain ⟨d', hd', hle'⟩ := ih.2 d hd
      obtain ⟨d'', hd'', hle''⟩ := k2 d' hd'
      exact ⟨d'', hd'', by omega⟩

/-- C187: the first manifest pushed after an asset was processed answers every program that waits for it: after the manifest has
reached the file system no program waits for an asset that is in it. At the end of the update everything is pushed. -/
theorem C187_answered {o : Mode} {s₀ s : State} (h0 : Start s₀) (hr : Run o s₀ s) :
    (s.told = s.pushed → ∀ a r, (a, r) ∈ s.waiting → has s.pushed a = false) ∧
    (∀ t, Step o s t → t.pushed ≠ s.pushed → t.pushed = s.built) ∧
    (s.pc = .done → s.pushed = s.built) := by
  have hi := hr.inv h0.inv
  refine ⟨fun he a r hw => by rw [← he]; exact hi.waiting _ hw, fun t ht hne => ?_, ?_⟩
  · cases ht with
    | flush => rfl
    | finish => rfl
    | _ => exact absurd rfl hne
  · clear hi
    induction hr with
    | refl => intro h; rw [h0.pc] at h; cases h
    | tail hr hs ih =>
      intro hp
      cases hs with
      | tick d _ => exact ih hp
      | flush => cases hp
      | noFlush => cases hp
      | prioritize => cases hp
      | start h => rw [show _ = Pc.done from hp] at h; cases h
      | started => cases hp
      | complete => cases hp
      | finish => rfl
      | ask a _ => exact ih hp
      | receive _ => exact ih hp
      | tell _ => exact ih hp

/-! ### Examples -/

theorem Step.run {o : Mode} {s t : State} (h : Step o s t) : Run o s t := .tail (.refl s) h
theorem Run.trans {o : Mode} {s t u : State} (h : Run o s t) (h' : Run o t u) : Run o s u := by
  induction h' with
  | refl => exact h
  | tail _ hs ih => exact .tail ih hs

/-- Three large files; the first intermediate manifest was pushed at 1000 ms. -/
def s0 : State := { queued := [⟨1, false⟩, ⟨2, false⟩, ⟨3, false⟩], now := 1000, lastFlush := 1000 }

theorem s0_start : Start s0 := ⟨rfl, rfl, rfl, rfl, rfl, rfl⟩
theorem s0_distinct : Distinct s0.queued [] := ⟨by decide, by intro t _; rfl⟩

/-- A program asks for the file 1; all three files are started. -/
theorem asked (o : Mode) : Run o s0
    ⟨1000, .wait, [], [⟨1, false⟩, ⟨2, false⟩, ⟨3, false⟩], [], [], [], some 1200, 1000, [], 0, [(1, 1000)]⟩ := by
  refine .tail (.tail (.tail (.tail (.tail (.tail (.tail (.tail (.refl _) (.ask 1 rfl)) (.receive (by decide)))
    (.noFlush rfl (.inl (by decide)) (by decide))) (.prioritize rfl)) (.start (l₁ := []) rfl rfl (by decide))) (.start (l₁ := []) rfl rfl (by decide)))
    (.start (l₁ := []) rfl rfl (by decide))) (.started rfl)

/-- The file 1 is ready after a second; the manifest is pushed and the program has its file. -/
example : ∃ s, Run ⟨true⟩ s0 s ∧ s.pushed = [(1, 2000)] ∧ s.waiting = [] ∧ s.now = 2000 := by
  refine ⟨_, .tail (.tail (.tail (.tail (asked _) (.tick 1000 (by decide))) (.complete (l₁ := []) rfl rfl (fun _ => rfl) (fun _ => ?_)))
    (.flush rfl (.inr (by decide)) rfl (by decide))) (.tell (by decide)), rfl, rfl, rfl⟩
  exact ⟨by decide, by intro t _; rfl⟩

/-- The state at the top of the loop when the push is due. -/
example : ∃ s, Run ⟨true⟩ s0 s ∧ s.pc = .top ∧ Due s ∧ s.scanners = [] ∧ s.waiting ≠ [] := by
  refine ⟨_, .tail (.tail (asked _) (.tick 1000 (by decide))) (.complete (l₁ := []) (new := []) rfl rfl (fun _ => rfl) (fun _ => ?_)), rfl,
    ⟨1200, rfl, by decide, by decide⟩, rfl, by decide⟩
  exact ⟨by decide, by intro t _; rfl⟩

/-! ### What goes wrong -/

/-- C187, what goes wrong: the updater looks at the deadline only when a task is complete. A file that is ready before the deadline stays in the
workstation until the next task is complete, however long that takes: no time is enough for the delivery. -/
theorem C187_no_wakeup_violated (T : Int) : ¬ Within T ⟨true⟩ := by
  intro h
  have hr : Run ⟨true⟩ s0
      ⟨1100 + max T 0 + 1, .wait, [], [⟨2, false⟩, ⟨3, false⟩], [(1, 1100)], [], [], some 1200, 1000, [], 0, [(1, 1000)]⟩ := by
    have h1 : Run ⟨true⟩ s0 ⟨1100, .top, [], [⟨2, false⟩, ⟨3, false⟩], [(1, 1100)], [], [], some 1200, 1000, [], 0, [(1, 1000)]⟩ := by
      have h := Run.tail (asked ⟨true⟩) (.tick 100 (by decide))
      refine .tail h (.complete (l₁ := []) (new := []) (t := ⟨1, false⟩) rfl rfl (fun _ => rfl) (fun _ => ?_))
      exact ⟨by decide, by intro t _; rfl⟩
    have h2 := Run.tail (Run.tail (Run.tail h1 (.noFlush rfl (.inr (by decide)) (by decide))) (.prioritize rfl)) (.started rfl)
    have h3 := Run.tail h2 (.tick (max T 0 + 1) (by omega))
    have e : (1100 : Int) + (max T 0 + 1) = 1100 + max T 0 + 1 := by omega
    rw [← e]
    exact h3
  have := h s0 _ s0_start (fun _ => s0_distinct) hr 1 1000 1100 (by simp) (by simp)
  simp only at this
  omega

/-- The file 2 is queued twice, once by an earlier update that failed. -/
def s1 : State := { queued := [⟨1, false⟩, ⟨2, false⟩, ⟨2, false⟩, ⟨3, false⟩], now := 1000, lastFlush := 1000 }

/-- C187, what goes wrong: if an asset is queued twice, the manifest may be the same after it was processed again. It is pushed, which
clears the deadline, but not sent to the file system, which therefore does not ask again: the program is forgotten. -/
theorem C187_same_manifest_violated : ¬ NotForgotten ⟨false⟩ := by
  intro h
  have hr : Run ⟨false⟩ s1
      ⟨3000, .decide, [], [⟨1, false⟩, ⟨3, false⟩], [(2, 2000)], [(2, 2000)], [(2, 2000)], none, 3000, [], 0, [(1, 1000)]⟩ := by
    have a : Run ⟨false⟩ s1
        ⟨1000, .wait, [], [⟨1, false⟩, ⟨2, false⟩, ⟨2, false⟩, ⟨3, false⟩], [], [], [], some 1200, 1000, [], 0, [(1, 1000)]⟩ :=
      .tail (.tail (.tail (.tail (.tail (.tail (.tail (.tail (.tail (.refl _) (.ask 1 rfl)) (.receive (by decide)))
        (.noFlush rfl (.inl (by decide)) (by decide))) (.prioritize rfl)) (.start (l₁ := []) rfl rfl (by decide))) (.start (l₁ := []) rfl rfl (by decide)))
        (.start (l₁ := []) rfl rfl (by decide))) (.start (l₁ := []) rfl rfl (by decide))) (.started rfl)
    have b : Run ⟨false⟩ s1
        ⟨2000, .wait, [], [⟨1, false⟩, ⟨2, false⟩, ⟨3, false⟩], [(2, 2000)], [(2, 2000)], [(2, 2000)], some 2200, 2000, [], 0, [(1, 1000)]⟩ :=
      .tail (.tail (.tail (.tail (.tail (.tail (.tail a (.tick 1000 (by decide)))
        (.complete (l₁ := [⟨1, false⟩]) (new := []) rfl rfl (fun _ => rfl) (fun h => nomatch h)))
        (.flush rfl (.inr (by decide)) rfl (by decide))) (.tell (by decide))) (.receive (by decide))) (.prioritize rfl)) (.started rfl)
    exact .tail (.tail (.tail b (.tick 1000 (by decide)))
      (.complete (l₁ := [⟨1, false⟩]) (new := []) rfl rfl (fun _ => rfl) (fun h => nomatch h)))
      (.flush rfl (.inr (by decide)) rfl (by decide))
  have := h s1 _ ⟨rfl, rfl, rfl, rfl, rfl, rfl⟩ (fun h => nomatch h) hr (by decide) (by decide)
  revert this
  unfold Promised
  decide

end Verif.Updater.Prompt
