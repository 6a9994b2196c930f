import Verif.Threads.Pool
/-
Model of the parallel file opener (cdc_rsync/parallel_file_opener.cc:22-120,
cdc_rsync/parallel_file_opener.h) on top of the thread pool model.

The files are given as the list `files` of the paths `files_->at(file_indices_[i])`, so the i-th
requested file is `files[i]`.  The pool task for request `i` is the number `i`
(`FileOpenTask::index_`).  `opens path` says whether `path::OpenFile` succeeds on it; a `FILE*` is
identified by the path it was opened for.  The opener is used by one thread (it has no mutex); it
interleaves with the pool's workers in every possible way.
-/
namespace Verif.Threads.Opener

open Verif.Threads.Pool (WStep CStep Reach)

/-- Where the calling thread is. -/
inductive Cpc where
  /-- outside `GetNextOpenFile` -/
  | idle
  /-- in the loop of lines 97-102 -/
  | fetching
  /-- the process aborted in `*fp_` of an error status (lines 43, 62) -/
  | crashed
deriving DecidableEq, Repr

structure State where
  /-- `pool_` -/
  pool : Pool.State
  /-- `look_ahead_index_` -/
  look : Nat := 0
  /-- `curr_index_` -/
  curr : Nat := 0
  /-- keys of `index_to_completed_tasks_`, a `std::map`, in order -/
  map : List Nat := []
  pc : Cpc := .idle
  /-- history: what the calls of `GetNextOpenFile` returned so far, in order -/
  results : List (Option String) := []

/-- `std::map::operator[]`: insertion of a key in order (line 101). -/
def ins (k : Nat) : List Nat → List Nat
  | [] => [k]
  | x :: l => if k < x then k :: x :: l else if k = x then x :: l else x :: ins k l

/-- `kNumQueuedTasks` (line 31). -/
def kNumQueuedTasks : Nat := 256

/-- The task given to the pool by `QueueNextFile` (lines 112-120): enabled if a file is left. -/
def queueNext (files : List String) (s : State) : State :=
  if s.look ≥ files.length then s
  else { s with
    pool := { s.pool with
      out := s.pool.out + 1
      queue := s.pool.queue ++ [s.look]
      queued := s.pool.queued ++ [s.look] }
    look := s.look + 1 }

/-- The loop in the constructor (lines 80-83). -/
def queueMany (files : List String) : Nat → State → State
  | 0, s => s
  | n + 1, s => queueMany files n (queueNext files s)

/-- The constructor (lines 75-84): a pool with `threads` threads (lines 24-28) and the first tasks
queued. -/
def init (files : List String) (threads : Nat) : State :=
  queueMany files (min kNumQueuedTasks files.length) { pool := Pool.init threads }

inductive Step (files : List String) (opens : String → Bool) : State → State → Prop where
  /-- a worker of the pool moves -/
  | worker (s : State) (p : Pool.State) (h : WStep s.pool p) (hpc : s.pc ≠ .crashed) :
      Step files opens s { s with pool := p }
  /-- a call past the end (lines 89-91) -/
  | past (s : State) (hpc : s.pc = .idle) (h : s.curr ≥ files.length) :
      Step files opens s { s with results := s.results ++ [none] }
  /-- a call: queue one more task and enter the loop (lines 93-97) -/
  | call (s : State) (hpc : s.pc = .idle) (h : s.curr < files.length) :
      Step files opens s { queueNext files s with pc := .fetching }
  /-- one pass of the loop (lines 97-102) -/
  | fetch (s : State) (t : Nat) (p : Pool.State) (hpc : s.pc = .fetching)
      (hm : s.map.head? ≠ some s.curr) (h : CStep (.get t) s.pool p) :
      Step files opens s { s with pool := p, map := ins t s.map }
  /-- lines 105-109, the file at the front of the map was opened -/
  | ret (s : State) (t : Nat) (m : List Nat) (f : String) (hpc : s.pc = .fetching)
      (hm : s.map = t :: m) (ht : t = s.curr) (hf : files[t]? = some f) (ho : opens f = true) :
      Step files opens s
        { s with map := m, curr := s.curr + 1, pc := .idle, results := s.results ++ [some f] }
  /-- line 106 with line 62: `*fp_` of an error status aborts the process -/
  | crash (s : State) (t : Nat) (m : List Nat) (f : String) (hpc : s.pc = .fetching)
      (hm : s.map = t :: m) (ht : t = s.curr) (hf : files[t]? = some f) (ho : opens f = false) :
      Step files opens s { s with pc := .crashed }

inductive Reach' (files : List String) (opens : String → Bool) (threads : Nat) : State → Prop where
  | init : Reach' files opens threads (init files threads)
  | step {s s'} : Reach' files opens threads s → Step files opens s s' →
      Reach' files opens threads s'

/-! ### Invariant -/

structure Inv (files : List String) (threads : Nat) (s : State) : Prop where
  pool : Reach threads s.pool
  shut : s.pool.shutdown = false
  cb : s.pool.hasCb = false
  cbLog : s.pool.cbLog = []
  queued : s.pool.queued = List.range s.look
  lookLe : s.look ≤ files.length
  ahead : s.curr < files.length → s.pc = .fetching → s.curr < s.look
  currLe : s.curr ≤ s.look
  taken : ∀ t, s.pool.taken.count t = (if t ∈ s.map then 1 else 0) + (if t < s.curr then 1 else 0)
  sorted : s.map.Pairwise (· < ·)
  mapGe : ∀ t ∈ s.map, s.curr ≤ t
  fetch : s.pc ≠ .idle → s.curr < files.length
  res : ∃ k, s.results = (files.take s.curr).map some ++ List.replicate k none
  resK : ∀ k, s.results = (files.take s.curr).map some ++ List.replicate k none → 0 < k →
    files.length ≤ s.curr
  window : s.look ≤ s.curr + kNumQueuedTasks + 1
  windowIdle : s.pc = .idle → s.look ≤ s.curr + kNumQueuedTasks

theorem count_range (n t : Nat) : (List.range n).count t = if t < n then 1 else 0 := by
  induction n with
  | zero => simp
  | succ n ih =>
    rw [List.range_succ, Pool.count_snoc, ih]
    simp only [Pool.sgl, beq_iff_eq]
    split <;> split <;> (try split) <;> omega

theorem mem_ins (k x : Nat) (l : List Nat) : x ∈ ins k l ↔ x = k ∨ x ∈ l := by
  induction l with
  | nil => simp [ins]
  | cons y l ih =>
    simp only [ins]
    split
    · simp
    · split
      · rename_i h1 h2; subst h2; simp
      · simp only [List.mem_cons, ih]
        constructor <;> (intro h; rcases h with h | h | h <;> simp [h])

theorem sorted_ins (k : Nat) (l : List Nat) (h : l.Pairwise (· < ·)) :
    (ins k l).Pairwise (· < ·) := by
  induction l with
  | nil => simp [ins]
  | cons y l ih =>
    rw [List.pairwise_cons] at h
    simp only [ins]
    split
    · rw [List.pairwise_cons, List.pairwise_cons]
      refine ⟨?_, h⟩
      intro x hx
      simp only [List.mem_cons] at hx
      rcases hx with rfl | hx
      · assumption
      · have := h.1 x hx; omega
    · split
      · rw [List.pairwise_cons]; exact h
      · rw [List.pairwise_cons]
        refine ⟨?_, ih h.2⟩
        intro x hx
        rw [mem_ins] at hx
        rcases hx with rfl | hx
        · omega
        · exact h.1 x hx

/-- What `queueNext` keeps of the pool invariants. -/
theorem queueNext_eq (files : List String) (s : State) :
    (s.look ≥ files.length ∧ queueNext files s = s) ∨
    (s.look < files.length ∧ CStep .queueTask s.pool (queueNext files s).pool ∧
      (queueNext files s).look = s.look + 1 ∧
      (queueNext files s).curr = s.curr ∧ (queueNext files s).map = s.map ∧
      (queueNext files s).pc = s.pc ∧ (queueNext files s).results = s.results ∧
      (queueNext files s).pool.shutdown = s.pool.shutdown ∧
      (queueNext files s).pool.hasCb = s.pool.hasCb ∧
      (queueNext files s).pool.cbLog = s.pool.cbLog ∧
      (queueNext files s).pool.taken = s.pool.taken ∧
      (queueNext files s).pool.queued = s.pool.queued ++ [s.look]) := by
  by_cases h : s.look ≥ files.length
  · exact .inl ⟨h, by simp [queueNext, h]⟩
  · refine .inr ⟨by omega, ?_⟩
    have e : queueNext files s = { s with
        pool := { s.pool with
          out := s.pool.out + 1
          queue := s.pool.queue ++ [s.look]
          queued := s.pool.queued ++ [s.look] }
        look := s.look + 1 } := by simp [queueNext, h]
    rw [e]
    exact ⟨.queueTask s.pool s.look, rfl, rfl, rfl, rfl, rfl, rfl, rfl, rfl, rfl, rfl⟩

/-- The invariant while the constructor runs. -/
structure Pre (files : List String) (threads : Nat) (s : State) : Prop where
  pool : Reach threads s.pool
  shut : s.pool.shutdown = false
  cb : s.pool.hasCb = false
  cbLog : s.pool.cbLog = []
  taken : s.pool.taken = []
  queued : s.pool.queued = List.range s.look
  lookLe : s.look ≤ files.length
  rest : s.curr = 0 ∧ s.map = [] ∧ s.pc = .idle ∧ s.results = []

theorem pre_next {files : List String} {threads : Nat} {s : State} (h : Pre files threads s) :
    Pre files threads (queueNext files s) := by
  rcases queueNext_eq files s with ⟨_, e⟩ | ⟨hl, hc, h1, h2, h3, h4, h5, h6, h7, h8, h9, h10⟩
  · rw [e]; exact h
  · refine ⟨.step h.pool (.c hc), h6.trans h.shut, h7.trans h.cb, h8.trans h.cbLog,
      h9.trans h.taken, ?_, by omega, ?_⟩
    · rw [h10, h1, h.queued, List.range_succ]
    · rw [h2, h3, h4, h5]; exact h.rest

theorem pre_many {files : List String} {threads : Nat} (n : Nat) {s : State}
    (h : Pre files threads s) (hn : s.look + n ≤ files.length) :
    Pre files threads (queueMany files n s) ∧ (queueMany files n s).look = s.look + n := by
  induction n generalizing s with
  | zero => exact ⟨h, rfl⟩
  | succ n ih =>
    have hl : (queueNext files s).look = s.look + 1 := by
      rcases queueNext_eq files s with ⟨h1, _⟩ | ⟨_, _, h1, _⟩
      · omega
      · exact h1
    have := ih (pre_next h) (by omega)
    refine ⟨this.1, ?_⟩
    show (queueMany files n (queueNext files s)).look = _
    omega

theorem inv_init (files : List String) (threads : Nat) : Inv files threads (init files threads) := by
  have hp : Pre files threads { pool := Pool.init threads } :=
    ⟨.init, rfl, rfl, rfl, rfl, rfl, Nat.zero_le _, rfl, rfl, rfl, rfl⟩
  obtain ⟨h, hl⟩ := pre_many (min kNumQueuedTasks files.length) hp (by simp; omega)
  simp only [Nat.zero_add] at hl
  change Pre files threads (init files threads) at h
  change (init files threads).look = _ at hl
  obtain ⟨h1, h2, h3, h4⟩ := h.rest
  refine ⟨h.pool, h.shut, h.cb, h.cbLog, h.queued, h.lookLe, ?_, by omega, ?_, ?_, ?_, ?_, ?_, ?_,
    by omega, fun _ => by omega⟩
  · intro _ hf; rw [h3] at hf; cases hf
  · intro t; rw [h.taken, h2, h1]; simp
  · rw [h2]; exact .nil
  · rw [h2]; simp
  · intro hf; exact (hf h3).elim
  · exact ⟨0, by simp [h4, h1]⟩
  · intro k hk hk0; rw [h4] at hk
    have := congrArg List.length hk
    simp at this; omega

theorem wstep_fields {s p : Pool.State} (h : WStep s p) : p.shutdown = s.shutdown ∧
    p.hasCb = s.hasCb ∧ p.queued = s.queued ∧ p.taken = s.taken ∧
    (s.hasCb = false → p.cbLog = s.cbLog) := by
  cases h <;> simp_all

theorem get_fields {s p : Pool.State} {t : Nat} (h : CStep (.get t) s p) : p.shutdown = s.shutdown ∧
    p.hasCb = s.hasCb ∧ p.queued = s.queued ∧ p.taken = s.taken ++ [t] ∧ p.cbLog = s.cbLog ∧
    t ∈ s.completed := by
  cases h with
  | get _ _ c hc => simp [hc]

theorem taken_le {threads : Nat} {s : Pool.State} (h : Reach threads s) (t : Nat) :
    s.taken.count t + s.completed.count t ≤ s.queued.count t := by
  obtain ⟨h1, h2, h3⟩ := Pool.C43_at_most_once h
  have a := h2 t
  have b := h3 t
  have c : s.started.count t ≤ s.queued.count t := by rw [← h1, List.count_append]; omega
  omega

theorem inv {files : List String} {opens : String → Bool} {threads : Nat} {s : State}
    (h : Reach' files opens threads s) : Inv files threads s := by
  induction h with
  | init => exact inv_init files threads
  | step _ st ih =>
    cases st with
    | worker p hw _ =>
      obtain ⟨h1, h2, h3, h4, h5⟩ := wstep_fields hw
      exact { ih with
        pool := .step ih.pool (.w hw), shut := h1.trans ih.shut, cb := h2.trans ih.cb
        cbLog := (h5 ih.cb).trans ih.cbLog, queued := h3.trans ih.queued
        taken := fun t => by simp only [h4]; exact ih.taken t }
    | past hpc hc =>
      refine { ih with res := ?_, resK := fun _ _ _ => hc }
      obtain ⟨k, hk⟩ := ih.res
      exact ⟨k + 1, by simp only [hk, List.append_assoc, List.replicate_succ']⟩
    | call hpc hc =>
      rename_i s0 _
      rcases queueNext_eq files s0 with
        ⟨hl, e⟩ | ⟨hl, hcs, h1, h2, h3, h4, h5, h6, h7, h8, h9, h10⟩
      · rw [e]
        exact { ih with ahead := fun _ _ => by simp only; omega
                        fetch := fun _ => hc, windowIdle := by intro h; cases h }
      · have := ih.windowIdle hpc
        exact {
          pool := .step ih.pool (.c hcs), shut := h6.trans ih.shut, cb := h7.trans ih.cb
          cbLog := h8.trans ih.cbLog
          queued := by simp only; rw [h10, h1, ih.queued, List.range_succ]
          lookLe := by simp only; omega
          ahead := fun _ _ => by simp only; have := ih.currLe; omega
          currLe := by simp only; have := ih.currLe; omega
          taken := fun t => by simp only; rw [h9, h3, h2]; exact ih.taken t
          sorted := by simp only; rw [h3]; exact ih.sorted
          mapGe := by simp only; rw [h3, h2]; exact ih.mapGe
          fetch := fun _ => by simp only; omega
          res := by simp only; rw [h5, h2]; exact ih.res
          resK := by simp only; rw [h5, h2]; exact ih.resK
          window := by simp only; omega
          windowIdle := by intro h; cases h }
    | fetch t p hpc hm hg =>
      rename_i s0 _
      obtain ⟨h1, h2, h3, h4, h5, h6⟩ := get_fields hg
      have hle := taken_le ih.pool t
      have hpos : 0 < s0.pool.completed.count t := List.count_pos_iff.mpr h6
      rw [ih.queued, count_range] at hle
      have htk := ih.taken t
      have hnm : t ∉ s0.map := by
        intro hin; rw [if_pos hin] at htk; split at hle <;> omega
      have hge : s0.curr ≤ t := by
        by_cases hlt : t < s0.curr
        · rw [if_pos hlt] at htk; split at hle <;> omega
        · omega
      refine { ih with
        pool := .step ih.pool (.c hg), shut := h1.trans ih.shut, cb := h2.trans ih.cb
        cbLog := h5.trans ih.cbLog, queued := h3.trans ih.queued
        taken := fun u => ?_, sorted := sorted_ins t _ ih.sorted
        mapGe := fun u hu => ?_ }
      · simp only [h4, Pool.count_snoc, ih.taken u, mem_ins, Pool.sgl]
        by_cases hu : u = t
        · subst hu; simp [hnm]; omega
        · have : ¬ t = u := fun e => hu e.symm
          simp [hu, this]
      · simp only [mem_ins] at hu
        rcases hu with rfl | hu
        · exact hge
        · exact ih.mapGe u hu
    | ret t m f hpc hm ht hf ho =>
      rename_i s0 _
      subst ht
      have hlt : s0.curr < files.length := by
        rw [List.getElem?_eq_some_iff] at hf; exact hf.1
      have hso := ih.sorted
      rw [hm, List.pairwise_cons] at hso
      refine { ih with
        ahead := by intro _ h; cases h
        currLe := by have := ih.ahead hlt hpc; simp only; omega
        taken := fun u => ?_, sorted := hso.2
        mapGe := fun u hu => by have := hso.1 u hu; simp only; omega
        fetch := by intro h; exact (h rfl).elim
        res := ?_, resK := ?_
        window := by have := ih.window; simp only; omega
        windowIdle := fun _ => by have := ih.window; simp only; omega }
      · have := ih.taken u
        rw [hm] at this
        simp only [List.mem_cons] at this ⊢
        rw [this]
        by_cases hu : u = s0.curr
        · subst hu
          have : s0.curr ∉ m := fun h => by have := hso.1 _ h; omega
          simp [this]
        · have e : (u < s0.curr + 1) ↔ u < s0.curr := by omega
          simp [hu, e]
      · obtain ⟨k, hk⟩ := ih.res
        have hk0 : k = 0 := by
          by_cases h0 : 0 < k
          · have := ih.resK k hk h0; omega
          · omega
        subst hk0
        refine ⟨0, ?_⟩
        simp only [List.replicate_zero, List.append_nil] at hk ⊢
        rw [List.getElem?_eq_some_iff] at hf
        obtain ⟨h', hf⟩ := hf
        rw [List.take_succ_eq_append_getElem hlt, hk, List.map_append, hf]
        rfl
      · intro k hk hk0
        obtain ⟨k0, hk0'⟩ := ih.res
        have hz : k0 = 0 := by
          by_cases h0 : 0 < k0
          · have := ih.resK k0 hk0' h0; omega
          · omega
        subst hz
        simp only [List.replicate_zero, List.append_nil] at hk0'
        simp only at hk
        rw [hk0'] at hk
        have := congrArg List.length hk
        simp at this
        omega
    | crash t m f hpc hm ht hf ho =>
      refine { ih with ahead := by intro _ h; cases h
                       fetch := fun _ => ih.fetch (by rw [hpc]; simp)
                       windowIdle := by intro h; cases h }

/-! ### Properties -/

/-- **C44.**  In every schedule the n-th call that returned gave the handle of the n-th requested
file; calls after the last file return null: the results are the first `curr` requested files in
order, followed by nulls only once all files were returned. -/
theorem C44_order {files : List String} {opens : String → Bool} {threads : Nat} {s : State}
    (h : Reach' files opens threads s) :
    ∀ i, i < s.results.length →
      s.results[i]? = some (if h : i < files.length then some files[i] else none) := by
  have hi := inv h
  obtain ⟨k, hk⟩ := hi.res
  intro i hl
  have hcl : s.curr ≤ files.length := Nat.le_trans hi.currLe hi.lookLe
  rw [hk] at hl ⊢
  simp only [List.length_append, List.length_map, List.length_take, List.length_replicate] at hl
  by_cases hic : i < s.curr
  · rw [List.getElem?_append_left (by simp; omega)]
    have : i < files.length := by omega
    simp [this, hic]
  · have hk0 : 0 < k := by omega
    have := hi.resK k hk hk0
    rw [List.getElem?_append_right (by simp; omega)]
    rw [dif_neg (by omega), List.getElem?_replicate, if_pos (by simp; omega)]

/-- A call always has a next step: nobody waits for a task that was never queued. -/
theorem no_stuck {files : List String} {opens : String → Bool} {threads : Nat} {s : State}
    (hn : 0 < threads) (h : Reach' files opens threads s) (hpc : s.pc = .fetching) :
    ∃ s', Step files opens s s' := by
  have hi := inv h
  have hlt := hi.fetch (by rw [hpc]; simp)
  by_cases hw : ∃ p, WStep s.pool p
  · obtain ⟨p, hp⟩ := hw
    exact ⟨_, .worker s p hp (by rw [hpc]; simp)⟩
  · have hst : ∀ p, ¬ WStep s.pool p := fun p hp => hw ⟨p, hp⟩
    cases hm : s.map with
    | nil =>
      cases hc : s.pool.completed with
      | nil =>
        exfalso
        have h0 := Pool.stuck_idle hn hi.pool hi.shut hst
        have hp := (Pool.C43_wait hi.pool (.wait _ h0)).2.2
        have hdrop : s.pool.dropped = [] := by
          by_cases hd : s.pool.dropped = []
          · exact hd
          · have := (Pool.inv hi.pool).dropShut hd; rw [hi.shut] at this; cases this
        rw [hi.cbLog, hc, hdrop, List.append_nil, List.append_nil, List.append_nil,
          List.perm_iff_count] at hp
        have := hp s.curr
        rw [hi.taken, hi.queued, count_range, if_pos (hi.ahead hlt hpc), hm] at this
        simp at this
      | cons t c =>
        exact ⟨_, .fetch s t _ hpc (by simp [hm]) (.get s.pool t c hc)⟩
    | cons t m =>
      by_cases ht : t = s.curr
      · obtain ⟨f, hf⟩ : ∃ f, files[t]? = some f := ⟨files[t], by simp [ht, hlt]⟩
        cases ho : opens f with
        | true => exact ⟨_, .ret s t m f hpc hm ht hf ho⟩
        | false => exact ⟨_, .crash s t m f hpc hm ht hf ho⟩
      · cases hc : s.pool.completed with
        | cons u c =>
          exact ⟨_, .fetch s u _ hpc (by simp [hm, ht]) (.get s.pool u c hc)⟩
        | nil =>
          exfalso
          have h0 := Pool.stuck_idle hn hi.pool hi.shut hst
          have hp := (Pool.C43_wait hi.pool (.wait _ h0)).2.2
          have hdrop : s.pool.dropped = [] := by
            by_cases hd : s.pool.dropped = []
            · exact hd
            · have := (Pool.inv hi.pool).dropShut hd; rw [hi.shut] at this; cases this
          rw [hi.cbLog, hc, hdrop, List.append_nil, List.append_nil, List.append_nil,
            List.perm_iff_count] at hp
          have := hp s.curr
          have hso := hi.sorted
          rw [hm, List.pairwise_cons] at hso
          have hge := hi.mapGe t (by rw [hm]; simp)
          have hnm : s.curr ∉ t :: m := by
            simp only [List.mem_cons, not_or]
            exact ⟨fun e => ht e.symm, fun hin => by have := hso.1 _ hin; omega⟩
          rw [hi.taken, hi.queued, count_range, if_pos (hi.ahead hlt hpc), hm, if_neg hnm] at this
          simp at this

/-- Work left inside a call: worker steps, fetches, the return. -/
def work (s : State) : Nat :=
  s.pool.work + 2 * (s.pool.queue.length + s.pool.ws.countP (fun p => p matches .running _) +
    s.pool.ws.countP (fun p => p matches .ran _) + s.pool.completed.length) +
  (if s.pc = .fetching then 1 else 0)

theorem work_step {files : List String} {opens : String → Bool} {threads : Nat} {s s' : State}
    (h : Reach' files opens threads s) (hpc : s.pc = .fetching)
    (st : Step files opens s s') : work s' < work s := by
  have hcb := (inv h).cb
  cases st with
  | worker p hw _ =>
    have hd := Pool.work_decreases hw
    have : p.queue.length + p.ws.countP (fun p => p matches .running _) +
      p.ws.countP (fun p => p matches .ran _) + p.completed.length ≤
      s.pool.queue.length + s.pool.ws.countP (fun p => p matches .running _) +
      s.pool.ws.countP (fun p => p matches .ran _) + s.pool.completed.length := by
      cases hw with
      | lock a b f hw => simp [hw]
      | take a b t q hw _ hq => simp [hw, hq]; omega
      | stop a b hw => simp [hw]
      | run a b t hw => simp [hw]; omega
      | push a b t hw => simp [hw]; omega
      | callback a b t hw hc => rw [hcb] at hc; cases hc
    simp only [work] at *; omega
  | past hp _ => rw [hpc] at hp; cases hp
  | call hp _ => rw [hpc] at hp; cases hp
  | fetch t p _ hm hg =>
    cases hg with
    | get _ _ c hc => simp only [work, hpc, hc, Pool.State.work, List.length_cons]; omega
  | ret t m f _ hm ht hf ho => simp only [work, hpc]; simp
  | crash t m f _ hm ht hf ho => simp only [work, hpc]; simp

/-- Any number of steps during a call. -/
inductive CallRun (files : List String) (opens : String → Bool) : State → Nat → State → Prop where
  | refl (s : State) : CallRun files opens s 0 s
  | step {s s' s'' : State} {k : Nat} : s.pc = .fetching → Step files opens s s' →
      CallRun files opens s' k s'' → CallRun files opens s (k + 1) s''

/-- **C44.**  Every call returns: with at least one thread, from any point inside the call for a file that can be opened
(others may not), every schedule of the pool's threads and the caller makes at most
`work s` steps, never gets stuck, and ends with the call returning the file at its position. -/
theorem C44_call_returns {files : List String} {opens : String → Bool} {threads : Nat} {s : State}
    (hn : 0 < threads) (h : Reach' files opens threads s) (hs : s.pc = .fetching)
    (hop : ∀ f, files[s.curr]? = some f → opens f = true)
    {k : Nat} {s' : State} (hr : CallRun files opens s k s') :
    k ≤ work s ∧ s'.pc ≠ .crashed ∧
    ((∀ s'', s'.pc = .fetching → ¬ Step files opens s' s'') → s'.pc = .idle) ∧
    (s'.pc = .idle → s'.curr = s.curr + 1 ∧ ∃ f, files[s.curr]? = some f ∧
      s'.results = s.results ++ [some f]) := by
  have key : k + work s' ≤ work s ∧ Reach' files opens threads s' ∧ s'.pc ≠ .crashed ∧
      (s'.pc = .idle → s'.curr = s.curr + 1 ∧ ∃ f, files[s.curr]? = some f ∧
        s'.results = s.results ++ [some f]) := by
    induction hr with
    | refl => exact ⟨by omega, h, by rw [hs]; simp, fun h => by rw [hs] at h; cases h⟩
    | step hpc st hrun ih =>
      have hw := work_step h hpc st
      cases st with
      | past hp _ => rw [hpc] at hp; cases hp
      | call hp _ => rw [hpc] at hp; cases hp
      | crash t m f hpc hm ht hf ho =>
        have := hop f (ht ▸ hf); rw [ho] at this; cases this
      | worker p hw' hx =>
        obtain ⟨h1, h2, h3, h4⟩ := ih (.step h (.worker _ p hw' hx)) hs hop
        exact ⟨by omega, h2, h3, h4⟩
      | fetch t p hx hm hg =>
        obtain ⟨h1, h2, h3, h4⟩ := ih (.step h (.fetch _ t p hx hm hg)) hs hop
        exact ⟨by omega, h2, h3, h4⟩
      | ret t m f hx hm ht hf ho =>
        cases hrun with
        | refl =>
          exact ⟨by omega, .step h (.ret _ t m f hx hm ht hf ho), by simp, fun _ => ⟨rfl, f, ht ▸ hf, rfl⟩⟩
        | step hp => cases hp
  refine ⟨by omega, key.2.2.1, ?_, key.2.2.2⟩
  intro hst
  cases hp : s'.pc with
  | idle => rfl
  | crashed => exact (key.2.2.1 hp).elim
  | fetching =>
    obtain ⟨s'', st⟩ := no_stuck hn key.2.1 hp
    exact (hst s'' hp st).elim

/-- **C44.**  The number of files requested from the pool but not yet handed to the caller never
exceeds 257, however many files there are. -/
theorem C44_open_files_bounded {files : List String} {opens : String → Bool} {threads : Nat}
    {s : State} (h : Reach' files opens threads s) :
    s.pool.queued.length ≤ s.curr + 257 := by
  have hi := inv h
  rw [hi.queued, List.length_range]
  exact hi.window

/-- **C92, violated.**  The call for a file that cannot be opened never returns null (which the
callers check for, cdc_rsync_client.cc:672-675, 749-752): in every schedule, once the process is inside the call
for such a file it either is still inside it or has aborted. -/
theorem C92_failed_open_aborts_violated {files : List String} {opens : String → Bool}
    {threads : Nat} {s : State} (hn : 0 < threads) (h : Reach' files opens threads s)
    (hpc : s.pc = .fetching) {f : String} (hf : files[s.curr]? = some f) (ho : opens f = false)
    {k : Nat} {s' : State} (hr : CallRun files opens s k s') :
    s'.pc ≠ .idle ∧
    ((∀ s'', s'.pc = .fetching → ¬ Step files opens s' s'') → s'.pc = .crashed) := by
  have key : Reach' files opens threads s' ∧ s'.pc ≠ .idle := by
    induction hr with
    | refl => exact ⟨h, by rw [hpc]; simp⟩
    | step hp st hrun ih =>
      cases st with
      | worker p hw hx => exact ih (.step h (.worker _ p hw hx)) hpc hf
      | past hp' _ => rw [hp] at hp'; cases hp'
      | call hp' _ => rw [hp] at hp'; cases hp'
      | fetch t p hx hm hg => exact ih (.step h (.fetch _ t p hx hm hg)) hpc hf
      | ret t m f' _ hm ht hf' ho' =>
        subst ht; rw [hf] at hf'; cases hf'; rw [ho] at ho'; cases ho'
      | crash t m f' hx hm ht hf' ho' =>
        cases hrun with
        | refl => exact ⟨.step h (.crash _ t m f' hx hm ht hf' ho'), by simp⟩
        | step hp => cases hp
  refine ⟨key.2, fun hst => ?_⟩
  cases hp : s'.pc with
  | idle => exact (key.2 hp).elim
  | crashed => rfl
  | fetching =>
    obtain ⟨s'', st⟩ := no_stuck hn key.1 hp
    exact (hst s'' hp st).elim

/-- **C92, exactly when.** The process aborts at the first requested file that cannot be opened and nowhere else: whenever it has aborted,
that file could not be opened and all the ones before it could, and their calls have returned them. In particular it never aborts if
all requested files can be opened. -/
theorem C92_aborts_only_then {files : List String} {opens : String → Bool} {threads : Nat} {s : State}
    (h : Reach' files opens threads s) :
    (∀ i f, i < s.curr → files[i]? = some f → opens f = true ∧ s.results[i]? = some (some f)) ∧
    (s.pc = .crashed → ∃ f, files[s.curr]? = some f ∧ opens f = false) := by
  have hres : ∀ i f, i < s.curr → files[i]? = some f → s.results[i]? = some (some f) := by
    intro i f hi hf
    obtain ⟨k, hk⟩ := (inv h).res
    rw [hk, List.getElem?_append_left (by
      have := (List.getElem?_eq_some_iff.1 hf).1
      rw [List.length_map, List.length_take]; omega), List.getElem?_map, List.getElem?_take, if_pos hi, hf]
    rfl
  have key : (∀ i f, i < s.curr → files[i]? = some f → opens f = true) ∧
      (s.pc = .crashed → ∃ f, files[s.curr]? = some f ∧ opens f = false) := by
    clear hres
    have qcurr : ∀ s : State, (queueNext files s).curr = s.curr := by
      intro s; unfold queueNext; split <;> rfl
    induction h with
    | init =>
      have hi := inv_init files threads
      have h0 : (init files threads).curr = 0 ∧ (init files threads).pc = .idle := by
        unfold init
        generalize min kNumQueuedTasks files.length = n
        have : ∀ (n : Nat) (s : State), s.curr = 0 ∧ s.pc = .idle → (queueMany files n s).curr = 0 ∧ (queueMany files n s).pc = .idle := by
          intro n
          induction n with
          | zero => exact fun s h => h
          | succ n ih =>
            intro s h
            refine ih _ ⟨(qcurr s).trans h.1, ?_⟩
            unfold queueNext; split
            · exact h.2
            · exact h.2
        exact this n _ ⟨rfl, rfl⟩
      rw [h0.1, h0.2]
      exact ⟨fun i f hi => absurd hi (Nat.not_lt_zero i), fun h => nomatch h⟩
    | step _ st ih =>
      cases st with
      | worker p hw hx => exact ⟨ih.1, fun h => absurd h hx⟩
      | past hp hc => exact ⟨ih.1, fun h => by rw [show _ = Cpc.idle from hp] at h; cases h⟩
      | call hp hc =>
        refine ⟨?_, fun h => nomatch h⟩
        show ∀ i f, i < (queueNext files _).curr → _
        rw [qcurr]; exact ih.1
      | fetch t p hx hm hg => exact ⟨ih.1, fun h => by rw [show _ = Cpc.fetching from hx] at h; cases h⟩
      | ret t m f hx hm ht hf ho =>
        refine ⟨?_, fun h => nomatch h⟩
        intro i g hi hg
        have hi' : i < _ + 1 := hi
        rcases Nat.lt_succ_iff_lt_or_eq.1 hi' with h1 | h1
        · exact ih.1 i g h1 hg
        · subst h1; subst ht; rw [hf] at hg; cases hg; exact ho
      | crash t m f hx hm ht hf ho => exact ⟨ih.1, fun _ => ⟨f, by rw [← ht]; exact hf, ho⟩⟩
  exact ⟨fun i f hi hf => ⟨key.1 i f hi hf, hres i f hi hf⟩, key.2⟩

/-! ### A concrete schedule -/

/-- Two files on two threads, the second finishes opening first; the first call still returns the
first file. -/
theorem example_reach : ∃ s, Reach' ["a", "b"] (fun _ => true) 2 s ∧
    s.results = [some "a"] ∧ s.pool.pushed = [1, 0] ∧ s.pool.taken = [1, 0] ∧ s.map = [1] := by
  refine ⟨_, .step (.step (.step (.step (.step (.step (.step (.step (.step (.step (.step (.step .init
    (.worker _ _ (.lock _ [] [.ready false] false rfl) (by decide)))
    (.worker _ _ (.lock _ [.waiting] [] false rfl) (by decide)))
    (.worker _ _ (.take _ [] [.waiting] 0 [1] rfl rfl rfl) (by decide)))
    (.worker _ _ (.take _ [.running 0] [] 1 [] rfl rfl rfl) (by decide)))
    (.worker _ _ (.run _ [.running 0] [] 1 rfl) (by decide)))
    (.worker _ _ (.push _ [.running 0] [] 1 rfl rfl) (by decide)))
    (.call _ rfl (by decide)))
    (.fetch _ 1 _ rfl (by decide) (.get _ 1 [] rfl)))
    (.worker _ _ (.run _ [] [.ready true] 0 rfl) (by decide)))
    (.worker _ _ (.push _ [] [.ready true] 0 rfl rfl) (by decide)))
    (.fetch _ 0 _ rfl (by decide) (.get _ 0 [] rfl)))
    (.ret _ 0 [1] "a" rfl rfl rfl rfl rfl), rfl, rfl, rfl, rfl⟩

/-- A call for an unreadable file is reachable. -/
theorem example_failed : ∃ s f, Reach' ["x"] (fun _ => false) 1 s ∧ s.pc = .fetching ∧
    ["x"][s.curr]? = some f ∧ (fun _ : String => false) f = false :=
  ⟨_, "x", .step .init (.call _ rfl (by decide)), rfl, rfl, rfl⟩

end Verif.Threads.Opener
