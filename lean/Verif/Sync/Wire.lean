import Verif.Delta.Props
import Verif.Sync.Fs

/-! # Changed files in bytes: three threads and two streams

`SyncChangedFiles` keeps three things going at once: its main thread reads the old files and sends the signatures of one file after
the other; a single patcher thread applies the patches it receives; any number of finalizer threads move the patched files into
place. The client is a fourth party. The signatures of later files are therefore computed while earlier files are patched and
replaced, and the messages of many files are in flight in both streams. `Delta` has one file at a time; here is the whole batch. -/
namespace Verif.Sync.Wire
open Verif.Delta Verif.Sync

/-- Parts of the model that no step changes: chunker, hash, buffer sizes of the two sides
(`kFileIoBufferSize`, cdc_interface.cc:53), `kIntermediatePathSuffix`. -/
structure Env (α : Type) (w : Nat) where
  gear : UInt8 → BitVec w
  cfg : FastCdc.Config
  params : Params
  hash : Bytes → α
  block : Nat
  /-- the path with `.__cdc_rsync_temp__` appended, cdc_rsync_server.cc:77 -/
  tempOf : Path → Path

/-- One changed file: cdc_rsync_server.cc:808-813. `new` is the content on the client. -/
structure Job where
  basis : Path
  target : Path
  new : Bytes
deriving DecidableEq

/-- `patched_filepath_`, cdc_rsync_server.cc:74-77. -/
def Job.out (tempOf : Path → Path) (j : Job) : Path := if j.target = j.basis then tempOf j.basis else j.target

/-- Contents of files. -/
abbrev Files := Path → Option Bytes

def Files.set (fs : Files) (p : Path) (b : Option Bytes) : Files := fun q => if q = p then b else fs q

/-- `sent`, `diffed`, `patched`: how far main thread, client and patcher thread are; `pending`: what the finalizers have not
finished; `sigQ`, `patchQ`: messages in flight. -/
structure State (α : Type) where
  files : Files
  sent : Nat := 0
  diffed : Nat := 0
  patched : Nat := 0
  pending : List Nat := []
  sigQ : List (SigMsg α) := []
  patchQ : List WireReq := []

/-- `Patch()` opens the file it writes before it reads the basis, cdc_rsync_server.cc:115-125. -/
def opened (tempOf : Path → Path) (j : Job) (fs : Files) : Files := fs.set (j.out tempOf) (some [])

/-- `Finalize()`, cdc_rsync_server.cc:146-160: `ReplaceFile` if there is an intermediate file. -/
def finalized (tempOf : Path → Path) (j : Job) (fs : Files) : Files :=
  if j.target = j.basis then (fs.set j.target (fs (tempOf j.basis))).set (tempOf j.basis) none else fs

/-- One step of one of the threads. The header message with the index of the file, cdc_rsync_server.cc:817-823, is left out: both
sides go through the same list (C37). Reading a file, `createDiff` and `ReceiveDiffAndPatch` take time; they are placed where they
end. -/
inductive Step {α : Type} [DecidableEq α] {w : Nat} (E : Env α w) (jobs : List Job) : State α → State α → Prop where
  /-- main thread, cdc_rsync_server.cc:806-832 and cdc_interface.cc:405-506 -/
  | sign {s : State α} {j : Job} {old : Bytes} {ev : List (List Bytes)} {last : List Bytes} (tasks : Nat → Nat) :
      jobs[s.sent]? = some j → s.files j.basis = some old →
      chunkEvents E.gear E.cfg [] (readBlocks E.block old) = some (ev, last) →
      Step E jobs s { s with
        sent := s.sent + 1
        sigQ := s.sigQ ++ createSignature E.params E.hash (withSched ev tasks) last }
  /-- client, cdc_rsync_client.cc:719-757 and cdc_interface.cc:508-581 -/
  | diff {s : State α} {j : Job} {ev : List (List Bytes)} {last : List Bytes} {reqs : List Req} {rest : List (SigMsg α)}
      (avail : Nat → Bool) :
      jobs[s.diffed]? = some j → s.diffed < s.sent →
      chunkEvents E.gear E.cfg [] (readBlocks E.block j.new) = some (ev, last) →
      createDiff E.params E.hash j.new (withSched ev avail) last s.sigQ = some (reqs, rest) →
      Step E jobs s { s with diffed := s.diffed + 1, sigQ := rest, patchQ := s.patchQ ++ reqs.map Req.toWire }
  /-- patcher thread, cdc_rsync_server.cc:115-129: one thread, tasks in the order they were queued -/
  | patch {s : State α} {j : Job} {old : Bytes} {p : Patched} {rest : List WireReq} :
      jobs[s.patched]? = some j → s.patched < s.sent → opened E.tempOf j s.files j.basis = some old →
      receiveDiff old {} s.patchQ = .ok (p, rest) →
      Step E jobs s { s with
        patched := s.patched + 1
        patchQ := rest
        pending := s.patched :: s.pending
        files := (opened E.tempOf j s.files).set (j.out E.tempOf) (some p.out) }
  /-- a finalizer thread, cdc_rsync_server.cc:131-169: any order -/
  | finalize {s : State α} {i : Nat} {j : Job} : i ∈ s.pending → jobs[i]? = some j →
      Step E jobs s { s with pending := s.pending.erase i, files := finalized E.tempOf j s.files }

inductive Reach {α : Type} [DecidableEq α] {w : Nat} (E : Env α w) (jobs : List Job) (fs : Files) : State α → Prop where
  | init : Reach E jobs fs { files := fs }
  | step {s t : State α} : Reach E jobs fs s → Step E jobs s t → Reach E jobs fs t

/-- The pools are drained after the last file, cdc_rsync_server.cc:834-838. -/
def Finished {α : Type} (jobs : List Job) (s : State α) : Prop :=
  s.sent = jobs.length ∧ s.diffed = jobs.length ∧ s.patched = jobs.length ∧ s.pending = []

/-! ## What must hold of the files -/

/-- The two sides' settings are fine (C07) and, per file, the old file exists and no chunk collides. -/
structure Ready {α : Type} {w : Nat} (E : Env α w) (jobs : List Job) (fs : Files) : Prop where
  ok : PipelineOk w E.cfg E.params
  block : 0 < E.block
  old : ∀ j ∈ jobs, ∃ old, fs j.basis = some old ∧ old.length < 2 ^ 63 ∧ j.new.length < 2 ^ 63 ∧
    NoCollision E.gear E.cfg E.hash (readBlocks E.block old) (readBlocks E.block j.new)
  /-- no two files of the client go to the same place -/
  targets : ∀ (i k : Nat) (j l : Job), jobs[i]? = some j → jobs[k]? = some l → j.target = l.target → i = k
  /-- the names of intermediate files are taken by nothing else -/
  temps : ∀ j ∈ jobs, ∀ l ∈ jobs, E.tempOf j.basis ≠ l.target ∧ E.tempOf j.basis ≠ l.basis ∧
    (E.tempOf j.basis = E.tempOf l.basis → j.basis = l.basis)

/-- No file is patched from a file that another one replaces. -/
def Apart (jobs : List Job) : Prop :=
  ∀ (i k : Nat) (j l : Job), jobs[i]? = some j → jobs[k]? = some l → i ≠ k → j.basis ≠ l.target

/-! ## Proof -/

/-- The messages in a queue: those of the files `i`, …, `k - 1`. -/
inductive Chain {β : Type} (good : Nat → List β → Prop) : Nat → Nat → List β → Prop where
  | nil (i : Nat) : Chain good i i []
  | cons {i k : Nat} {m q : List β} : good i m → Chain good (i + 1) k q → Chain good i k (m ++ q)

theorem Chain.snoc {β : Type} {good : Nat → List β → Prop} {i k : Nat} {q m : List β} (h : Chain good i k q) (hm : good k m) :
    Chain good i (k + 1) (q ++ m) := by
  induction h with
  | nil i => simpa using Chain.cons hm (.nil (i + 1))
  | cons g _ ih => rw [List.append_assoc]; exact .cons g (ih hm)

theorem Chain.uncons {β : Type} {good : Nat → List β → Prop} {i k : Nat} {q : List β} (h : Chain good i k q) (hik : i < k) :
    ∃ m q', q = m ++ q' ∧ good i m ∧ Chain good (i + 1) k q' := by
  cases h with
  | nil => omega
  | cons g h => exact ⟨_, _, rfl, g, h⟩

section
variable {α : Type} [DecidableEq α] {w : Nat} {E : Env α w} {jobs : List Job} {fs : Files}

/-- Signatures of the `i`-th file as it was at the start. -/
def GoodSig (E : Env α w) (jobs : List Job) (fs : Files) (i : Nat) (m : List (SigMsg α)) : Prop :=
  ∃ j old ev last tasks, jobs[i]? = some j ∧ fs j.basis = some old ∧
    chunkEvents E.gear E.cfg [] (readBlocks E.block old) = some (ev, last) ∧
    m = createSignature E.params E.hash (withSched ev tasks) last

/-- Patches that turn the `i`-th file as it was at the start into the client's. -/
def GoodPatch (jobs : List Job) (fs : Files) (i : Nat) (m : List WireReq) : Prop :=
  ∃ j old, jobs[i]? = some j ∧ fs j.basis = some old ∧
    ∀ rest, ∃ p, receiveDiff old {} (m ++ rest) = .ok (p, rest) ∧ p.out = j.new

structure Inv (E : Env α w) (jobs : List Job) (fs : Files) (s : State α) : Prop where
  le1 : s.diffed ≤ s.sent
  le2 : s.patched ≤ s.diffed
  le3 : s.sent ≤ jobs.length
  sigs : Chain (GoodSig E jobs fs) s.diffed s.sent s.sigQ
  patches : Chain (GoodPatch jobs fs) s.patched s.diffed s.patchQ
  nodup : s.pending.Nodup
  pend : ∀ i ∈ s.pending, i < s.patched
  basis : ∀ i j, jobs[i]? = some j → (s.patched ≤ i ∨ i ∈ s.pending) → s.files j.basis = fs j.basis
  out : ∀ i j, jobs[i]? = some j → i ∈ s.pending → s.files (j.out E.tempOf) = some j.new
  done : ∀ i j, jobs[i]? = some j → i < s.patched → i ∉ s.pending → s.files j.target = some j.new ∧
    (j.target = j.basis → s.files (E.tempOf j.basis) = none)
  frame : ∀ q, (∀ j ∈ jobs, q ≠ j.target ∧ (j.target = j.basis → q ≠ E.tempOf j.basis)) → s.files q = fs q

/-- Everything one file needs, for one pair of schedules. -/
theorem file_ok (h : Ready E jobs fs) {j : Job} (hj : j ∈ jobs) :
    ∃ old evS lastS evC lastC, fs j.basis = some old ∧
      chunkEvents E.gear E.cfg [] (readBlocks E.block old) = some (evS, lastS) ∧
      chunkEvents E.gear E.cfg [] (readBlocks E.block j.new) = some (evC, lastC) ∧
      ∀ tasks avail restSig, ∃ reqs,
        createDiff E.params E.hash j.new (withSched evC avail) lastC
          (createSignature E.params E.hash (withSched evS tasks) lastS ++ restSig) = some (reqs, restSig) ∧
        ∀ restPatch, ∃ p, receiveDiff old {} (reqs.map Req.toWire ++ restPatch) = .ok (p, restPatch) ∧ p.out = j.new := by
  obtain ⟨old, h1, h2, h3, h4⟩ := h.old j hj
  have so := readBlocks_spec E.block h.block old
  have sn := readBlocks_spec E.block h.block j.new
  have main := fun tasks avail restSig restPatch => C07_delta_sync_exact E.gear E.cfg E.params h.ok E.hash
    (readBlocks E.block old) (readBlocks E.block j.new) (fun b hb => (sn.2.1 b hb).1)
    (by rw [so.1]; exact h2) (by rw [sn.1]; exact h3) h4 tasks avail restSig restPatch
  simp only [syncFile, so.1, sn.1] at main
  cases e1 : chunkEvents E.gear E.cfg [] (readBlocks E.block old) with
  | none =>
    obtain ⟨p, hp, _⟩ := main (fun _ => 0) (fun _ => false) [] []
    rw [e1] at hp; simp at hp
  | some a =>
    cases e2 : chunkEvents E.gear E.cfg [] (readBlocks E.block j.new) with
    | none =>
      obtain ⟨p, hp, _⟩ := main (fun _ => 0) (fun _ => false) [] []
      rw [e1, e2] at hp; simp at hp
    | some b =>
      obtain ⟨evS, lastS⟩ := a
      obtain ⟨evC, lastC⟩ := b
      refine ⟨old, evS, lastS, evC, lastC, h1, e1, rfl, fun tasks avail restSig => ?_⟩
      rw [e1, e2] at main
      have m := main tasks avail restSig
      simp only at m
      cases e3 : createDiff E.params E.hash j.new (withSched evC avail) lastC
          (createSignature E.params E.hash (withSched evS tasks) lastS ++ restSig) with
      | none => obtain ⟨p, hp, _⟩ := m []; rw [e3] at hp; simp at hp
      | some r =>
        obtain ⟨reqs, inbox⟩ := r
        rw [e3] at m
        simp only [Option.some.injEq, Prod.mk.injEq] at m
        have hin := (m []).elim fun p hp => hp.1.1
        subst hin
        exact ⟨reqs, rfl, fun rest => (m rest).elim fun p hp => ⟨p, hp.1.2, hp.2⟩⟩

theorem set_ne {fs : Files} {p q : Path} {b : Option Bytes} (h : q ≠ p) : fs.set p b q = fs q := by simp [Files.set, h]
theorem set_eq {fs : Files} {p : Path} {b : Option Bytes} : fs.set p b p = b := by simp [Files.set]

/-- The file the patcher writes is nobody's basis, and no other file's destination. -/
theorem out_apart (h : Ready E jobs fs) (ha : Apart jobs) {i k : Nat} {j l : Job} (hj : jobs[i]? = some j)
    (hl : jobs[k]? = some l) : l.basis ≠ j.out E.tempOf ∧
      (k ≠ i → l.target ≠ j.out E.tempOf ∧ l.out E.tempOf ≠ j.out E.tempOf) := by
  have mj := List.mem_of_getElem? hj
  have ml := List.mem_of_getElem? hl
  have t := h.temps j mj l ml
  have t' := h.temps l ml j mj
  have hb : k ≠ i → l.basis ≠ j.target := ha k i l j hl hj
  have hb' : k ≠ i → j.basis ≠ l.target := fun e => ha i k j l hj hl (Ne.symm e)
  have ht : k ≠ i → l.target ≠ j.target := fun e he => e (h.targets k i l j hl hj he)
  constructor
  · unfold Job.out
    split
    · exact fun e => t.2.1 e.symm
    · rename_i hne
      by_cases e : k = i
      · subst e
        rw [hj] at hl; cases hl
        exact fun e => hne e.symm
      · exact hb e
  · intro e
    constructor
    · unfold Job.out
      split
      · exact fun e' => t.1 e'.symm
      · exact ht e
    · unfold Job.out
      split <;> split
      · rename_i h1 h2
        intro e'
        have e2 := t.2.2 e'.symm
        exact ht e (by rw [h1, h2, e2])
      · exact t'.1
      · exact fun e' => t.1 e'.symm
      · exact ht e

theorem inv_init (fs : Files) : Inv E jobs fs { files := fs } where
  le1 := Nat.le_refl _
  le2 := Nat.le_refl _
  le3 := Nat.zero_le _
  sigs := .nil 0
  patches := .nil 0
  nodup := .nil
  pend := by intro i hi; cases hi
  basis := fun _ _ _ _ => rfl
  out := by intro i j _ hi; cases hi
  done := by intro i j _ hi; exact absurd hi (Nat.not_lt_zero _)
  frame := fun _ _ => rfl

theorem inv_step (h : Ready E jobs fs) (ha : Apart jobs) {s t : State α} (hi : Inv E jobs fs s) (hs : Step E jobs s t) :
    Inv E jobs fs t := by
  cases hs with
  | sign tasks hj hold hev =>
    rename_i j old ev last
    have hlen : s.sent < jobs.length := (List.getElem?_eq_some_iff.1 hj).1
    have hbase := hi.basis s.sent j hj (.inl (Nat.le_trans hi.le2 hi.le1))
    exact { hi with
      le1 := Nat.le_succ_of_le hi.le1
      le3 := hlen
      sigs := hi.sigs.snoc ⟨j, old, ev, last, tasks, hj, by rw [← hbase]; exact hold, hev, rfl⟩ }
  | diff avail hj hlt hev hd =>
    rename_i j ev last reqs rest
    obtain ⟨m, q, hq, ⟨j', old, evS, lastS, tasks, hj', hold, hevS, rfl⟩, hc⟩ := hi.sigs.uncons hlt
    rw [hj] at hj'; cases hj'
    obtain ⟨old', evS', lastS', evC, lastC, f1, f2, f3, f4⟩ := file_ok h (List.mem_of_getElem? hj)
    rw [hold] at f1; cases f1
    rw [hevS] at f2; cases f2
    rw [hev] at f3; cases f3
    obtain ⟨reqs', g1, g2⟩ := f4 tasks avail q
    rw [hq, g1] at hd
    cases hd
    exact { hi with
      le1 := hlt
      le2 := Nat.le_succ_of_le hi.le2
      sigs := hc
      patches := hi.patches.snoc ⟨j, old, hj, hold, g2⟩ }
  | patch hj hlt hopen hrec =>
    rename_i j b p rest
    have hjs := (out_apart h ha hj hj).1
    have hopen' : s.files j.basis = some b := by
      rw [opened, set_ne hjs] at hopen; exact hopen
    have hbase := hi.basis s.patched j hj (.inl (Nat.le_refl _))
    have hp : s.patched < s.diffed := by
      rcases Nat.lt_or_ge s.patched s.diffed with h1 | h1
      · exact h1
      · have he : s.patched = s.diffed := Nat.le_antisymm hi.le2 h1
        have hc := hi.patches
        rw [he] at hc
        have hnil : s.patchQ = [] := by
          generalize s.patchQ = q at hc
          have : ∀ a k q, Chain (GoodPatch jobs fs) a k q → a ≤ k := by
            intro a k q hq
            induction hq with
            | nil => exact Nat.le_refl _
            | cons _ _ ih => omega
          cases hc with
          | nil => rfl
          | cons _ h2 => have := this _ _ _ h2; omega
        rw [hnil] at hrec
        cases hrec
    obtain ⟨m, q, hq, ⟨j', old, hj', hold, hg⟩, hc⟩ := hi.patches.uncons hp
    rw [hj] at hj'; cases hj'
    rw [← hbase, hopen'] at hold; cases hold
    obtain ⟨p', hp', hout⟩ := hg q
    rw [hq, hp'] at hrec
    cases hrec
    have hfiles : ∀ q, q ≠ j.out E.tempOf →
        ((opened E.tempOf j s.files).set (j.out E.tempOf) (some p.out)) q = s.files q := by
      intro q hq
      rw [set_ne hq, opened, set_ne hq]
    refine { hi with le2 := hp, patches := hc, nodup := ?_, pend := ?_, basis := ?_, out := ?_, done := ?_, frame := ?_ }
    · exact List.nodup_cons.2 ⟨fun hm => Nat.lt_irrefl _ (hi.pend _ hm), hi.nodup⟩
    · intro i hm
      rcases List.mem_cons.1 hm with rfl | hm
      · exact Nat.lt_succ_self _
      · exact Nat.lt_succ_of_lt (hi.pend i hm)
    · intro i l hl hor
      dsimp only at hor ⊢
      rw [hfiles _ (out_apart h ha hj hl).1]
      refine hi.basis i l hl ?_
      rcases hor with h1 | h1
      · exact .inl (by omega)
      · rcases List.mem_cons.1 h1 with rfl | h1
        · exact .inl (Nat.le_refl _)
        · exact .inr h1
    · intro i l hl hm
      dsimp only at hm ⊢
      by_cases e : i = s.patched
      · subst e
        rw [hj] at hl; cases hl
        rw [set_eq, hout]
      · rw [hfiles _ ((out_apart h ha hj hl).2 e).2]
        refine hi.out i l hl ?_
        rcases List.mem_cons.1 hm with h1 | h1
        · exact absurd h1 e
        · exact h1
    · intro i l hl hlt' hn
      dsimp only at hlt' hn ⊢
      have e : i ≠ s.patched := fun e => hn (by rw [e]; exact List.mem_cons_self)
      have hd := hi.done i l hl (by omega) (fun hm => hn (List.mem_cons_of_mem _ hm))
      have ho := (out_apart h ha hj hl).2 e
      refine ⟨by rw [hfiles _ ho.1]; exact hd.1, fun heq => ?_⟩
      have h2 := ho.2
      unfold Job.out at h2
      rw [if_pos heq] at h2
      rw [hfiles _ h2]
      exact hd.2 heq
    · intro q hq
      have hne : q ≠ j.out E.tempOf := by
        have := hq j (List.mem_of_getElem? hj)
        unfold Job.out
        split
        · rename_i he; exact this.2 he
        · exact this.1
      dsimp only
      rw [hfiles q hne]
      exact hi.frame q hq
  | finalize hm hj =>
    rename_i i j
    have hmem : ∀ k, k ∈ s.pending.erase i ↔ k ≠ i ∧ k ∈ s.pending := fun k => hi.nodup.mem_erase_iff
    have hlt := hi.pend i hm
    have houti := hi.out i j hj hm
    have hfin : ∀ q, q ≠ j.target → q ≠ j.out E.tempOf → finalized E.tempOf j s.files q = s.files q := by
      intro q h1 h2
      unfold finalized
      split
      · rename_i he
        unfold Job.out at h2
        rw [if_pos he] at h2
        rw [set_ne h2, set_ne h1]
      · rfl
    refine { hi with nodup := hi.nodup.erase i, pend := ?_, basis := ?_, out := ?_, done := ?_, frame := ?_ }
    · intro k hk
      exact hi.pend k ((hmem k).1 hk).2
    · intro k l hl hor
      dsimp only at hor ⊢
      have e : k ≠ i := by
        rintro rfl
        rcases hor with h1 | h1
        · omega
        · exact ((hmem k).1 h1).1 rfl
      rw [hfin _ (ha k i l j hl hj e) (out_apart h ha hj hl).1]
      refine hi.basis k l hl ?_
      rcases hor with h1 | h1
      · exact .inl h1
      · exact .inr ((hmem k).1 h1).2
    · intro k l hl hk
      dsimp only at hk ⊢
      obtain ⟨e, hk⟩ := (hmem k).1 hk
      have ho := (out_apart h ha hj hl).2 e
      have ho' : l.out E.tempOf ≠ j.target := by
        unfold Job.out
        split
        · exact (h.temps l (List.mem_of_getElem? hl) j (List.mem_of_getElem? hj)).1
        · exact fun he => e (h.targets k i l j hl hj he)
      rw [hfin _ ho' ho.2]
      exact hi.out k l hl hk
    · intro k l hl hlt' hn
      dsimp only at hlt' hn ⊢
      by_cases e : k = i
      · subst e
        rw [hj] at hl; cases hl
        unfold finalized
        split
        · rename_i he
          have hne : j.target ≠ E.tempOf j.basis :=
            fun e => (h.temps j (List.mem_of_getElem? hj) j (List.mem_of_getElem? hj)).1 e.symm
          unfold Job.out at houti
          rw [if_pos he] at houti
          exact ⟨by rw [set_ne hne, set_eq, houti], fun _ => set_eq⟩
        · rename_i he
          unfold Job.out at houti
          rw [if_neg he] at houti
          exact ⟨houti, fun h' => absurd h' he⟩
      · have hd := hi.done k l hl hlt' (fun hm' => hn ((hmem k).2 ⟨e, hm'⟩))
        have ho := (out_apart h ha hj hl).2 e
        refine ⟨by rw [hfin _ (fun he => e (h.targets k i l j hl hj he)) ho.1]; exact hd.1, fun heq => ?_⟩
        have h2 := ho.2
        unfold Job.out at h2
        rw [if_pos heq] at h2
        rw [hfin _ (h.temps l (List.mem_of_getElem? hl) j (List.mem_of_getElem? hj)).1 (by unfold Job.out; exact h2)]
        exact hd.2 heq
    · intro q hq
      have := hq j (List.mem_of_getElem? hj)
      have hne : q ≠ j.out E.tempOf := by
        unfold Job.out
        split
        · rename_i he; exact this.2 he
        · exact this.1
      dsimp only
      rw [hfin q this.1 hne]
      exact hi.frame q hq

theorem inv_of_reach (h : Ready E jobs fs) (ha : Apart jobs) {s : State α} (hr : Reach E jobs fs s) : Inv E jobs fs s := by
  induction hr with
  | init => exact inv_init fs
  | step _ hs ih => exact inv_step h ha ih hs

/-- **C211, partial.** However the threads interleave and however far they run ahead of each other, when the batch is finished every
changed file has the client's bytes, no intermediate file is left, and nothing else was touched. Missing: batches in which one file
is patched from a file that the same batch replaces (`Apart`), see below. -/
theorem C211_changed_batch_partial (h : Ready E jobs fs) (ha : Apart jobs) {s : State α} (hr : Reach E jobs fs s)
    (hf : Finished jobs s) :
    (∀ j ∈ jobs, s.files j.target = some j.new ∧ (j.target = j.basis → s.files (E.tempOf j.basis) = none)) ∧
    ∀ q, (∀ j ∈ jobs, q ≠ j.target ∧ (j.target = j.basis → q ≠ E.tempOf j.basis)) → s.files q = fs q := by
  have hi := inv_of_reach h ha hr
  refine ⟨fun j hj => ?_, hi.frame⟩
  obtain ⟨i, hlt, hij⟩ := List.getElem_of_mem hj
  have hg : jobs[i]? = some j := by rw [List.getElem?_eq_getElem hlt, hij]
  exact hi.done i j hg (by rw [hf.2.2.1]; exact hlt) (by rw [hf.2.2.2]; simp)

/-- **C211, no step can fail.** Before the batch is finished some thread can go on, whatever was interleaved: no patch is refused, and
nobody waits for ever. -/
theorem C211_never_stuck_partial (h : Ready E jobs fs) (ha : Apart jobs) {s : State α} (hr : Reach E jobs fs s)
    (hf : ¬ Finished jobs s) : ∃ t, Step E jobs s t := by
  have hi := inv_of_reach h ha hr
  by_cases h1 : s.sent < jobs.length
  · have hj : jobs[s.sent]? = some jobs[s.sent] := List.getElem?_eq_getElem h1
    obtain ⟨old, ev, last, _, _, f1, f2, _⟩ := file_ok h (List.mem_of_getElem? hj)
    exact ⟨_, .sign (fun _ => 0) hj (by rw [hi.basis _ _ hj (.inl (Nat.le_trans hi.le2 hi.le1))]; exact f1) f2⟩
  by_cases h2 : s.diffed < s.sent
  · have hj : jobs[s.diffed]? = some (jobs[s.diffed]'(Nat.lt_of_lt_of_le h2 hi.le3)) := List.getElem?_eq_getElem _
    obtain ⟨m, q, hq, ⟨j', old, evS, lastS, tasks, hj', hold, hevS, rfl⟩, _⟩ := hi.sigs.uncons h2
    rw [hj] at hj'; cases hj'
    obtain ⟨old', evS', lastS', evC, lastC, f1, f2, f3, f4⟩ := file_ok h (List.mem_of_getElem? hj)
    rw [hold] at f1; cases f1
    rw [hevS] at f2; cases f2
    obtain ⟨reqs, g1, _⟩ := f4 tasks (fun _ => false) q
    rw [← hq] at g1
    exact ⟨_, .diff (fun _ => false) hj h2 f3 g1⟩
  by_cases h3 : s.patched < s.diffed
  · have hlt : s.patched < s.sent := Nat.lt_of_lt_of_le h3 hi.le1
    have hj : jobs[s.patched]? = some (jobs[s.patched]'(Nat.lt_of_lt_of_le hlt hi.le3)) := List.getElem?_eq_getElem _
    obtain ⟨m, q, hq, ⟨j', old, hj', hold, hg⟩, _⟩ := hi.patches.uncons h3
    rw [hj] at hj'; cases hj'
    obtain ⟨p, hp, _⟩ := hg q
    rw [← hq] at hp
    refine ⟨_, .patch hj hlt ?_ hp⟩
    rw [opened, set_ne (out_apart h ha hj hj).1, hi.basis _ _ hj (.inl (Nat.le_refl _))]
    exact hold
  cases hp : s.pending with
  | nil =>
    have := hi.le1; have := hi.le2; have := hi.le3
    exact absurd ⟨by omega, by omega, by omega, hp⟩ hf
  | cons i l =>
    have hm : i ∈ s.pending := by rw [hp]; exact List.mem_cons_self
    have hlt := hi.pend i hm
    have hlen : i < jobs.length := by have := hi.le1; have := hi.le2; have := hi.le3; omega
    exact ⟨_, .finalize hm (List.getElem?_eq_getElem hlen)⟩

/-- Files of a destination `D` and a copy directory `C` (`--copy-dest`) with the same names, cdc_rsync_server.cc:808-812. -/
def Named (D C : Path) (jobs : List Job) : Prop :=
  ∀ j ∈ jobs, ∃ p, j.target = D ++ p ∧ (j.basis = D ++ p ∨ j.basis = C ++ p)

/-- What the user can check: neither of the two directories is inside the other. -/
theorem apart_of_roots {D C : Path} (hn : Named D C jobs) (h1 : ¬ D <+: C) (h2 : ¬ C <+: D)
    (ht : ∀ (i k : Nat) (j l : Job), jobs[i]? = some j → jobs[k]? = some l → j.target = l.target → i = k) : Apart jobs := by
  intro i k j l hj hl hik he
  obtain ⟨p, hp, hb⟩ := hn j (List.mem_of_getElem? hj)
  obtain ⟨q, hq, _⟩ := hn l (List.mem_of_getElem? hl)
  rcases hb with hb | hb
  · exact hik (ht i k j l hj hl (by rw [hp, ← hb, he]))
  · rw [hb, hq] at he
    rcases List.prefix_or_prefix_of_prefix (List.prefix_append C p) (he ▸ List.prefix_append D q) with h | h
    · exact h2 h
    · exact h1 h

/-- **C211 for two separate directories.** With no copy directory, or one that neither contains the destination nor is in it, every
schedule gives every changed file the client's bytes. -/
theorem C211_separate_directories_partial {D C : Path} (h : Ready E jobs fs) (hn : Named D C jobs) (h1 : ¬ D <+: C) (h2 : ¬ C <+: D)
    {s : State α} (hr : Reach E jobs fs s) (hf : Finished jobs s) : ∀ j ∈ jobs, s.files j.target = some j.new :=
  fun j hj => ((C211_changed_batch_partial h (apart_of_roots hn h1 h2 h.targets) hr hf).1 j hj).1

/-- What is left to do. -/
def work (jobs : List Job) (s : State α) : Nat :=
  (jobs.length - s.sent) + (jobs.length - s.diffed) + 2 * (jobs.length - s.patched) + s.pending.length

/-- **C211, the batch ends.** Every step leaves less to do, so after at most four steps per file it is finished. -/
theorem C211_ends_partial (h : Ready E jobs fs) (ha : Apart jobs) {s t : State α} (hr : Reach E jobs fs s)
    (hs : Step E jobs s t) : work jobs t < work jobs s := by
  have hi := inv_of_reach h ha hr
  unfold work
  cases hs with
  | sign _ hj => have := (List.getElem?_eq_some_iff.1 hj).1; dsimp only; omega
  | diff _ hj => have := (List.getElem?_eq_some_iff.1 hj).1; dsimp only; omega
  | patch hj => have := (List.getElem?_eq_some_iff.1 hj).1; simp only [List.length_cons]; omega
  | finalize hm =>
    have := List.length_erase_of_mem hm
    have := List.length_pos_of_mem hm
    dsimp only; omega

end
end Verif.Sync.Wire
