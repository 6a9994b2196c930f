import Verif.Sync.Wire

/-! # C211: runs of the pipeline

A scheduler that performs given steps, two schedules of a batch that meets `Apart`, and the batch that does not. -/
namespace Verif.Sync.Wire
open Verif.Delta Verif.Sync

inductive Act where
  | sign | diff | patch | finalize (i : Nat)

/-- One step, if it is possible. -/
def perform {α : Type} [DecidableEq α] {w : Nat} (E : Env α w) (jobs : List Job) (s : State α) : Act → Option (State α)
  | .sign =>
    match jobs[s.sent]? with
    | none => none
    | some j => match s.files j.basis with
      | none => none
      | some old => match chunkEvents E.gear E.cfg [] (readBlocks E.block old) with
        | none => none
        | some (ev, last) => some { s with
            sent := s.sent + 1
            sigQ := s.sigQ ++ createSignature E.params E.hash (withSched ev fun _ => 0) last }
  | .diff =>
    if s.diffed < s.sent then
      match jobs[s.diffed]? with
      | none => none
      | some j => match chunkEvents E.gear E.cfg [] (readBlocks E.block j.new) with
        | none => none
        | some (ev, last) => match createDiff E.params E.hash j.new (withSched ev fun _ => false) last s.sigQ with
          | none => none
          | some (reqs, rest) => some { s with
              diffed := s.diffed + 1
              sigQ := rest
              patchQ := s.patchQ ++ reqs.map Req.toWire }
    else none
  | .patch =>
    if s.patched < s.sent then
      match jobs[s.patched]? with
      | none => none
      | some j => match opened E.tempOf j s.files j.basis with
        | none => none
        | some old => match receiveDiff old {} s.patchQ with
          | .ok (p, rest) => some { s with
              patched := s.patched + 1
              patchQ := rest
              pending := s.patched :: s.pending
              files := (opened E.tempOf j s.files).set (j.out E.tempOf) (some p.out) }
          | _ => none
    else none
  | .finalize i =>
    if i ∈ s.pending then
      match jobs[i]? with
      | none => none
      | some j => some { s with pending := s.pending.erase i, files := finalized E.tempOf j s.files }
    else none

theorem perform_step {α : Type} [DecidableEq α] {w : Nat} {E : Env α w} {jobs : List Job} {s t : State α} {a : Act}
    (h : perform E jobs s a = some t) : Step E jobs s t := by
  cases a with
  | sign =>
    unfold perform at h
    dsimp only at h
    split at h
    · cases h
    · rename_i j hj
      split at h
      · cases h
      · rename_i old hold
        split at h
        · cases h
        · rename_i ev last hev
          cases h
          exact .sign _ hj hold hev
  | diff =>
    unfold perform at h
    dsimp only at h
    split at h
    · rename_i hlt
      split at h
      · cases h
      · rename_i j hj
        split at h
        · cases h
        · rename_i ev last hev
          split at h
          · cases h
          · rename_i reqs rest hd
            cases h
            exact .diff _ hj hlt hev hd
    · cases h
  | patch =>
    unfold perform at h
    dsimp only at h
    split at h
    · rename_i hlt
      split at h
      · cases h
      · rename_i j hj
        split at h
        · cases h
        · rename_i old hold
          split at h
          · rename_i p rest hp
            cases h
            exact .patch hj hlt hold hp
          · cases h
    · cases h
  | finalize i =>
    unfold perform at h
    dsimp only at h
    split at h
    · rename_i hm
      split at h
      · cases h
      · rename_i j hj
        cases h
        exact .finalize hm hj
    · cases h

def performAll {α : Type} [DecidableEq α] {w : Nat} (E : Env α w) (jobs : List Job) (s : State α) (as : List Act) :
    Option (State α) := as.foldlM (perform E jobs) s

theorem performAll_reach {α : Type} [DecidableEq α] {w : Nat} {E : Env α w} {jobs : List Job} {fs : Files} :
    ∀ (as : List Act) {s t : State α}, Reach E jobs fs s → performAll E jobs s as = some t → Reach E jobs fs t := by
  intro as
  induction as with
  | nil => intro s t hs h; cases h; exact hs
  | cons a as ih =>
    intro s t hs h
    unfold performAll at h
    rw [List.foldlM_cons] at h
    cases h1 : perform E jobs s a with
    | none => rw [h1] at h; cases h
    | some s' => rw [h1] at h; exact ih (.step hs (perform_step h1)) h

/-! ## Instances -/

/-- Small chunks, no collisions, the real suffix. -/
def exEnv : Env Bytes 8 where
  gear := FastCdc.exGear
  cfg := FastCdc.exCfg
  params := {}
  hash := id
  block := 7
  tempOf := fun p => match p.reverse with
    | [] => []
    | n :: d => (((n ++ [46, 116]) :: d).reverse)

def exOldX : Bytes := [1, 2, 3, 4, 5, 6, 7, 8, 9, 10, 11, 12, 13, 14, 15, 16, 17, 18, 19, 20]
def exNewA : Bytes := [101, 102, 103, 104, 105, 106, 107, 108, 109, 110, 111, 112, 113, 114, 115, 116, 117, 118, 119, 120]
def exNewB : Bytes := exOldX ++ [21, 22, 23]

/-- `/d/old/x` and `/d/x`, `/d/y`. -/
def pOldX : Path := [[100], [111], [120]]
def pX : Path := [[100], [120]]
def pY : Path := [[100], [121]]

/-- The client has new versions of `old/x` and `x`; the destination is `/d` and has no `x`, the copy directory is `/d/old`. -/
def exBad : List Job := [⟨pOldX, pOldX, exNewA⟩, ⟨pOldX, pX, exNewB⟩]
def exFsBad : Files := fun p => if p = pOldX then some exOldX else none

/-- The same with a copy directory elsewhere (`/c/x`), and a second file changed in place. -/
def exGood : List Job := [⟨pX, pX, exNewA⟩, ⟨[[99], [120]], pY, exNewB⟩, ⟨pOldX, pOldX, exOldX ++ exNewA⟩]
def exFsGood : Files := fun p => if p = pX ∨ p = pOldX then some exOldX else if p = [[99], [120]] then some exNewB else none

theorem exReady {jobs : List Job} {fs : Files}
    (h1 : ∀ j ∈ jobs, ∃ old, fs j.basis = some old ∧ old.length < 2 ^ 63 ∧ j.new.length < 2 ^ 63)
    (h2 : jobs.Pairwise fun j l => j.target ≠ l.target)
    (h3 : ∀ j ∈ jobs, ∀ l ∈ jobs, exEnv.tempOf j.basis ≠ l.target ∧ exEnv.tempOf j.basis ≠ l.basis ∧
      (exEnv.tempOf j.basis = exEnv.tempOf l.basis → j.basis = l.basis)) : Ready exEnv jobs fs where
  ok := by constructor <;> decide
  block := by decide
  old := fun j hj => by
    obtain ⟨old, a, b, c⟩ := h1 j hj
    exact ⟨old, a, b, c, fun _ _ _ _ _ _ _ _ h => h⟩
  targets := by
    intro i k j l hj hl he
    rcases Nat.lt_trichotomy i k with h | h | h
    · obtain ⟨x1, rfl⟩ := List.getElem?_eq_some_iff.1 hj
      obtain ⟨x2, rfl⟩ := List.getElem?_eq_some_iff.1 hl
      exact absurd he (List.pairwise_iff_getElem.1 h2 i k x1 x2 h)
    · exact h
    · obtain ⟨x1, rfl⟩ := List.getElem?_eq_some_iff.1 hj
      obtain ⟨x2, rfl⟩ := List.getElem?_eq_some_iff.1 hl
      exact absurd he.symm (List.pairwise_iff_getElem.1 h2 k i x2 x1 h)
  temps := h3

theorem exBad_ready : Ready exEnv exBad exFsBad := by
  refine exReady ?_ (by decide +kernel) (by decide +kernel)
  intro j hj
  rcases List.mem_cons.1 hj with rfl | hj
  · exact ⟨exOldX, rfl, by decide +kernel, by decide +kernel⟩
  · rw [List.mem_singleton.1 hj]
    exact ⟨exOldX, rfl, by decide +kernel, by decide +kernel⟩

/-- What an observer sees of a state. -/
def look {α : Type} (ps : List Path) (s : State α) : (Nat × Nat × Nat × List Nat) × List (Option Bytes) :=
  ((s.sent, s.diffed, s.patched, s.pending), ps.map s.files)

def badSchedule : List Act := [.sign, .sign, .diff, .diff, .patch, .finalize 0, .patch, .finalize 1]

/-- The same batch, where the finalizer thread happens to be slow. -/
def luckySchedule : List Act := [.sign, .sign, .diff, .diff, .patch, .patch, .finalize 0, .finalize 1]

theorem bad_run : (performAll exEnv exBad { files := exFsBad } badSchedule).map (look [pOldX, pX]) =
    some ((2, 2, 2, []), [some exNewA, some (exNewA.take 19 ++ [20, 21, 22, 23])]) := by decide +kernel

theorem lucky_run : (performAll exEnv exBad { files := exFsBad } luckySchedule).map (look [pOldX, pX]) =
    some ((2, 2, 2, []), [some exNewA, some exNewB]) := by decide +kernel

/-- **C211, violated.** If the copy directory is inside the destination, a file can be patched from a file of the same batch. When
that one is moved into place first, the patch is applied to the wrong bytes: all steps succeed, and the destination's file is neither
the client's nor anything that was there before. With another order of the same threads the result is right. -/
theorem C211_changed_batch_violated :
    Ready exEnv exBad exFsBad ∧
    (∃ s, Reach exEnv exBad exFsBad s ∧ Finished exBad s ∧
      ∃ j ∈ exBad, ∃ b, s.files j.target = some b ∧ b ≠ j.new ∧ b.length = j.new.length) ∧
    (∃ s, Reach exEnv exBad exFsBad s ∧ Finished exBad s ∧ ∀ j ∈ exBad, s.files j.target = some j.new) := by
  refine ⟨exBad_ready, ?_, ?_⟩
  · have h := bad_run
    cases hp : performAll exEnv exBad { files := exFsBad } badSchedule with
    | none => rw [hp] at h; cases h
    | some s =>
      rw [hp] at h
      simp only [Option.map_some, look, Option.some.injEq, Prod.mk.injEq, List.map_cons, List.map_nil, List.cons.injEq] at h
      obtain ⟨⟨h1, h2, h3, h4⟩, h5, h6, _⟩ := h
      exact ⟨s, performAll_reach _ .init hp, ⟨h1, h2, h3, h4⟩, ⟨pOldX, pX, exNewB⟩, by decide +kernel, _, h6,
        by decide +kernel, by decide +kernel⟩
  · have h := lucky_run
    cases hp : performAll exEnv exBad { files := exFsBad } luckySchedule with
    | none => rw [hp] at h; cases h
    | some s =>
      rw [hp] at h
      simp only [Option.map_some, look, Option.some.injEq, Prod.mk.injEq, List.map_cons, List.map_nil, List.cons.injEq] at h
      obtain ⟨⟨h1, h2, h3, h4⟩, h5, h6, _⟩ := h
      refine ⟨s, performAll_reach _ .init hp, ⟨h1, h2, h3, h4⟩, fun j hj => ?_⟩
      rcases List.mem_cons.1 hj with rfl | hj
      · exact h5
      · rw [List.mem_singleton.1 hj]; exact h6

/-- The two directories of the failing batch: one is inside the other. -/
example : Named [[100]] [[100], [111]] exBad ∧ [[100]] <+: ([[100], [111]] : Path) := by
  refine ⟨fun j hj => ?_, by decide +kernel⟩
  rcases List.mem_cons.1 hj with rfl | hj
  · exact ⟨[[111], [120]], rfl, .inl rfl⟩
  · rw [List.mem_singleton.1 hj]; exact ⟨[[120]], rfl, .inr rfl⟩

/-- Non-vacuity of `C211_changed_batch_partial`: three files, two in place, one from a copy directory. -/
theorem exGood_ready : Ready exEnv exGood exFsGood ∧ Apart exGood := by
  constructor
  · refine exReady ?_ (by decide +kernel) (by decide +kernel)
    intro j hj
    rcases List.mem_cons.1 hj with rfl | hj
    · exact ⟨exOldX, by decide +kernel, by decide +kernel, by decide +kernel⟩
    rcases List.mem_cons.1 hj with rfl | hj
    · exact ⟨exNewB, by decide +kernel, by decide +kernel, by decide +kernel⟩
    · rw [List.mem_singleton.1 hj]
      exact ⟨exOldX, by decide +kernel, by decide +kernel, by decide +kernel⟩
  · intro i k j l hj hl hne
    have this : ∀ (a b : Fin exGood.length), a ≠ b → exGood[a].basis ≠ exGood[b].target := by decide +kernel
    obtain ⟨x1, rfl⟩ := List.getElem?_eq_some_iff.1 hj
    obtain ⟨x2, rfl⟩ := List.getElem?_eq_some_iff.1 hl
    exact this ⟨i, x1⟩ ⟨k, x2⟩ (by intro e; exact hne (Fin.mk.inj e))

example : (performAll exEnv exGood { files := exFsGood }
    [.sign, .sign, .diff, .sign, .patch, .diff, .patch, .finalize 1, .diff, .finalize 0, .patch, .finalize 2]).map
      (look [pX, pY, pOldX, exEnv.tempOf pX, [[99], [120]]]) =
    some ((3, 3, 3, []), [some exNewA, some exNewB, some (exOldX ++ exNewA), none, some exNewB]) := by decide +kernel

/-- The ending of intermediate files, in letters (cdc_rsync_server.cc:44). -/
example : tempSuffix = (".__cdc_rsync_temp__".toList.map fun c => c.toNat.toUInt8) := by decide +kernel

end Verif.Sync.Wire
