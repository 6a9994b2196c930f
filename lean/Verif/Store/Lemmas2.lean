import Verif.Store.Lemmas

namespace Verif.Store

/-! ## The eviction order -/

theorem pathLt_irrefl : ∀ a, pathLt a a = false
  | [] => rfl
  | a :: as => by simp [pathLt, pathLt_irrefl as]

theorem pathLt_asymm : ∀ a b, pathLt a b = true → pathLt b a = false
  | [], [], h => by cases h
  | [], _ :: _, _ => rfl
  | _ :: _, [], h => by cases h
  | a :: as, b :: bs, h => by
    simp only [pathLt] at h ⊢
    by_cases e : a.toNat = b.toNat
    · rw [if_pos e] at h; rw [if_pos e.symm]; exact pathLt_asymm as bs h
    · rw [if_neg e] at h; rw [if_neg (Ne.symm e)]; simp at h ⊢; omega

theorem pathLt_total : ∀ a b, pathLt a b = false → pathLt b a = false → a = b
  | [], [], _, _ => rfl
  | [], _ :: _, h, _ => by cases h
  | _ :: _, [], _, h => by cases h
  | a :: as, b :: bs, h1, h2 => by
    simp only [pathLt] at h1 h2
    by_cases e : a.toNat = b.toNat
    · rw [if_pos e] at h1; rw [if_pos e.symm] at h2
      rw [pathLt_total as bs h1 h2, char_eq_of_toNat e]
    · rw [if_neg e] at h1; rw [if_neg (Ne.symm e)] at h2; simp at h1 h2; omega

theorem pathLt_trans : ∀ a b c, pathLt a b = true → pathLt b c = true → pathLt a c = true
  | [], [], _, h, _ => by cases h
  | [], _ :: _, [], _, h => by cases h
  | [], _ :: _, _ :: _, _, _ => rfl
  | _ :: _, [], _, h, _ => by cases h
  | _ :: _, _ :: _, [], _, h => by cases h
  | a :: as, b :: bs, c :: cs, h1, h2 => by
    simp only [pathLt] at h1 h2 ⊢
    by_cases e1 : a.toNat = b.toNat
    · rw [if_pos e1] at h1
      by_cases e2 : b.toNat = c.toNat
      · rw [if_pos e2] at h2; rw [if_pos (e1.trans e2)]; exact pathLt_trans as bs cs h1 h2
      · rw [if_neg e2] at h2; rw [if_neg (by omega)]; simp at h2 ⊢; omega
    · rw [if_neg e1] at h1
      by_cases e2 : b.toNat = c.toNat
      · rw [if_neg (by omega)]; simp at h1 ⊢; omega
      · rw [if_neg e2] at h2; simp at h1 h2; rw [if_neg (by omega)]; simp; omega

theorem older_irrefl (a : File) : olderThan a a = false := by simp [olderThan, pathLt_irrefl]

theorem older_asymm (a b : File) (h : olderThan a b = true) : olderThan b a = false := by
  unfold olderThan at h ⊢
  by_cases e : a.mtime = b.mtime
  · rw [if_pos e] at h; rw [if_pos e.symm]; exact pathLt_asymm _ _ h
  · rw [if_neg e] at h; rw [if_neg (Ne.symm e)]; simp at h ⊢; omega

theorem older_total (a b : File) (h1 : olderThan a b = false) (h2 : olderThan b a = false) : a.path = b.path := by
  unfold olderThan at h1 h2
  by_cases e : a.mtime = b.mtime
  · rw [if_pos e] at h1; rw [if_pos e.symm] at h2; exact pathLt_total _ _ h1 h2
  · rw [if_neg e] at h1; rw [if_neg (Ne.symm e)] at h2; simp at h1 h2; omega

theorem older_trans (a b c : File) (h1 : olderThan a b = true) (h2 : olderThan b c = true) : olderThan a c = true := by
  unfold olderThan at *
  by_cases e1 : a.mtime = b.mtime
  · rw [if_pos e1] at h1
    by_cases e2 : b.mtime = c.mtime
    · rw [if_pos e2] at h2; rw [if_pos (e1.trans e2)]; exact pathLt_trans _ _ _ h1 h2
    · rw [if_neg e2] at h2; rw [if_neg (by omega)]; simp at h2 ⊢; omega
  · rw [if_neg e1] at h1
    by_cases e2 : b.mtime = c.mtime
    · rw [if_neg (by omega)]; simp at h1 ⊢; omega
    · rw [if_neg e2] at h2; simp at h1 h2; rw [if_neg (by omega)]; simp; omega

theorem olderEq_trans (a b c : File) (h1 : (!olderThan b a) = true) (h2 : (!olderThan c b) = true) :
    (!olderThan c a) = true := by
  simp only [Bool.not_eq_true'] at *
  cases h : olderThan c a with
  | false => rfl
  | true =>
    exfalso
    cases h3 : olderThan a b with
    | true => rw [older_trans c a b h h3] at h2; cases h2
    | false =>
      have e := older_total a b h3 h1
      have e2 : olderThan c b = olderThan c a ∨ a.mtime ≠ b.mtime := by
        by_cases hm : a.mtime = b.mtime
        · left; simp [olderThan, e, hm]
        · exact Or.inr hm
      rcases e2 with e2 | e2
      · rw [e2, h] at h2; cases h2
      · simp only [olderThan, if_neg e2, if_neg (Ne.symm e2)] at h3 h1
        simp at h3 h1; omega

theorem olderEq_total (a b : File) : ((!olderThan b a) || (!olderThan a b)) = true := by
  cases h : olderThan b a with
  | false => rfl
  | true => simp [older_asymm b a h]

/-- The files in eviction order. -/
def lruSorted (fs : List File) : List File := Util.isort (fun a b => !olderThan b a) fs

theorem lruSorted_perm (fs : List File) : (lruSorted fs).Perm fs := Util.isort_perm _

theorem lruSorted_strict (fs : List File) (hn : (fs.map File.path).Nodup) :
    (lruSorted fs).Pairwise (fun a b => olderThan a b = true) := by
  have h1 : (lruSorted fs).Pairwise (fun a b => (!olderThan b a) = true) :=
    Util.isort_pairwise olderEq_trans (by simpa using olderEq_total) fs
  have h2 : ((lruSorted fs).map File.path).Nodup := ((lruSorted_perm fs).map _).nodup_iff.mpr hn
  have h3 : (lruSorted fs).Pairwise (fun a b => a.path ≠ b.path) := List.pairwise_map.mp h2
  refine (h1.and h3).imp ?_
  rintro a b ⟨ha, hb⟩
  cases h : olderThan a b with
  | true => rfl
  | false => exact absurd (older_total a b h (by simpa using ha)) hb

/-- The files a complete cleanup removes, oldest first. -/
def evicted (t : Nat) : List File → List File
  | [] => []
  | f :: fs => if totalSize (f :: fs) > t then f :: evicted t fs else []

theorem evicted_prefix (t : Nat) : ∀ l, evicted t l <+: l
  | [] => by simp [evicted]
  | f :: fs => by
    simp only [evicted]
    split
    · exact List.cons_prefix_cons.mpr ⟨rfl, evicted_prefix t fs⟩
    · simp

theorem evicted_total (t : Nat) : ∀ l, totalSize l ≤ totalSize (evicted t l) + t
  | [] => by simp
  | f :: fs => by
    have := evicted_total t fs
    simp only [evicted]
    split
    · simp; omega
    · simp at *; omega

theorem mem_evicted (t : Nat) : ∀ (l : List File), l.Pairwise (fun a b => olderThan a b = true) → ∀ f ∈ l,
    (f ∈ evicted t l ↔ totalSize (l.filter (fun g => !olderThan g f)) > t)
  | [], _, f, hf => by cases hf
  | g :: gs, hs, f, hf => by
    rw [List.pairwise_cons] at hs
    simp only [evicted]
    by_cases ht : totalSize (g :: gs) > t
    · rw [if_pos ht]
      rcases List.mem_cons.mp hf with rfl | hf'
      · have : (f :: gs).filter (fun g => !olderThan g f) = f :: gs := by
          rw [List.filter_eq_self]
          intro x hx
          rcases List.mem_cons.mp hx with rfl | hx
          · simp [older_irrefl]
          · simp [older_asymm _ _ (hs.1 x hx)]
        rw [this]
        simpa using ht
      · have ho := hs.1 f hf'
        have hne : f ≠ g := by rintro rfl; rw [older_irrefl] at ho; cases ho
        rw [List.filter_cons, if_neg (by simp [ho]), ← mem_evicted t gs hs.2 f hf']
        simp [hne]
    · rw [if_neg ht]
      have := totalSize_filter_le (g :: gs) (fun g => !olderThan g f)
      constructor
      · intro h; cases h
      · intro h; omega

/-- The loop removes a prefix of the list; all of `evicted` when it succeeds. -/
theorem cleanupLoop_spec (t : Nat) (fails : Str → Bool) : ∀ (l : List File) (s : Disk) (k : Option Nat),
    s.size = totalSize l →
    ∃ D, D <+: evicted t l ∧
      (cleanupLoop t fails l s k).1.files = s.files.filter (fun f => decide (f.path ∉ D.map File.path)) ∧
      (cleanupLoop t fails l s k).1.size = s.size - totalSize D ∧
      (cleanupLoop t fails l s k).1.sizeInit = s.sizeInit ∧
      (cleanupLoop t fails l s k).1.rootExists = s.rootExists ∧
      ((cleanupLoop t fails l s k).2 = .ok → D = evicted t l) ∧
      ((∀ p, fails p = false) → k = none → (cleanupLoop t fails l s k).2 = .ok)
  | [], s, k, _ => by
    refine ⟨[], by simp, (List.filter_eq_self.mpr (by simp)).symm, by simp [cleanupLoop], rfl, rfl, ?_, fun _ _ => rfl⟩
    intro _; rfl
  | f :: fs, s, k, hs => by
    unfold cleanupLoop
    by_cases ht : s.size > t
    · rw [if_pos ht]
      have hev : evicted t (f :: fs) = f :: evicted t fs := by
        simp only [evicted]; rw [if_pos (by rw [← hs]; exact ht)]
      rw [hev]
      by_cases hf : fails f.path = true
      · rw [if_pos hf]
        refine ⟨[], by simp, (List.filter_eq_self.mpr (by simp)).symm, by simp, rfl, rfl, by simp, ?_⟩
        intro h; rw [h] at hf; cases hf
      · rw [if_neg hf]
        have hsz : s.size - f.data.length = totalSize fs := by rw [hs]; simp
        dsimp only
        cases k with
        | none =>
          obtain ⟨D, d1, d2, d3, d4, d4r, d5, d6⟩ := cleanupLoop_spec t fails fs
            { s with files := removeFile s.files f.path, size := s.size - f.data.length } none hsz
          refine ⟨f :: D, List.cons_prefix_cons.mpr ⟨rfl, d1⟩, ?_, ?_, d4, d4r, ?_, d6⟩
          · rw [d2]; exact removeFile_removeAll s.files f.path _
          · rw [d3]; simp; omega
          · intro h; rw [d5 h]
        | some k =>
          cases k with
          | zero =>
            refine ⟨[f], List.cons_prefix_cons.mpr ⟨rfl, by simp⟩, ?_, by simp, rfl, rfl, by simp, by simp⟩
            simp only [removeFile]
            apply List.filter_congr
            intro g _; simp
          | succ k =>
            obtain ⟨D, d1, d2, d3, d4, d4r, d5, d6⟩ := cleanupLoop_spec t fails fs
              { s with files := removeFile s.files f.path, size := s.size - f.data.length } (some k) hsz
            refine ⟨f :: D, List.cons_prefix_cons.mpr ⟨rfl, d1⟩, ?_, ?_, d4, d4r, ?_, by simp⟩
            · rw [d2]; exact removeFile_removeAll s.files f.path _
            · rw [d3]; simp; omega
            · intro h; rw [d5 h]
    · rw [if_neg ht]
      have hev : evicted t (f :: fs) = [] := by
        simp only [evicted]; rw [if_neg (by rw [← hs]; exact ht)]
      rw [hev]
      exact ⟨[], by simp, (List.filter_eq_self.mpr (by simp)).symm, by simp, rfl, rfl, fun _ => rfl, fun _ _ => rfl⟩

/-- The cached size does not underestimate. -/
def SizeInv (s : Disk) : Prop := s.sizeInit = true → totalSize s.files ≤ s.size

theorem collect_files (s : Disk) : s.collect.files = s.files := by unfold Disk.collect; split <;> rfl
theorem collect_root (s : Disk) : s.collect.rootExists = s.rootExists := by
  unfold Disk.collect; split <;> simp_all

theorem collect_size {depth : Nat} {s : Disk} (h : WF depth s) (hr : s.rootExists = true) :
    s.collect.size = totalSize s.files ∧ s.collect.sizeInit = true := by
  unfold Disk.collect; rw [if_pos hr]; exact ⟨rfl, rfl⟩

theorem collect_inv {depth : Nat} {s : Disk} (h : WF depth s) (hs : SizeInv s) : SizeInv s.collect := by
  unfold Disk.collect
  split
  · intro _; exact Nat.le_refl _
  · exact hs

theorem wf_collect {depth : Nat} {s : Disk} (h : WF depth s) : WF depth s.collect :=
  ⟨by rw [collect_files]; exact h.nodup, by rw [collect_files]; exact h.canon,
    by rw [collect_files, collect_root]; exact h.root⟩

/-- What cleanup does, whatever its outcome: the store after it is the store before it without a set of
evicted files, and the size estimate stays above. -/
theorem cleanup_spec {depth : Nat} {s : Disk} (h : WF depth s) (t : Nat) (cc : Bool)
    (k : Option Nat) (fails : Str → Bool) :
    ∃ D, (D = [] ∨ (D <+: evicted t (lruSorted s.files))) ∧
      (s.cleanup (some t) cc k fails).1.files = s.files.filter (fun f => decide (f.path ∉ D.map File.path)) ∧
      (s.cleanup (some t) cc k fails).1.rootExists = s.rootExists ∧
      (SizeInv s → SizeInv (s.cleanup (some t) cc k fails).1) ∧
      ((s.cleanup (some t) cc k fails).2 = .ok → SizeInv s → D = evicted t (lruSorted s.files)) := by
  have hself : s.files = s.files.filter (fun f => decide (f.path ∉ ([] : List File).map File.path)) :=
    (List.filter_eq_self.mpr (by simp)).symm
  unfold Disk.cleanup
  dsimp only
  split
  · rename_i hc
    simp only [Bool.and_eq_true, decide_eq_true_eq] at hc
    refine ⟨[], Or.inl rfl, hself, rfl, id, ?_⟩
    intro _ hs
    have htot : totalSize (lruSorted s.files) ≤ t := by
      rw [totalSize_perm (lruSorted_perm s.files)]
      have := hs hc.1; omega
    cases hl : lruSorted s.files with
    | nil => rfl
    | cons f fs => simp only [evicted]; rw [if_neg (by rw [← hl]; omega)]
  · split
    · exact ⟨[], Or.inl rfl, hself, rfl, id, by simp⟩
    · cases hr : s.rootExists with
      | false =>
        have hf := h.root hr
        have e1 : s.collect = s := by unfold Disk.collect; rw [hr]; rfl
        simp only [Bool.false_eq_true, if_false, Util.isort_nil, cleanupLoop, e1]
        refine ⟨[], Or.inl rfl, hself, by simp [hr], id, ?_⟩
        intro _ _; rw [hf]; simp [lruSorted, evicted]
      | true =>
        simp only [if_true]
        obtain ⟨c1, c2⟩ := collect_size h hr
        obtain ⟨D, d1, d2, d3, d4, d4r, d5, d6⟩ := cleanupLoop_spec t fails
          (Util.isort (fun a b => !olderThan b a) s.files) s.collect k
          (by rw [c1]; exact (totalSize_perm (lruSorted_perm s.files)).symm)
        refine ⟨D, Or.inr d1, by rw [d2, collect_files], by rw [d4r, collect_root, hr], ?_, fun hok _ => d5 hok⟩
        intro _ _
        rw [d2, d3, collect_files, c1]
        have hsub : ∀ f ∈ D, f ∈ lruSorted s.files := fun f hf =>
          (evicted_prefix t _).subset (d1.subset hf)
        have hnd : (lruSorted s.files).Nodup :=
          (lruSorted_perm s.files).nodup_iff.mpr (List.Nodup.of_map _ h.nodup)
        have := totalSize_filter_removed s.files D (fun f hf => (lruSorted_perm s.files).mem_iff.mp (hsub f hf))
          ((d1.trans (evicted_prefix t _)).sublist.nodup hnd) h.nodup
        omega

theorem prune_spec {depth : Nat} {s : Disk} (h : WF depth s) (keep : List Id) (order : List File)
    (c : Bool) (fails : Str → Bool) :
    ∃ l D, l.Perm s.files ∧ (D = [] ∨ D <+: toDrop depth keep l) ∧
      (s.prune depth keep order c fails).1.files = s.files.filter (fun f => decide (f.path ∉ D.map File.path)) ∧
      (s.prune depth keep order c fails).1.rootExists = s.rootExists ∧
      (SizeInv s → SizeInv (s.prune depth keep order c fails).1) ∧
      (((s.prune depth keep order c fails).2 = .ok ∨ (s.prune depth keep order c fails).2 = .notFound) →
        D = toDrop depth keep l ∧
        ((s.prune depth keep order c fails).2 = .ok ↔
          keep.filter (fun id => decide (∀ f ∈ l, parsePath depth f.path ≠ some id)) = [])) ∧
      (c = false → (∀ p, fails p = false) →
        (s.prune depth keep order c fails).2 = .ok ∨ (s.prune depth keep order c fails).2 = .notFound) := by
  unfold Disk.prune
  cases c with
  | true =>
    exact ⟨s.files, [], .refl _, Or.inl rfl, (List.filter_eq_self.mpr (by simp)).symm, rfl, id, by simp, by simp⟩
  | false =>
    simp only [Bool.false_eq_true, if_false]
    generalize hl : (if order.isPerm s.files then order else s.files) = l
    have hp : l.Perm s.files := by
      rw [← hl]
      split
      · rename_i hp; exact List.isPerm_iff.mp hp
      · exact .refl _
    obtain ⟨D, d1, d2, d3, d4, d4r, d5, d6⟩ := pruneLoop_spec depth fails l s.collect keep
      ((hp.map _).nodup_iff.mpr h.nodup) (fun f hf => h.canon f (hp.mem_iff.mp hf))
    generalize hres : pruneLoop depth fails l s.collect keep = res at *
    obtain ⟨s', rest, b⟩ := res
    have hsub : ∀ f ∈ D, f ∈ s.files := fun f hf =>
      hp.mem_iff.mp (List.mem_filter.mp (d1.subset hf)).1
    have hnd : D.Nodup := d1.sublist.nodup
      ((List.Nodup.of_map _ ((hp.map File.path).nodup_iff.mpr h.nodup)).filter _)
    have hinv : SizeInv s → SizeInv s' := by
      intro hs hi
      simp only at d2 d3 d4
      rw [d2, d3, collect_files]
      have ht := totalSize_filter_removed s.files D hsub hnd h.nodup
      have hi' : s.collect.sizeInit = true := by rw [← d4]; exact hi
      have := collect_inv h hs hi'
      rw [collect_files] at this
      omega
    refine ⟨l, D, hp, Or.inr d1, ?_⟩
    cases b with
    | false =>
      refine ⟨by simpa [collect_files] using d2, by simpa [collect_root] using d4r, hinv, by simp, ?_⟩
      intro _ hf; have := d6 hf; simp at this
    | true =>
      refine ⟨by simpa [collect_files] using d2, by simpa [collect_root] using d4r, hinv, ?_, ?_⟩
      · intro _
        obtain ⟨e1, e2⟩ := d5 rfl
        refine ⟨e1, ?_⟩
        simp only at e2
        rw [← e2]
        simp
      · intro _ _; dsimp only; split <;> simp

theorem wf_step {depth : Nat} {s : Disk} (h : WF depth s) (op : Op) : WF depth (s.step depth op) := by
  cases op with
  | put id d now => exact wf_write h id d now _
  | putFails id d now n =>
    cases n with
    | none => exact h
    | some n => exact wf_write h id _ now _
  | get id now =>
    simp only [Disk.step, Disk.get]
    split
    · exact h
    · exact wf_touch h _ now
  | getRange id o n now =>
    simp only [Disk.step, Disk.getRange]
    split
    · exact h
    · split
      · exact h
      · exact wf_touch h _ now
  | remove id => exact wf_filter h _ rfl rfl
  | prune keep order c fails =>
    obtain ⟨l, D, _, _, e, er, _⟩ := prune_spec h keep order c fails
    exact wf_filter h _ e er
  | wipe c => exact ⟨by simp [Disk.step, Disk.wipe], by simp [Disk.step, Disk.wipe], by simp [Disk.step, Disk.wipe]⟩
  | cleanup t c k fails =>
    cases t with
    | none => exact h
    | some t =>
      obtain ⟨D, _, e, er, _⟩ := cleanup_spec h t c k fails
      exact wf_filter h _ e er
  | list => exact wf_collect h

theorem wf_run {depth : Nat} (ops : List Op) : ∀ {s : Disk}, WF depth s → WF depth (s.run depth ops) := by
  induction ops with
  | nil => exact id
  | cons op ops ih => intro s h; exact ih (wf_step h op)

/-- The operation is not a write that fails half-way. -/
def Op.writesOk : Op → Bool
  | .putFails _ _ _ (some _) => false
  | _ => true

theorem sizeInv_step {depth : Nat} {s : Disk} (h : WF depth s) (hs : SizeInv s) (op : Op) (hw : op.writesOk = true) :
    SizeInv (s.step depth op) := by
  cases op with
  | put id d now =>
    intro hi
    have := totalSize_write_le s.files ⟨cachePath depth id, d, now⟩
    have h2 := hs hi
    simp only [Disk.step, Disk.put] at *
    omega
  | putFails id d now n =>
    cases n with
    | none => exact hs
    | some n => cases hw
  | get id now =>
    simp only [Disk.step, Disk.get]
    split
    · exact hs
    · intro hi; have := hs hi; simp only [touch_total]; exact this
  | getRange id o n now =>
    simp only [Disk.step, Disk.getRange]
    split
    · exact hs
    · split
      · exact hs
      · intro hi; have := hs hi; simp only [touch_total]; exact this
  | remove id =>
    intro hi
    exact Nat.le_trans (totalSize_filter_le _ _) (hs hi)
  | prune keep order c fails =>
    obtain ⟨l, D, _, _, _, _, e, _⟩ := prune_spec h keep order c fails
    exact e hs
  | wipe c => intro _; simp [Disk.step, Disk.wipe]
  | cleanup t c k fails =>
    cases t with
    | none => exact hs
    | some t =>
      obtain ⟨D, _, _, _, e, _⟩ := cleanup_spec h t c k fails
      exact e hs
  | list => exact collect_inv h hs

theorem sizeInv_run {depth : Nat} (ops : List Op) : ∀ {s : Disk}, WF depth s → SizeInv s →
    (∀ op ∈ ops, op.writesOk = true) → SizeInv (s.run depth ops) := by
  induction ops with
  | nil => intro s _ hs _; exact hs
  | cons op ops ih =>
    intro s h hs hw
    exact ih (wf_step h op) (sizeInv_step h hs op (hw op (by simp))) (fun o ho => hw o (by simp [ho]))

end Verif.Store
