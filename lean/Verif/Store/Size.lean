import Verif.Store.Props

/-! # The size of the disk cache (C183) -/
namespace Verif.Store

/-- The reported size, `DiskDataStore::Size`, is the size of the files. -/
def Exact (s : Disk) : Prop := s.size = s.realSize

/-- An operation that does not overwrite or remove a stored chunk, and no write that fails half-way. -/
def TidyOp (depth : Nat) (s : Disk) : Op → Prop
  | .put id _ _ => s.contains depth id = false
  | .putFails _ _ _ n => n = none
  | .remove id => s.contains depth id = false
  | _ => True

/-- A history of such operations. -/
def Tidy (depth : Nat) : Disk → List Op → Prop
  | _, [] => True
  | s, op :: ops => TidyOp depth s op ∧ Tidy depth (s.step depth op) ops

theorem find_none_filter {s : Disk} {p : Str} (h : s.find p = none) : s.files.filter (fun g => decide (g.path ≠ p)) = s.files := by
  rw [List.filter_eq_self]
  intro g hg
  have := List.find?_eq_none.1 h g hg
  simpa using this

theorem not_contained {depth : Nat} {s : Disk} {id : Id} (h : s.contains depth id = false) : s.find (cachePath depth id) = none := by
  unfold Disk.contains at h
  simpa using h

/-- Without a root directory there is nothing, and the size is 0. -/
def RootInv (s : Disk) : Prop := s.rootExists = false → s.size = 0

theorem cleanup_size {depth : Nat} {s : Disk} (h : WF depth s) (hr : RootInv s) (t : Nat) (cc : Bool) (k : Option Nat) (fails : Str → Bool) :
    RootInv (s.cleanup (some t) cc k fails).1 ∧ (Exact s → Exact (s.cleanup (some t) cc k fails).1) := by
  unfold Disk.cleanup
  dsimp only
  split
  · exact ⟨hr, id⟩
  · split
    · exact ⟨hr, id⟩
    · cases he : s.rootExists with
      | false =>
        have e1 : s.collect = s := by unfold Disk.collect; rw [he]; rfl
        simp only [Bool.false_eq_true, if_false, Util.isort_nil, cleanupLoop, e1]
        exact ⟨hr, id⟩
      | true =>
        simp only [if_true]
        obtain ⟨c1, c2⟩ := collect_size h he
        obtain ⟨D, d1, d2, d3, d4, d4r, d5, d6⟩ := cleanupLoop_spec t fails
          (Util.isort (fun a b => !olderThan b a) s.files) s.collect k
          (by rw [c1]; exact (totalSize_perm (lruSorted_perm s.files)).symm)
        refine ⟨fun h' => ?_, fun _ => ?_⟩
        · rw [d4r, collect_root, he] at h'; cases h'
        · have hsub : ∀ f ∈ D, f ∈ lruSorted s.files := fun f hf =>
            (evicted_prefix t _).subset (d1.subset hf)
          have hnd : (lruSorted s.files).Nodup :=
            (lruSorted_perm s.files).nodup_iff.mpr (List.Nodup.of_map _ h.nodup)
          have := totalSize_filter_removed s.files D (fun f hf => (lruSorted_perm s.files).mem_iff.mp (hsub f hf))
            ((d1.trans (evicted_prefix t _)).sublist.nodup hnd) h.nodup
          show _ = totalSize _
          rw [d2, d3, collect_files, c1]
          omega

theorem collect_exact {depth : Nat} {s : Disk} (h : WF depth s) (hr : RootInv s) : Exact s.collect ∧ RootInv s.collect := by
  cases he : s.rootExists with
  | true =>
    refine ⟨?_, fun h' => by rw [collect_root, he] at h'; cases h'⟩
    show s.collect.size = totalSize s.collect.files
    rw [collect_files, (collect_size h he).1]
  | false =>
    have e1 : s.collect = s := by unfold Disk.collect; rw [he]; rfl
    rw [e1]
    refine ⟨?_, hr⟩
    show s.size = totalSize s.files
    rw [h.root he, hr he]; rfl

theorem prune_size {depth : Nat} {s : Disk} (h : WF depth s) (hr : RootInv s) (keep : List Id) (order : List File) (c : Bool) (fails : Str → Bool) :
    RootInv (s.prune depth keep order c fails).1 ∧ (Exact s ∨ c = false → Exact (s.prune depth keep order c fails).1) := by
  unfold Disk.prune
  cases c with
  | true => exact ⟨hr, fun h => h.elim id (fun h => by cases h)⟩
  | false =>
    simp only [Bool.false_eq_true, if_false]
    generalize hl : (if order.isPerm s.files then order else s.files) = l
    have hp : l.Perm s.files := by
      rw [← hl]
      split
      · rename_i hp; exact List.isPerm_iff.mp hp
      · exact .refl _
    obtain ⟨D, d1, d2, d3, d4, d4r, d5, d6⟩ := pruneLoop_spec depth fails l s.collect keep
      ((hp.map _).nodup_iff.mpr h.nodup) (fun f hf => h.canon f (hp.mem_iff.mp hf))
    generalize hres : pruneLoop depth fails l s.collect keep = res at *
    obtain ⟨s', rest, b⟩ := res
    have hsub : ∀ f ∈ D, f ∈ s.files := fun f hf =>
      hp.mem_iff.mp (List.mem_filter.mp (d1.subset hf)).1
    have hnd : D.Nodup := d1.sublist.nodup
      ((List.Nodup.of_map _ ((hp.map File.path).nodup_iff.mpr h.nodup)).filter _)
    have hex := (collect_exact h hr).1
    have ht := totalSize_filter_removed s.files D hsub hnd h.nodup
    simp only at d2 d3 d4r
    have key : Exact s' := by
      show s'.size = totalSize s'.files
      have hex : s.collect.size = totalSize s.collect.files := hex
      rw [d2, d3, hex, collect_files]
      omega
    have key2 : RootInv s' := by
      intro h'
      rw [d4r, collect_root] at h'
      rw [d3, (collect_exact h hr).2 (by rw [collect_root]; exact h')]
      omega
    cases b with
    | false => exact ⟨key2, fun _ => key⟩
    | true => exact ⟨key2, fun _ => key⟩

theorem root_step {depth : Nat} {s : Disk} (h : WF depth s) (hr : RootInv s) (op : Op) : RootInv (s.step depth op) := by
  cases op with
  | put id d now => intro h'; cases h'
  | putFails id d now n =>
    cases n with
    | none => exact hr
    | some n => intro h'; cases h'
  | get id now =>
    simp only [Disk.step, Disk.get]
    split <;> exact hr
  | getRange id o n now =>
    simp only [Disk.step, Disk.getRange]
    split
    · exact hr
    · split <;> exact hr
  | remove id => exact hr
  | prune keep order c fails => exact (prune_size h hr keep order c fails).1
  | wipe c => intro _; rfl
  | cleanup t c k fails =>
    cases t with
    | none => exact hr
    | some t => exact (cleanup_size h hr t c k fails).1
  | list => exact (collect_exact h hr).2

theorem exact_step {depth : Nat} {s : Disk} (h : WF depth s) (hr : RootInv s) (hs : Exact s) (op : Op) (ht : TidyOp depth s op) : Exact (s.step depth op) := by
  have hs' : s.size = totalSize s.files := hs
  cases op with
  | put id d now =>
    have hf := find_none_filter (not_contained ht)
    show s.size + d.length = totalSize (writeFile s.files _)
    unfold writeFile
    rw [hf, totalSize_append, hs']
    simp
  | putFails id d now n =>
    have ht : n = none := ht
    subst ht; exact hs
  | get id now =>
    simp only [Disk.step, Disk.get]
    split
    · exact hs
    · show s.size = totalSize (touch _ _ _)
      rw [touch_total]; exact hs'
  | getRange id o n now =>
    simp only [Disk.step, Disk.getRange]
    split
    · exact hs
    · split
      · exact hs
      · show s.size = totalSize (touch _ _ _)
        rw [touch_total]; exact hs'
  | remove id =>
    show s.size = totalSize (removeFile _ _)
    unfold removeFile
    rw [find_none_filter (not_contained ht)]; exact hs'
  | prune keep order c fails => exact (prune_size h hr keep order c fails).2 (Or.inl hs)
  | wipe c => rfl
  | cleanup t c k fails =>
    cases t with
    | none => exact hs
    | some t => exact (cleanup_size h hr t c k fails).2 hs
  | list => exact (collect_exact h hr).1

theorem root_run {depth : Nat} (ops : List Op) : ∀ {s : Disk}, WF depth s → RootInv s → RootInv (s.run depth ops) := by
  induction ops with
  | nil => exact fun _ h => h
  | cons op ops ih => intro s h hr; exact ih (wf_step h op) (root_step h hr op)

theorem exact_run {depth : Nat} (ops : List Op) : ∀ {s : Disk}, WF depth s → RootInv s → Exact s → Tidy depth s ops → Exact (s.run depth ops) := by
  induction ops with
  | nil => exact fun _ _ h _ => h
  | cons op ops ih => intro s h hr hs ht; exact ih (wf_step h op) (root_step h hr op) (exact_step h hr hs op ht.1) ht.2

/-- **C183.** From an empty store on, the reported size is the size of what is stored, if no chunk is written again or removed while it is stored and
no write fails half-way; reads, listings, prunes and cleanups, also interrupted and failing ones, and wiping do not matter. -/
theorem C183_new_partial (depth : Nat) (ops : List Op) (ht : Tidy depth {} ops) : (Disk.run depth {} ops).size = (Disk.run depth {} ops).realSize :=
  exact_run ops ⟨by simp, by simp, by simp⟩ (fun h => by cases h) rfl ht

/-- **C183.** Whatever was found in the directory and happened before: after a listing, the reported size is the real one, and stays so. -/
theorem C183_listed_partial (depth : Nat) (fs : List File) (hc : CleanDir depth fs) (before after : List Op)
    (ht : Tidy depth (Disk.run depth { files := fs } (before ++ [.list])) after) :
    (Disk.run depth { files := fs } (before ++ .list :: after)).size = (Disk.run depth { files := fs } (before ++ .list :: after)).realSize := by
  have e : ∀ s : Disk, s.run depth (before ++ .list :: after) = (s.run depth (before ++ [.list])).run depth after := by
    intro s; simp [Disk.run]
  have e2 : ∀ s : Disk, s.run depth (before ++ [.list]) = (s.run depth before).collect := by
    intro s; simp [Disk.run, Disk.step, Disk.list]
  have hwf := wf_run (depth := depth) before (wf_of_clean hc)
  have hr := root_run (depth := depth) before (wf_of_clean hc) (fun h => by cases h)
  rw [e, e2] at *
  exact exact_run after (wf_collect hwf) (collect_exact hwf hr).2 (collect_exact hwf hr).1 ht

/-- **C183.** Pruning and wiping set the size right. -/
theorem C183_set_right (depth : Nat) (fs : List File) (hc : CleanDir depth fs) (ops : List Op) :
    let s := Disk.run depth { files := fs } ops
    (∀ b, (s.wipe b).size = 0 ∧ (s.wipe b).realSize = 0) ∧
    ∀ keep order fails, (s.prune depth keep order false fails).1.size = (s.prune depth keep order false fails).1.realSize := by
  intro s
  exact ⟨fun b => ⟨rfl, rfl⟩, fun keep order fails => (prune_size (wf_run ops (wf_of_clean hc))
    (root_run ops (wf_of_clean hc) (fun h => by cases h)) keep order false fails).2 (Or.inr rfl)⟩

/-- **C183** does not hold if a stored chunk is written again: it is counted twice. -/
theorem C183_twice_violated (depth : Nat) (id : Id) (d : Bytes) (hd : d ≠ []) :
    (Disk.run depth {} [.put id d 1, .put id d 2]).size = 2 * d.length ∧ (Disk.run depth {} [.put id d 1, .put id d 2]).realSize = d.length ∧ d.length < 2 * d.length := by
  have := List.length_pos_iff.2 hd
  refine ⟨?_, ?_, by omega⟩
  · simp [Disk.run, Disk.step, Disk.put]; omega
  · simp [Disk.run, Disk.step, Disk.put, writeFile, Disk.realSize]

/-- **C183** does not hold if a chunk is removed, for a write that fails half-way, and before the first listing if there are files already. -/
theorem C183_others_violated (depth : Nat) (id : Id) (d : Bytes) :
    ((Disk.run depth {} [.put id d 1, .remove id]).size = d.length ∧ (Disk.run depth {} [.put id d 1, .remove id]).realSize = 0) ∧
    (∀ n ≤ d.length, (Disk.run depth {} [.putFails id d 1 (some n)]).size = 0 ∧ (Disk.run depth {} [.putFails id d 1 (some n)]).realSize = n) ∧
    ((Disk.run depth { files := [⟨cachePath depth id, d, 1⟩] } []).size = 0 ∧ (Disk.run depth { files := [⟨cachePath depth id, d, 1⟩] } []).realSize = d.length) := by
  refine ⟨⟨?_, ?_⟩, fun n hn => ⟨rfl, ?_⟩, rfl, ?_⟩
  · simp [Disk.run, Disk.step, Disk.put, Disk.remove]
  · simp [Disk.run, Disk.step, Disk.put, Disk.remove, writeFile, removeFile, Disk.realSize]
  · simp [Disk.run, Disk.step, Disk.putFails, writeFile, Disk.realSize, Nat.min_eq_left hn]
  · simp [Disk.run, Disk.realSize]

/-- A history with reads, a failing write, a listing, a cleanup that evicts, a prune and a second write of an evicted chunk is covered. -/
theorem C183_example :
    let a : Id := List.replicate 20 1; let b : Id := List.replicate 20 3
    let ops : List Op := [.put a [1, 2, 3] 1, .get a 2, .put b [4, 5] 3, .putFails [5, 6] [9] 4 none, .list,
      .cleanup (some 2) false none (fun _ => false), .put a [1, 2, 3] 5, .prune [a] [] false (fun _ => false)]
    Tidy 1 {} ops ∧ (Disk.run 1 {} ops).size = 3 ∧ (Disk.run 1 {} (ops.take 6)).size = 2 := by
  refine ⟨⟨?_, trivial, ?_, rfl, trivial, trivial, ?_, trivial, trivial⟩, ?_, ?_⟩
  · show Disk.contains 1 _ _ = false
    decide +kernel
  · show Disk.contains 1 _ _ = false
    decide +kernel
  · show Disk.contains 1 _ _ = false
    decide +kernel
  · decide +kernel
  · decide +kernel

end Verif.Store
