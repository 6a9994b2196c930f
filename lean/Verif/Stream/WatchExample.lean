import Verif.Stream.WatchProps

/-! # C74: runs of the watcher and the runner -/

namespace Verif.Watch

/-- No directories in the tree. -/
def Flat (t : Tree Nat Nat) : Prop := ∀ p, dirAt t p = false

theorem oneFile_flat : Flat oneFile := by
  intro p; unfold dirAt oneFile; split
  · rename_i h; split at h <;> simp at h
  · rfl

theorem noFile_flat : Flat noFile := fun _ => rfl

/-- A session that has just begun; there is no manifest from an earlier one. -/
def fresh (t : Tree Nat Nat) : State Nat Nat where
  fs := t
  queue := []
  gone := false
  wphase := .closed
  first := true
  prevOk := false
  started := false
  map := .empty
  filesChanged := false
  dirRecreated := false
  run := .starting
  view := .empty
  saved := .empty
  published := .empty
  scanOk := false
  seen := .empty
  base := .empty

/-- The watcher watches, the runner begins to scan. -/
def begun (t : Tree Nat Nat) : State Nat Nat :=
  { fresh t with wphase := .watching, prevOk := true, first := false, started := true, seen := t, base := t,
                 run := .scanning true fun _ => False }

/-- All is up to date. -/
def upToDate (t : Tree Nat Nat) : State Nat Nat :=
  { begun t with run := .waiting, view := t, saved := t, published := t, scanOk := true }

theorem begun_reach {ok : Kind → Prop} (hok : ok .clean) {t : Tree Nat Nat} (hw : t.Wf) : Reach 0 ok (begun t) := by
  have h0 : Reach 0 ok (fresh t) := .init ⟨hw, empty_wf, rfl, rfl, rfl, rfl, rfl, rfl, rfl⟩
  have h1 := Reach.step h0 hok (.opens rfl)
  have h2 := Reach.step h1 hok (.tell rfl (by intro b h; cases h))
  have h3 := Reach.step h2 hok (.register rfl)
  exact Reach.step h3 hok (.start rfl rfl)

theorem scan_root {t : Tree Nat Nat} (hw : t.Wf) (hf : Flat t) (v : Tree Nat Nat) (hv : v [] = none) : v.scan t [] = t := by
  funext p
  by_cases hb : Below [] p
  · obtain ⟨n, h | h⟩ := below_cases hb
    · subst h; exact scan_child
    · rw [scan_below h, if_neg (by rw [hf]; simp)]
      refine (hw.below_none (by simp) h ?_).symm
      intro h1
      have := hf ([] ++ [n])
      rw [dirAt_iff.mpr h1] at this; cases this
  · rw [scan_out hb]
    have : p = [] := by
      cases p with
      | nil => rfl
      | cons n r => exact absurd ⟨n, r, rfl⟩ hb
    subst this
    rw [hv, hw.root]

/-- After the root has been listed everything has been looked at. -/
theorem looked_all {t : Tree Nat Nat} (hf : Flat t) (done : Path Nat → Prop) (p : Path Nat) (hp : p ≠ []) :
    done p ∨ ∃ n, p = [] ++ [n] ∨ (Below ([] ++ [n]) p ∧ dirAt t ([] ++ [n]) = false) := by
  obtain ⟨n, h⟩ := below_cases (below_nil_iff.mpr hp)
  exact .inr ⟨n, h.imp id fun h => ⟨h, hf _⟩⟩

theorem upToDate_reach {ok : Kind → Prop} (hok : ok .clean) {t : Tree Nat Nat} (hw : t.Wf) (hf : Flat t) :
    Reach 0 ok (upToDate t) := by
  have h1 := Reach.step (begun_reach hok hw) hok (.scanDir (d := []) rfl (.inl rfl))
  have h2 := Reach.step h1 hok (.scanEnds rfl (looked_all hf _))
  have he : ({ begun t with view := (begun t).view.scan (begun t).fs [] } : State Nat Nat) = { begun t with view := t } := by
    show ({ begun t with view := Tree.scan .empty t [] } : State Nat Nat) = _
    rw [scan_root hw hf _ rfl]
  have : upToDate t = { begun t with
      run := .waiting, view := (begun t).view.scan (begun t).fs [], saved := (begun t).view.scan (begun t).fs [],
      published := (begun t).view.scan (begun t).fs [], scanOk := true } := by
    show upToDate t = { begun t with
      run := .waiting, view := Tree.scan .empty t [], saved := Tree.scan .empty t [],
      published := Tree.scan .empty t [], scanOk := true }
    rw [scan_root hw hf _ rfl]
    rfl
  rw [this]
  exact h2

/-! ## A run without special steps: a file is deleted -/

example : ∃ s, Reach (ν := Nat) 0 (· = .clean) s ∧ Idle s ∧ s.fs = noFile ∧ s.published [0] = none ∧ s.saved ≠ oneFile := by
  have h1 := upToDate_reach (ok := (· = .clean)) rfl oneFile_wf oneFile_flat
  have h2 := Reach.step h1 rfl (.change delete0_change rfl)
  have h3 := Reach.step h2 rfl (.fetch (e := delete0) (t := noFile) (q := []) (.inl rfl) rfl (fun h => by cases h.1))
  have h4 := Reach.step h3 rfl (.notify rfl (by intro b h; cases h))
  have h5 := Reach.step h4 rfl (.take rfl rfl rfl)
  have h6 := Reach.step h5 rfl (.takenSome rfl ⟨[0], by decide⟩)
  have h7 := Reach.step h6 rfl (.applyDelete (d := [0]) (e := .file 7) rfl (by decide))
  have h8 := Reach.step h7 rfl (.updateEnds rfl (by
    intro p; show (if p = [0] then none else merge _ delete0 p) = none
    split
    · rfl
    · rename_i h; rw [merge_other h]; rfl))
  refine ⟨_, h8, ⟨rfl, rfl, rfl, rfl, rfl, rfl, rfl⟩, rfl, ?_, ?_⟩
  · decide
  · intro h
    have := congrFun h [0]
    revert this
    decide

/-! ## C74 is false in general, for five independent reasons -/

/-- A known file that is deleted, written and deleted again before the runner picks up the changes stays in the manifest. -/
theorem C74_file_deleted_twice_violated : ¬ CatchesUp Nat Nat (fun k => k = .clean ∨ k = .erased) := by
  intro h
  have h1 := upToDate_reach (ok := fun k => k = .clean ∨ k = .erased) (.inl rfl) oneFile_wf oneFile_flat
  have h2 := Reach.step h1 (.inl rfl) (.change delete0_change rfl)
  have h3 := Reach.step h2 (.inl rfl) (.change create0_change rfl)
  have h4 := Reach.step h3 (.inl rfl) (.change delete0_change rfl)
  have h5 := Reach.step h4 (.inl rfl) (.fetch (e := delete0) (t := noFile) (q := [(create0, oneFile), (delete0, noFile)])
    (.inl rfl) rfl (fun h => by cases h.1))
  have h6 := Reach.step h5 (.inl rfl) (.fetch (e := create0) (t := oneFile) (q := [(delete0, noFile)]) (.inr rfl) rfl
    (fun h => by cases h.1))
  have h7 := Reach.step h6 (.inr rfl) (.fetchErased (e := delete0) (t := noFile) (q := []) (.inr rfl) rfl
    ⟨by decide, .inl rfl⟩)
  have h8 := Reach.step h7 (.inl rfl) (.notify rfl (by intro b h; cases h))
  have h9 := Reach.step h8 (.inl rfl) (.take rfl rfl rfl)
  have h10 := Reach.step h9 (.inl rfl) (.takenNothing rfl (by
    intro p; show merge (merge (merge _ delete0) create0) delete0 p = none
    by_cases hp : p = [0]
    · subst hp; decide
    · rw [merge_other hp, merge_other hp, merge_other hp]; rfl))
  have := h 0 _ h10 ⟨rfl, rfl, rfl, rfl, rfl, rfl, rfl⟩ [0]
  revert this
  decide

/-- A temporary file that a scan has seen stays in the manifest after it was deleted. -/
theorem C74_temporary_file_scanned_violated : ¬ CatchesUp Nat Nat (fun k => k = .clean ∨ k = .erased) := by
  intro h
  have h1 := begun_reach (ok := fun k => k = .clean ∨ k = .erased) (.inl rfl) noFile_wf
  have h2 := Reach.step h1 (.inl rfl) (.change create0_change rfl)
  have h3 := Reach.step h2 (.inl rfl) (.scanDir (d := []) rfl (.inl rfl))
  have h4 := Reach.step h3 (.inl rfl) (.scanEnds rfl (looked_all oneFile_flat _))
  have h5 := Reach.step h4 (.inl rfl) (.fetch (e := create0) (t := oneFile) (q := []) (.inl rfl) rfl (fun h => by cases h.1))
  have h6 := Reach.step h5 (.inl rfl) (.change delete0_change rfl)
  have h7 := Reach.step h6 (.inr rfl) (.fetchErased (e := delete0) (t := noFile) (q := []) (.inr rfl) rfl
    ⟨by decide, .inl rfl⟩)
  have h8 := Reach.step h7 (.inl rfl) (.notify rfl (by intro b h; cases h))
  have h9 := Reach.step h8 (.inl rfl) (.take rfl rfl rfl)
  have h10 := Reach.step h9 (.inl rfl) (.takenNothing rfl (by
    intro p; show merge (merge _ create0) delete0 p = none
    by_cases hp : p = [0]
    · subst hp; decide
    · rw [merge_other hp, merge_other hp]; rfl))
  have := h 0 _ h10 ⟨rfl, rfl, rfl, rfl, rfl, rfl, rfl⟩ [0]
  revert this
  decide

/-- A directory `0` with a file `1` in it. -/
def dirWithFile : Tree Nat Nat := fun p => if p = [0] then some .dir else if p = [0, 1] then some (.file 7) else none

def fileOne : Tree Nat Nat := fun p => if p = [1] then some (.file 7) else none

theorem fileOne_wf : fileOne.Wf := by
  refine ⟨rfl, ?_⟩
  rintro d p hd ⟨n, r, rfl⟩ h
  unfold fileOne at h
  split at h
  · rename_i h1
    have := congrArg List.length h1
    simp only [List.length_append, List.length_cons, List.length_nil] at this
    exact absurd (List.eq_nil_of_length_eq_zero (by omega)) hd
  · exact absurd rfl h

def moveIn : Event Nat Nat := ⟨.added, [0], .dir⟩

theorem moveIn_move : Move moveIn noFile dirWithFile := by
  refine .into (d := []) (n := 0) (sub := fileOne) (.inl rfl) (.inl rfl) rfl fileOne_wf ?_ ?_
  · intro q
    show (if 0 :: q = [0] then some (Entry.dir : Entry Nat) else if 0 :: q = [0, 1] then some (.file 7) else none) = _
    unfold fileOne
    simp
  · intro q hq
    show (if q = [0] then some (Entry.dir : Entry Nat) else if q = [0, 1] then some (.file 7) else none) = none
    rw [if_neg (by rintro rfl; exact hq (by decide)), if_neg (by rintro rfl; exact hq (by decide))]

/-- A directory that is moved into the streamed one, or renamed, has no contents in the manifest. -/
theorem C74_directory_moved_violated : ¬ CatchesUp Nat Nat (fun k => k = .clean ∨ k = .moved) := by
  intro h
  have h1 := upToDate_reach (ok := fun k => k = .clean ∨ k = .moved) (.inl rfl) noFile_wf noFile_flat
  have h2 := Reach.step h1 (.inr rfl) (.move moveIn_move rfl)
  have h3 := Reach.step h2 (.inl rfl) (.fetch (e := moveIn) (t := dirWithFile) (q := []) (.inl rfl) rfl (fun h => by cases h.1))
  have h4 := Reach.step h3 (.inl rfl) (.notify rfl (by intro b h; cases h))
  have h5 := Reach.step h4 (.inl rfl) (.take rfl rfl rfl)
  have hm : ∀ p, p ≠ [0] → merge (upToDate noFile).map moveIn p = none := fun p hp => by rw [merge_other hp]; rfl
  have h6 := Reach.step h5 (.inl rfl) (.takenSome rfl ⟨[0], by decide⟩)
  have h7 := Reach.step h6 (.inl rfl) (.applyPut (d := [0]) (a := .added) (e := .dir) rfl (by
    intro q e' hq
    by_cases hp : q = [0]
    · subst hp; revert hq; show some (Act.added, Entry.dir) = _ → False; intro h; cases h
    · have := hm q hp
      rw [show merge (upToDate noFile).map moveIn q = some (.deleted, e') from hq] at this; cases this) (by decide))
  have h8 := Reach.step h7 (.inl rfl) (.updateEnds rfl (by
    intro p; show (if p = [0] then none else merge _ moveIn p) = none
    split
    · rfl
    · rename_i h; exact hm p h))
  have := h 0 _ h8 ⟨rfl, rfl, rfl, rfl, rfl, rfl, rfl⟩ [0, 1]
  revert this
  decide

/-- A change after the callback and the scan, but before notifications are requested, is never seen. -/
theorem C74_change_before_watching_violated : ¬ CatchesUp Nat Nat (fun k => k = .clean ∨ k = .blind) := by
  intro h
  have h1 := upToDate_reach (ok := fun k => k = .clean ∨ k = .blind) (.inl rfl) oneFile_wf oneFile_flat
  have h2 := Reach.step h1 (.inl rfl) (.lose rfl)
  have h3 := Reach.step h2 (.inl rfl) (.clear rfl)
  have h4 := Reach.step h3 (.inl rfl) (.opens rfl)
  have h5 := Reach.step h4 (.inl rfl) (.tell rfl (by intro b h; cases h))
  have h6 := Reach.step h5 (.inl rfl) (.rescan rfl rfl)
  have h7 := Reach.step h6 (.inl rfl) (.scanDir (d := []) rfl (.inl rfl))
  have h8 := Reach.step h7 (.inr rfl) (.change delete0_change rfl)
  have h9 := Reach.step h8 (.inl rfl) (.scanEnds rfl (looked_all oneFile_flat _))
  have h10 := Reach.step h9 (.inl rfl) (.register rfl)
  have := h 0 _ h10 ⟨rfl, rfl, rfl, rfl, rfl, rfl, rfl⟩ [0]
  revert this
  decide

theorem created_batch (p : Path Nat) (hp : p ≠ [0]) : merge (upToDate noFile).map create0 p = none := by
  rw [merge_other hp]; rfl

/-- A file that could not be read, for instance because it was locked, stays empty in the manifest. -/
theorem C74_unreadable_file_violated : ¬ CatchesUp Nat Nat (fun k => k = .clean ∨ k = .unreadable) := by
  intro h
  have h1 := upToDate_reach (ok := fun k => k = .clean ∨ k = .unreadable) (.inl rfl) noFile_wf noFile_flat
  have h2 := Reach.step h1 (.inl rfl) (.change create0_change rfl)
  have h3 := Reach.step h2 (.inl rfl) (.fetch (e := create0) (t := oneFile) (q := []) (.inl rfl) rfl (fun h => by cases h.1))
  have h4 := Reach.step h3 (.inl rfl) (.notify rfl (by intro b h; cases h))
  have h5 := Reach.step h4 (.inl rfl) (.take rfl rfl rfl)
  have h6 := Reach.step h5 (.inl rfl) (.takenSome rfl ⟨[0], by decide⟩)
  have h7 := Reach.step h6 (.inl rfl) (.applyPut (d := [0]) (a := .added) (e := .file 7) rfl (by
    intro q e' hq
    by_cases hp : q = [0]
    · subst hp; revert hq; show some (Act.added, Entry.file 7) = _ → False; intro h; cases h
    · have := created_batch q hp
      rw [show merge (upToDate noFile).map create0 q = some (.deleted, e') from hq] at this; cases this) (by decide))
  have h8 := Reach.step h7 (.inr rfl) (.chunkFails (p := [0]) (a := 7) (.inr ⟨_, rfl⟩) (by decide) (by decide))
  have h9 := Reach.step h8 (.inl rfl) (.updateEnds rfl (by
    intro p; show (if p = [0] then none else merge _ create0 p) = none
    split
    · rfl
    · rename_i h; exact created_batch p h))
  have := h 0 _ h9 ⟨rfl, rfl, rfl, rfl, rfl, rfl, rfl⟩ [0]
  revert this
  decide

/-- After a failed update the changes are not tried again. -/
theorem C74_failed_update_violated : ¬ CatchesUp Nat Nat (fun k => k = .clean ∨ k = .failedUpdate) := by
  intro h
  have h1 := upToDate_reach (ok := fun k => k = .clean ∨ k = .failedUpdate) (.inl rfl) noFile_wf noFile_flat
  have h2 := Reach.step h1 (.inl rfl) (.change create0_change rfl)
  have h3 := Reach.step h2 (.inl rfl) (.fetch (e := create0) (t := oneFile) (q := []) (.inl rfl) rfl (fun h => by cases h.1))
  have h4 := Reach.step h3 (.inl rfl) (.notify rfl (by intro b h; cases h))
  have h5 := Reach.step h4 (.inl rfl) (.take rfl rfl rfl)
  have h6 := Reach.step h5 (.inl rfl) (.takenSome rfl ⟨[0], by decide⟩)
  have h7 := Reach.step h6 (.inr rfl) (.updateFails rfl)
  have := h 0 _ h7 ⟨rfl, rfl, rfl, rfl, rfl, rfl, rfl⟩ [0]
  revert this
  decide

end Verif.Watch
