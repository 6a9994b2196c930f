import Verif.Sync.Progress

/-! # What is shown while files are deleted (C212)

progress_tracker.cc:269-337. -/
namespace Verif.Progress

/-- A report that a file or a directory was deleted. -/
inductive Deletes : Event → List UInt8 → Prop where
  | file (p : List UInt8) : Deletes (.fileDeleted p) p
  | dir (p : List UInt8) : Deletes (.dirDeleted p) p

/-- The lines for the reports: how many there were so far, of how many. -/
inductive Counted (total : Nat) : Nat → List (Nat × Event) → List (Nat × Line) → Prop where
  | nil (n : Nat) : Counted total n [] []
  | cons {n t : Nat} {e : Event} {p : List UInt8} {es : List (Nat × Event)} {ls : List (Nat × Line)} :
      Deletes e p → Counted total (n + 1) es ls → Counted total n ((t, e) :: es) ((t, .deleted p (n + 1) total) :: ls)

/-- The number of reported files and directories. -/
def filesIn (es : List (Nat × Event)) : Nat := es.countP fun e => match e.2 with | .fileDeleted _ => true | _ => false
def dirsIn (es : List (Nat × Event)) : Nat := es.countP fun e => match e.2 with | .dirDeleted _ => true | _ => false

/-- The state while files are deleted. -/
structure Deleting (s : State) (f d F D : Nat) : Prop where
  phase : s.phase = .delete
  files : s.filesDeleted = f
  dirs : s.dirsDeleted = d
  filesTotal : s.filesToDelete = F
  dirsTotal : s.dirsToDelete = D

theorem deleting_output {c : Cfg} {now : Nat} {fin : Bool} {s : State} {f d F D : Nat} (h : Deleting s f d F D) :
    Deleting (updateOutput c now fin s).1 f d F D := by
  have h1 := output_state c now fin s
  rw [h1]
  exact ⟨h.phase, h.files, h.dirs, h.filesTotal, h.dirsTotal⟩

/-- **C212, line by line.** Each deleted file or directory is shown in a line of its own, in the order of the reports, with its number
counted from one and the number of all that are to be deleted. -/
theorem C212_counted (c : Cfg) (hq : c.quiet = false) (ho : c.onlyTotal = false) (s : State) (hp : s.dirsDeleted = 0)
    (ht : 0 < s.filesToDelete + s.dirsToDelete) (t0 t1 : Nat) (es : List (Nat × Event)) (he : ∀ e ∈ es, ∃ p, Deletes e.2 p) :
    Counted (s.filesToDelete + s.dirsToDelete) 0 es (run c (((t0, .startDelete) :: es) ++ [(t1, .finish)]) s).2 := by
  have key : ∀ (es : List (Nat × Event)) (s : State) (f d F D : Nat), (∀ e ∈ es, ∃ p, Deletes e.2 p) → 0 < F + D →
      Deleting s f d F D → Counted (F + D) (f + d) es (run c (es ++ [(t1, .finish)]) s).2 := by
    intro es
    induction es with
    | nil =>
      intro s f d F D _ hFD h
      have : (updateOutput c t1 true s).2 = [] := by
        unfold updateOutput
        rw [hq, h.phase, ho]
        simp
      simp only [List.nil_append, run, step, this, List.map_nil, List.append_nil]
      exact .nil _
    | cons e es ih =>
      obtain ⟨t, e⟩ := e
      intro s f d F D he hFD h
      obtain ⟨p, hp⟩ := he _ List.mem_cons_self
      have ih := fun s f d => ih s f d F D (fun e h => he e (List.mem_cons_of_mem _ h)) hFD
      rw [List.cons_append, run]
      have hz : ¬ F + D = 0 := by omega
      cases hp with
      | file p =>
        have hd : Deleting { s with path := p, filesDeleted := s.filesDeleted + 1 } (f + 1) d F D :=
          ⟨h.phase, by rw [h.files], h.dirs, h.filesTotal, h.dirsTotal⟩
        have hl : (step c t (.fileDeleted p) s).2 = [.deleted p (f + d + 1) (F + D)] := by
          simp only [step, updateOutput, hq, h.phase, ho, h.filesTotal, h.dirsTotal, h.files, h.dirs, hz]
          simp [Nat.add_right_comm]
        rw [hl]
        have h2 := ih _ _ _ (deleting_output (c := c) (now := t) (fin := false) hd)
        rw [show f + 1 + d = f + d + 1 by omega] at h2
        exact .cons (.file p) h2
      | dir p =>
        have hd : Deleting { s with path := p, dirsDeleted := s.dirsDeleted + 1 } f (d + 1) F D :=
          ⟨h.phase, h.files, by rw [h.dirs], h.filesTotal, h.dirsTotal⟩
        have hl : (step c t (.dirDeleted p) s).2 = [.deleted p (f + d + 1) (F + D)] := by
          simp only [step, updateOutput, hq, h.phase, ho, h.filesTotal, h.dirsTotal, h.files, h.dirs, hz]
          simp [Nat.add_assoc]
        rw [hl]
        have h2 := ih _ _ _ (deleting_output (c := c) (now := t) (fin := false) hd)
        rw [show f + (d + 1) = f + d + 1 by omega] at h2
        exact .cons (.dir p) h2
  have h0 : Deleting (step c t0 .startDelete s).1 0 0 s.filesToDelete s.dirsToDelete := ⟨rfl, rfl, hp, rfl, rfl⟩
  have := key es _ 0 0 _ _ he ht h0
  rw [List.cons_append, run]
  exact this

/-- **C212, totals only.** With `--total`-like output every line tells the numbers reported so far, and the last one, which is printed in
any case, all of them. -/
theorem C212_totals (c : Cfg) (hq : c.quiet = false) (ho : c.onlyTotal = true) (s : State) (hp : s.dirsDeleted = 0)
    (ht : 0 < s.filesToDelete + s.dirsToDelete) (t0 t1 : Nat) (es : List (Nat × Event)) (he : ∀ e ∈ es, ∃ p, Deletes e.2 p) :
    (∃ ls, (run c (((t0, .startDelete) :: es) ++ [(t1, .finish)]) s).2 =
      ls ++ [(t1, .deletedTotal (filesIn es) s.filesToDelete (dirsIn es) s.dirsToDelete true)]) ∧
    ∀ l ∈ (run c (((t0, .startDelete) :: es) ++ [(t1, .finish)]) s).2, ∃ pre, pre <+: es ∧ ∃ nl,
      l.2 = .deletedTotal (filesIn pre) s.filesToDelete (dirsIn pre) s.dirsToDelete nl := by
  have out : ∀ (now : Nat) (fin : Bool) (s : State) (f d F D : Nat), 0 < F + D → Deleting s f d F D →
      (updateOutput c now fin s).2 = [] ∧ fin = false ∨ (updateOutput c now fin s).2 = [.deletedTotal f F d D fin] := by
    intro now fin s f d F D hFD h
    have hz : ¬ F + D = 0 := by omega
    simp only [updateOutput, hq, h.phase, ho, h.filesTotal, h.dirsTotal, h.files, h.dirs, hz]
    cases fin <;> simp
    by_cases hd : now - s.printAt < c.delay <;> simp [hd]
  have key : ∀ (es done : List (Nat × Event)) (s : State) (F D : Nat), (∀ e ∈ es, ∃ p, Deletes e.2 p) → 0 < F + D →
      Deleting s (filesIn done) (dirsIn done) F D →
      (∃ ls, (run c (es ++ [(t1, .finish)]) s).2 = ls ++ [(t1, .deletedTotal (filesIn (done ++ es)) F (dirsIn (done ++ es)) D true)]) ∧
      ∀ l ∈ (run c (es ++ [(t1, .finish)]) s).2, ∃ pre, pre <+: es ∧ ∃ nl,
        l.2 = .deletedTotal (filesIn (done ++ pre)) F (dirsIn (done ++ pre)) D nl := by
    intro es
    induction es with
    | nil =>
      intro done s F D _ hFD h
      have hl : (updateOutput c t1 true s).2 = [.deletedTotal (filesIn done) F (dirsIn done) D true] := by
        rcases out t1 true s _ _ F D hFD h with ⟨_, h2⟩ | h2
        · cases h2
        · exact h2
      simp only [List.nil_append, run, step, hl, List.map_cons, List.map_nil, List.append_nil]
      refine ⟨⟨[], rfl⟩, fun l hm => ?_⟩
      rw [List.mem_singleton] at hm
      subst hm
      exact ⟨[], List.nil_prefix, true, by rw [List.append_nil]⟩
    | cons e es ih =>
      obtain ⟨t, e⟩ := e
      intro done s F D he hFD h
      obtain ⟨p, hp⟩ := he _ List.mem_cons_self
      have ih := fun s => ih (done ++ [(t, e)]) s F D (fun e h => he e (List.mem_cons_of_mem _ h)) hFD
      rw [List.cons_append, run]
      have hstep : ∃ s1, Deleting s1 (filesIn (done ++ [(t, e)])) (dirsIn (done ++ [(t, e)])) F D ∧
          step c t e s = updateOutput c t false s1 := by
        cases hp with
        | file p =>
          exact ⟨{ s with path := p, filesDeleted := s.filesDeleted + 1 },
            ⟨h.phase, by simp [filesIn, List.countP_append, h.files], by simp [dirsIn, List.countP_append, h.dirs], h.filesTotal, h.dirsTotal⟩, rfl⟩
        | dir p =>
          exact ⟨{ s with path := p, dirsDeleted := s.dirsDeleted + 1 },
            ⟨h.phase, by simp [filesIn, List.countP_append, h.files], by simp [dirsIn, List.countP_append, h.dirs], h.filesTotal, h.dirsTotal⟩, rfl⟩
      obtain ⟨s1, hd, hs⟩ := hstep
      rw [hs]
      obtain ⟨⟨ls, i1⟩, i2⟩ := ih _ (deleting_output (c := c) (now := t) (fin := false) hd)
      rw [List.append_assoc, List.singleton_append] at i1
      constructor
      · exact ⟨(updateOutput c t false s1).2.map (fun l => (t, l)) ++ ls, by rw [List.append_assoc, ← i1]⟩
      · intro l hm
        rcases List.mem_append.1 hm with hm | hm
        · obtain ⟨l', hl', rfl⟩ := List.mem_map.1 hm
          refine ⟨[(t, e)], ⟨es, rfl⟩, false, ?_⟩
          rcases out t false s1 _ _ F D hFD hd with ⟨h2, _⟩ | h2
          · rw [h2] at hl'; cases hl'
          · rw [h2] at hl'; exact List.mem_singleton.1 hl'
        · obtain ⟨pre, hpre, nl, hnl⟩ := i2 l hm
          rw [List.append_assoc, List.singleton_append] at hnl
          exact ⟨(t, e) :: pre, List.cons_prefix_cons.2 ⟨rfl, hpre⟩, nl, hnl⟩
  have h0 : Deleting (step c t0 .startDelete s).1 (filesIn []) (dirsIn []) s.filesToDelete s.dirsToDelete := ⟨rfl, rfl, hp, rfl, rfl⟩
  have := key es [] _ _ _ he ht h0
  rw [List.cons_append, run]
  exact this

/-- Nothing is shown if there is nothing to delete, or if the output is switched off. -/
theorem C212_nothing (c : Cfg) (s : State) (h : c.quiet = true ∨ s.filesToDelete + s.dirsToDelete = 0) (t0 t1 : Nat) :
    (run c [(t0, .startDelete), (t1, .finish)] s).2 = [] := by
  simp only [run, step, updateOutput]
  rcases h with h | h <;> simp [h]

/-- Non-vacuity: two files and a directory, on a terminal, in both modes. -/
example : (run ⟨false, true, false, false, id⟩ [(5, .startDelete), (6, .fileDeleted [97]), (7, .fileDeleted [98]), (8, .dirDeleted [99]), (9, .finish)]
    { filesToDelete := 2, dirsToDelete := 1 }).2 = [(6, .deleted [97] 1 3), (7, .deleted [98] 2 3), (8, .deleted [99] 3 3)] := by
  simp [run, step, updateOutput]
example : (run ⟨false, true, true, false, id⟩ [(5, .startDelete), (100000006, .fileDeleted [97]), (100000007, .fileDeleted [98]), (100000008, .dirDeleted [99]),
    (100000009, .finish)] { filesToDelete := 2, dirsToDelete := 1 }).2 =
    [(100000006, .deletedTotal 1 2 0 1 false), (100000009, .deletedTotal 2 2 1 1 true)] := by
  simp [run, step, updateOutput, Cfg.delay]

end Verif.Progress
