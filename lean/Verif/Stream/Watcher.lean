/-!
# Watching the streamed directory (C72, C73)

* common/file_watcher_win.cc: collecting the change notifications of Windows
* cdc_stream/multi_session.cc:176-286: the thread that keeps the manifest up to date

A directory tree is a function from paths to what is there.  Simplified: only the kind of an entry
and, for files, an abstract content are kept (size, modification time and data); modification times
of directories are not.
-/

namespace Verif.Watch

set_option linter.unusedSectionVars false

variable {ν α : Type} [DecidableEq ν]

/-- What is at a path. -/
inductive Entry (α : Type) where
  | dir
  | file (a : α)
  deriving DecidableEq

/-- The two entries are of the same kind. -/
def Entry.sameKind : Entry α → Entry α → Bool
  | .dir, .dir => true
  | .file _, .file _ => true
  | _, _ => false

/-- A path relative to the streamed directory, which itself is `[]`. -/
abbrev Path (ν : Type) := List ν

/-- A directory tree (without its root). -/
abbrev Tree (ν α : Type) := Path ν → Option (Entry α)

/-- `p` lies below `d`. -/
def Below (d p : Path ν) : Prop := ∃ n r, p = d ++ n :: r

/-- Every entry is in a directory; the root has no entry. -/
structure Tree.Wf (t : Tree ν α) : Prop where
  root : t [] = none
  parent : ∀ d p, d ≠ [] → Below d p → t p ≠ none → t d = some .dir

/-! ## Notifications -/

/-- The actions of `FILE_NOTIFY_EXTENDED_INFORMATION`. -/
inductive Action where
  | added
  | removed
  | modified
  | renamedOld
  | renamedNew
  deriving DecidableEq

/-- One notification of `ReadDirectoryChangesExW`. `entry` stands for the file attributes in it. -/
structure Event (ν α : Type) where
  action : Action
  path : Path ν
  entry : Entry α

/-- A change of one path and the notification Windows sends for it.  Renaming a file is a removal followed by a
creation. -/
inductive Change : Event ν α → Tree ν α → Tree ν α → Prop where
  | create {t t' : Tree ν α} {a : Action} {d : Path ν} {n : ν} {e : Entry α} : a = .added ∨ a = .renamedNew →
      d = [] ∨ t d = some .dir → t (d ++ [n]) = none → (∀ q, t' q = if q = d ++ [n] then some e else t q) →
      Change ⟨a, d ++ [n], e⟩ t t'
  | modify {t t' : Tree ν α} {p : Path ν} {e e' : Entry α} : t p = some e' → e'.sameKind e = true →
      (∀ q, t' q = if q = p then some e else t q) → Change ⟨.modified, p, e⟩ t t'
  /-- a file or an empty directory goes -/
  | remove {t t' : Tree ν α} {a : Action} {p : Path ν} {e : Entry α} : a = .removed ∨ a = .renamedOld →
      t p = some e → (∀ q, Below p q → t q = none) → (∀ q, t' q = if q = p then none else t q) → Change ⟨a, p, e⟩ t t'

/-- A sequence of such changes. -/
inductive Changes : List (Event ν α) → Tree ν α → Tree ν α → Prop where
  | nil (t : Tree ν α) : Changes [] t t
  | cons {e : Event ν α} {es : List (Event ν α)} {t t' u : Tree ν α} : Change e t t' → Changes es t' u →
      Changes (e :: es) t u

/-- A directory is moved into or out of the tree, or renamed (first out, then in), together with what is in it.  There
is one notification for the directory and none for what is below it. -/
inductive Move : Event ν α → Tree ν α → Tree ν α → Prop where
  | out {t t' : Tree ν α} {a : Action} {p : Path ν} {e : Entry α} : a = .removed ∨ a = .renamedOld → t p = some e →
      (∀ q, t' q = if p <+: q then none else t q) → Move ⟨a, p, e⟩ t t'
  | into {t t' : Tree ν α} {a : Action} {d : Path ν} {n : ν} {sub : Tree ν α} : a = .added ∨ a = .renamedNew →
      d = [] ∨ t d = some .dir → t (d ++ [n]) = none → sub.Wf →
      (∀ q, t' (d ++ [n] ++ q) = if q = [] then some .dir else sub q) → (∀ q, ¬ d ++ [n] <+: q → t' q = t q) →
      Move ⟨a, d ++ [n], .dir⟩ t t'

/-! ## Collecting notifications -/

/-- `FileAction`, common/file_watcher_win.h. -/
inductive Act where
  | added
  | modified
  | deleted
  deriving DecidableEq

/-- `FileMap`, common/file_watcher_win.h:53. -/
abbrev FileMap (ν α : Type) := Path ν → Option (Act × Entry α)

def FileMap.empty : FileMap ν α := fun _ => none

/-- `was_added`, file_watcher_win.cc:466-469. -/
def wasAdded (m : FileMap ν α) (p : Path ν) : Bool :=
  match m p with
  | some (.added, _) => true
  | _ => false

/-- What becomes of the map's entry, file_watcher_win.cc:474-515; `none`: it is erased. -/
def newEntry (was : Bool) (a : Action) (e : Entry α) : Option (Act × Entry α) :=
  match a with
  | .removed | .renamedOld => if was then none else some (.deleted, e)
  | .added | .renamedNew => some (.added, e)
  | .modified => some (if was then .added else .modified, e)

/-- One iteration of the loop in `ProcessDirChanges`, file_watcher_win.cc:459-521. -/
def merge (m : FileMap ν α) (e : Event ν α) : FileMap ν α :=
  fun q => if q = e.path then newEntry (wasAdded m e.path) e.action e.entry else m q

/-- The whole loop. -/
def mergeAll (m : FileMap ν α) (es : List (Event ν α)) : FileMap ν α := es.foldl merge m

/-! ## C72: the collected changes lead to the same tree as the changes themselves -/

/-- The tree that is obtained from `t` by the changes in the map: what was deleted goes, what was added or modified is put
there. -/
def outcome (m : FileMap ν α) (t : Tree ν α) : Tree ν α := fun p =>
  match m p with
  | none => t p
  | some (.deleted, _) => none
  | some (_, e) => some e

/-- C72: for every sequence of changes the map of collected changes leads from the tree before to the tree after. -/
def CollectedChangesComplete (ν α : Type) [DecidableEq ν] : Prop :=
  ∀ (es : List (Event ν α)) (t u : Tree ν α), t.Wf → Changes es t u → ∀ p, outcome (mergeAll .empty es) t p = u p

/-- A notification that something appeared at the path. -/
def Event.creates (e : Event ν α) (p : Path ν) : Prop := e.path = p ∧ (e.action = .added ∨ e.action = .renamedNew)

theorem mergeAll_cons (m : FileMap ν α) (e : Event ν α) (es : List (Event ν α)) :
    mergeAll m (e :: es) = mergeAll (merge m e) es := rfl

theorem merge_other {m : FileMap ν α} {e : Event ν α} {q : Path ν} (h : q ≠ e.path) : merge m e q = m q := by
  unfold merge; rw [if_neg h]

theorem merge_self (m : FileMap ν α) (e : Event ν α) :
    merge m e e.path = newEntry (wasAdded m e.path) e.action e.entry := by
  unfold merge; rw [if_pos rfl]

theorem Change.other {e : Event ν α} {t t' : Tree ν α} (h : Change e t t') {q : Path ν} (hq : q ≠ e.path) :
    t' q = t q := by
  cases h with
  | create _ _ _ h => rw [h, if_neg hq]
  | modify _ _ h => rw [h, if_neg hq]
  | remove _ _ _ h => rw [h, if_neg hq]

/-- How the entry `x` of the map relates to what is at the path `now` and what was there before, `b`; `c`: something appeared there
in between. -/
def Tracks (x : Option (Act × Entry α)) (now b : Option (Entry α)) (c : Prop) : Prop :=
  match x with
  | none => (now = b ∧ (b ≠ none → ¬ c)) ∨ (now = none ∧ b ≠ none ∧ c)
  | some (.deleted, _) => now = none ∧ b ≠ none ∧ ¬ c
  | some (.modified, e) => now = some e ∧ b ≠ none ∧ ¬ c
  | some (.added, e) => now = some e ∧ c

theorem wasAdded_true {m : FileMap ν α} {p : Path ν} (h : wasAdded m p = true) : ∃ e, m p = some (.added, e) := by
  unfold wasAdded at h
  split at h
  · rename_i e h1; exact ⟨e, h1⟩
  · cases h

theorem wasAdded_false {m : FileMap ν α} {p : Path ν} (h : wasAdded m p = false) (e : Entry α) :
    m p ≠ some (.added, e) := by
  unfold wasAdded at h
  intro h1
  rw [h1] at h
  cases h

/-- If the entry does not say "added" and there is something at the path, it was there before and nothing appeared. -/
theorem Tracks.notAdded {m : FileMap ν α} {p : Path ν} {now b : Option (Entry α)} {c : Prop} (h : Tracks (m p) now b c)
    (hw : wasAdded m p = false) (hn : now ≠ none) : b ≠ none ∧ ¬ c := by
  have hw' := wasAdded_false hw
  unfold Tracks at h
  split at h
  · rcases h with h | h
    · have hb : b ≠ none := h.1 ▸ hn
      exact ⟨hb, h.2 hb⟩
    · exact absurd h.1 hn
  · exact h.2
  · exact h.2
  · rename_i e h1; exact absurd h1 (hw' e)

theorem Tracks.change {m : FileMap ν α} {e : Event ν α} {t t' : Tree ν α} {b : Option (Entry α)} {c : Prop} {p : Path ν}
    (hc : Change e t t') (h : Tracks (m p) (t p) b c) : Tracks (merge m e p) (t' p) b (c ∨ e.creates p) := by
  by_cases hp : p = e.path
  · subst hp
    rw [merge_self]
    cases hc with
    | @create _ _ a d n e ha _ hn ht =>
      have ht' := ht (d ++ [n]); rw [if_pos rfl] at ht'
      rcases ha with rfl | rfl
      · exact ⟨ht', .inr ⟨rfl, .inl rfl⟩⟩
      · exact ⟨ht', .inr ⟨rfl, .inr rfl⟩⟩
    | @modify _ _ p e e' ho _ ht =>
      have ht' := ht p; rw [if_pos rfl] at ht'
      simp only [newEntry]
      have hcr : ∀ {x : Prop}, x ∨ Event.creates (⟨.modified, p, e⟩ : Event ν α) p → x := by
        rintro x (h | ⟨_, h | h⟩)
        · exact h
        · cases h
        · cases h
      cases hw : wasAdded m p with
      | true =>
        obtain ⟨e1, h1⟩ := wasAdded_true hw
        simp only [h1, Tracks] at h
        exact ⟨ht', .inl h.2⟩
      | false =>
        have := h.notAdded hw (by dsimp only; rw [ho]; simp)
        exact ⟨ht', this.1, fun h => this.2 (hcr h)⟩
    | @remove _ _ a p e ha ho _ ht =>
      have ht' := ht p; rw [if_pos rfl] at ht'
      have hne : newEntry (wasAdded m p) a e = if wasAdded m p then none else some (.deleted, e) := by
        rcases ha with rfl | rfl <;> rfl
      have hcr : ∀ {x : Prop}, x ∨ Event.creates (⟨a, p, e⟩ : Event ν α) p → x := by
        rintro x (h | ⟨_, h⟩)
        · exact h
        · rcases ha with rfl | rfl <;> simp at h
      dsimp only at h ht' ⊢
      rw [hne, ht']
      cases hw : wasAdded m p with
      | true =>
        rw [if_pos rfl]
        obtain ⟨e1, h1⟩ := wasAdded_true hw
        simp only [h1, Tracks] at h
        by_cases hb : b = none
        · exact .inl ⟨hb.symm, fun h => absurd hb h⟩
        · exact .inr ⟨rfl, hb, .inl h.2⟩
      | false =>
        rw [if_neg (by simp)]
        have := h.notAdded hw (by rw [ho]; simp)
        exact ⟨rfl, this.1, fun h => this.2 (hcr h)⟩
  · rw [merge_other hp, hc.other hp]
    have : (c ∨ e.creates p) = c := propext ⟨fun h => h.elim id fun h => absurd h.1.symm hp, .inl⟩
    rw [this]
    exact h

theorem Tracks.changes {es : List (Event ν α)} {t u : Tree ν α} (h : Changes es t u) (p : Path ν) (b : Option (Entry α)) :
    ∀ (m : FileMap ν α) (c : Prop), Tracks (m p) (t p) b c → Tracks (mergeAll m es p) (u p) b (c ∨ ∃ e ∈ es, e.creates p) := by
  induction h with
  | nil t =>
    intro m c h
    have : (c ∨ ∃ e ∈ [], Event.creates (ν := ν) (α := α) e p) = c := by simp
    rw [this]; exact h
  | @cons e es t t' u hc _ ih =>
    intro m c h
    have := ih _ _ (h.change hc)
    have he : ((c ∨ e.creates p) ∨ ∃ x ∈ es, x.creates p) = (c ∨ ∃ x ∈ e :: es, x.creates p) := by
      simp only [List.mem_cons, exists_eq_or_imp, or_assoc]
    rw [he] at this
    exact this

theorem Tracks.start {es : List (Event ν α)} {t u : Tree ν α} (h : Changes es t u) (p : Path ν) :
    Tracks (mergeAll .empty es p) (u p) (t p) (∃ e ∈ es, e.creates p) := by
  have := Tracks.changes h p (t p) .empty False (.inl ⟨rfl, fun _ h => h⟩)
  rwa [false_or] at this

/-- C72, exactly when it fails: the collected changes lead to the right state at a path unless the path existed before,
something appeared there in between (after it had been removed), and it does not exist any more. -/
theorem C72_collected_changes_complete_iff_partial {es : List (Event ν α)} {t u : Tree ν α} (h : Changes es t u) (p : Path ν) :
    outcome (mergeAll .empty es) t p = u p ↔ ¬ (t p ≠ none ∧ u p = none ∧ ∃ e ∈ es, e.creates p) := by
  have hs := Tracks.start h p
  unfold outcome
  unfold Tracks at hs
  split at hs
  · rename_i h1
    rw [h1]
    rcases hs with ⟨hs, hc⟩ | ⟨h1, h2, h3⟩
    · exact iff_of_true hs.symm fun h => hc h.1 h.2.2
    · exact iff_of_false (fun h => h2 (h.trans h1)) fun h => h ⟨h2, h1, h3⟩
  · rename_i h1; rw [h1]; exact iff_of_true hs.1.symm fun h => hs.2.2 h.2.2
  · rename_i h1; rw [h1]; exact iff_of_true hs.1.symm fun h => hs.2.2 h.2.2
  · rename_i h1; rw [h1]; exact iff_of_true hs.1.symm fun h => by rw [hs.1] at h; cases h.2.1

/-- C102: temporary files, which exist neither before nor after, leave no trace. -/
theorem C102_temporary_files_leave_no_trace {es : List (Event ν α)} {t u : Tree ν α} (h : Changes es t u) (p : Path ν)
    (ht : t p = none) (hu : u p = none) : mergeAll .empty es p = none := by
  have hs := Tracks.start h p
  unfold Tracks at hs
  split at hs
  · assumption
  · exact absurd ht hs.2.1
  · exact absurd ht hs.2.1
  · rw [hu] at hs; cases hs.1

/-- C102: a path without a notification has no entry. -/
theorem C102_untouched_paths_have_no_entry {es : List (Event ν α)} {m : FileMap ν α} (p : Path ν) (h : ∀ e ∈ es, e.path ≠ p) :
    mergeAll m es p = m p := by
  induction es generalizing m with
  | nil => rfl
  | cons e es ih =>
    rw [mergeAll_cons, ih fun x hx => h x (List.mem_cons_of_mem _ hx), merge_other]
    exact fun he => h e (List.mem_cons_self ..) he.symm

/-! ### It is false in general: a file that is deleted, written again and deleted again -/

/-- A directory with one file `0`, and an empty one. -/
def oneFile : Tree Nat Nat := fun p => if p = [0] then some (.file 7) else none
def noFile : Tree Nat Nat := fun _ => none

theorem below_nil_iff {p : Path ν} : Below [] p ↔ p ≠ [] := by
  constructor
  · rintro ⟨n, r, rfl⟩; simp
  · cases p with
    | nil => intro h; exact absurd rfl h
    | cons n r => intro _; exact ⟨n, r, rfl⟩

theorem noFile_wf : noFile.Wf := ⟨rfl, fun _ _ _ _ h => absurd rfl h⟩

theorem oneFile_wf : oneFile.Wf := by
  refine ⟨rfl, ?_⟩
  rintro d p hd ⟨n, r, rfl⟩ h
  unfold oneFile at h
  split at h
  · rename_i h1
    have := congrArg List.length h1
    simp only [List.length_append, List.length_cons, List.length_nil] at this
    exact absurd (List.eq_nil_of_length_eq_zero (by omega)) hd
  · exact absurd rfl h

def delete0 : Event Nat Nat := ⟨.removed, [0], .file 7⟩
def create0 : Event Nat Nat := ⟨.added, [0], .file 7⟩

theorem delete0_change : Change delete0 oneFile noFile := by
  refine .remove (.inl rfl) (by decide) ?_ ?_
  · rintro q ⟨n, r, rfl⟩; rfl
  · intro q; unfold noFile oneFile; split
    · rfl
    · rfl

theorem create0_change : Change create0 noFile oneFile :=
  .create (d := []) (n := 0) (.inl rfl) (.inl rfl) rfl fun _ => rfl

theorem delete_create_delete : Changes [delete0, create0, delete0] oneFile noFile :=
  .cons delete0_change (.cons create0_change (.cons delete0_change (.nil _)))

/-- C72 is false: the file has gone, the collected changes do not say so. -/
theorem C72_collected_changes_complete_violated : ¬ CollectedChangesComplete Nat Nat := by
  intro h
  have := h _ _ _ oneFile_wf delete_create_delete [0]
  revert this
  decide

/-- The hypotheses of the theorems above can be met: here with a file that is deleted and written again. -/
example : outcome (mergeAll .empty [delete0, create0]) oneFile [0] = some (.file 7) :=
  (C72_collected_changes_complete_iff_partial (.cons delete0_change (.cons create0_change (.nil _))) [0]).mpr
    fun h => by cases h.2.1

example : mergeAll .empty [create0, delete0] [0] = none :=
  C102_temporary_files_leave_no_trace (.cons create0_change (.cons delete0_change (.nil _))) [0] rfl rfl

end Verif.Watch
