import Verif.Stream.Watcher

/-!
# Stopping and starting the watcher (C201): common/file_watcher_win.cc:581-622

`FileWatcherWin` keeps what an `AsyncFileWatcher` has collected when it is stopped, and hands it out together with what is collected later.
-/

namespace Verif.Watch.Restart

variable {ν α : Type} [DecidableEq ν]

/-! ## Model -/

/-- `FileWatcherWin`: `modified_files_`, and the map of `async_watcher_`, if there is one (file_watcher_win.h:106-109). -/
structure Watcher (ν α : Type) where
  kept : FileMap ν α := .empty
  async : Option (FileMap ν α) := none

/-- `insert_or_assign` of every entry of `n` into `m`, file_watcher_win.cc:586-587, 616-617. -/
def overlay (m n : FileMap ν α) : FileMap ν α := fun p =>
  match n p with
  | some x => some x
  | none => m p

/-- `GetModifiedFiles`, file_watcher_win.cc:581-590; `AsyncFileWatcher::GetModifiedFiles` 114-117 swaps its map with an empty one. -/
def Watcher.get (w : Watcher ν α) : FileMap ν α × Watcher ν α :=
  match w.async with
  | some n => (overlay w.kept n, { kept := .empty, async := some .empty })
  | none => (w.kept, { kept := .empty, async := none })

/-- `StartWatching`, file_watcher_win.cc:592-603, if it succeeds. -/
def Watcher.start (w : Watcher ν α) : Watcher ν α := { w with async := some .empty }

/-- `StopWatching`, file_watcher_win.cc:605-622; it does not matter whether `modified_files_` is empty. -/
def Watcher.stop (w : Watcher ν α) : Watcher ν α :=
  match w.async with
  | some n => { kept := overlay w.kept n, async := none }
  | none => w

/-- Some notifications arrive, file_watcher_win.cc:459-521; nobody gets them if nothing is watched. -/
def Watcher.notify (w : Watcher ν α) (es : List (Event ν α)) : Watcher ν α := { w with async := w.async.map fun n => mergeAll n es }

/-! ## Specification -/

/-- A part of the history between two hand-overs of collected changes: the tree before, the notifications, the tree after. -/
structure Part (ν α : Type) where
  before : Tree ν α
  events : List (Event ν α)
  after : Tree ν α

/-- The exception of C72: something that was there is gone, but in between something appeared there. -/
def Part.bad (x : Part ν α) (p : Path ν) : Prop := x.before p ≠ none ∧ x.after p = none ∧ ∃ e ∈ x.events, e.creates p

/-- What is special about a history. -/
structure History (ν α : Type) where
  /-- the maps handed out, oldest first -/
  got : List (FileMap ν α) := []
  /-- the parts during which the directory was watched -/
  parts : List (Part ν α) := []
  /-- changes while it was not -/
  unseen : List (Tree ν α × Tree ν α) := []
  /-- it was started although it was running -/
  again : Bool := false

/-- `Run t h x w u`: what can happen from the creation of the watcher for a directory `t`: `h` is the history up to the beginning of the current part, the tree
was `x.before` then, since then there were the notifications `x.events`, and the tree is `x.after` now. -/
inductive Run (t : Tree ν α) : History ν α → Part ν α → Watcher ν α → Prop where
  | create : Run t {} ⟨t, [], t⟩ {}
  | start {h x w} : w.async = none → Run t h x w → Run t h ⟨x.after, [], x.after⟩ w.start
  | restart {h x w} : w.async ≠ none → Run t h x w → Run t { h with again := true, parts := h.parts ++ [x] } ⟨x.after, [], x.after⟩ w.start
  | stop {h x w} : Run t h x w → Run t { h with parts := h.parts ++ [x] } ⟨x.after, [], x.after⟩ w.stop
  | get {h x w} : Run t h x w → Run t { h with parts := h.parts ++ [x], got := h.got ++ [w.get.1] } ⟨x.after, [], x.after⟩ w.get.2
  /-- the directory changes while it is watched -/
  | change {h x w e u} : w.async ≠ none → Run t h x w → Change e x.after u → Run t h ⟨x.before, x.events ++ [e], u⟩ (w.notify [e])
  /-- and while it is not -/
  | unseen {h x w u} : w.async = none → Run t h x w → Run t { h with unseen := h.unseen ++ [(x.after, u)] } ⟨u, [], u⟩ w

/-- The tree obtained by all maps handed out. -/
def outcomes (l : List (FileMap ν α)) (t : Tree ν α) : Tree ν α := l.foldl (fun t m => outcome m t) t

/-! ## Proof -/

theorem outcome_at (m : FileMap ν α) {t u : Tree ν α} {p : Path ν} (h : t p = u p) : outcome m t p = outcome m u p := by
  unfold outcome
  rw [h]

theorem outcome_empty (t : Tree ν α) (p : Path ν) : outcome .empty t p = t p := rfl

theorem outcome_overlay (m n : FileMap ν α) (t : Tree ν α) (p : Path ν) : outcome (overlay m n) t p = outcome n (outcome m t) p := by
  unfold outcome overlay
  rcases n p with _ | ⟨_ | _ | _, e⟩ <;> rfl

theorem Changes.snoc {es : List (Event ν α)} {e : Event ν α} {t u v : Tree ν α} (h : Changes es t u) (hc : Change e u v) : Changes (es ++ [e]) t v := by
  induction h with
  | nil t => exact .cons hc (.nil _)
  | cons h1 _ ih => exact .cons h1 (ih hc)

/-- What holds in every history: the maps that were handed out and what is kept lead to the tree at the beginning of the current part; the rest is in the
map of the running watcher. -/
structure Inv (t : Tree ν α) (p : Path ν) (h : History ν α) (x : Part ν α) (w : Watcher ν α) : Prop where
  changes : Changes x.events x.before x.after
  now : w.async = none → x.events = [] ∧ x.before = x.after
  map : ∀ n, w.async = some n → n = mergeAll .empty x.events
  past : h.again = false → (∀ y ∈ h.parts, ¬ y.bad p) → (∀ y ∈ h.unseen, y.1 p = y.2 p) → outcome w.kept (outcomes h.got t) p = x.before p

theorem part_end {x : Part ν α} {p : Path ν} (hc : Changes x.events x.before x.after) (hb : ¬ x.bad p) {s : Tree ν α} (hs : s p = x.before p) :
    outcome (mergeAll .empty x.events) s p = x.after p := by
  rw [outcome_at _ hs]
  exact (C72_collected_changes_complete_iff_partial hc p).mpr hb

theorem Run.inv {t : Tree ν α} {h : History ν α} {x : Part ν α} {w : Watcher ν α} (hr : Run t h x w) (p : Path ν) : Inv t p h x w := by
  induction hr with
  | create => exact ⟨.nil _, fun _ => ⟨rfl, rfl⟩, fun n hn => (nomatch hn), fun _ _ _ => rfl⟩
  | @start h x w hw _ ih =>
    obtain ⟨he, hx⟩ := ih.now hw
    refine ⟨.nil _, fun h => (nomatch h), fun n hn => ?_, fun h1 h2 h3 => ?_⟩
    · injection hn with hn; exact hn.symm
    · show outcome w.kept _ p = x.after p
      rw [← hx]; exact ih.past h1 h2 h3
  | @restart h x w hw _ ih =>
    refine ⟨.nil _, fun h => (nomatch h), fun n hn => ?_, fun h1 => nomatch h1⟩
    injection hn with hn; exact hn.symm
  | @stop h x w _ ih =>
    have hpast : h.again = false → (∀ y ∈ h.parts ++ [x], ¬ y.bad p) → (∀ y ∈ h.unseen, y.1 p = y.2 p) →
        outcome w.stop.kept (outcomes h.got t) p = x.after p := fun h1 h2 h3 => by
      have hp := ih.past h1 (fun y hy => h2 y (List.mem_append_left _ hy)) h3
      have hb := h2 x (List.mem_append_right _ (List.mem_singleton.mpr rfl))
      unfold Watcher.stop
      cases hw : w.async with
      | none => dsimp only; rw [hp, (ih.now hw).2]
      | some n =>
        dsimp only
        rw [outcome_overlay, ih.map n hw]
        exact part_end ih.changes hb hp
    refine ⟨.nil _, fun _ => ⟨rfl, rfl⟩, fun n hn => ?_, hpast⟩
    unfold Watcher.stop at hn
    cases hw : w.async with
    | none => rw [hw] at hn; dsimp only at hn; rw [hw] at hn; exact nomatch hn
    | some n => rw [hw] at hn; exact nomatch hn
  | @get h x w _ ih =>
    refine ⟨.nil _, fun _ => ⟨rfl, rfl⟩, fun n hn => ?_, fun h1 h2 h3 => ?_⟩
    · unfold Watcher.get at hn
      cases hw : w.async with
      | none => rw [hw] at hn; exact nomatch hn
      | some m => rw [hw] at hn; injection hn with hn; exact hn.symm
    · have hp := ih.past h1 (fun y hy => h2 y (List.mem_append_left _ hy)) h3
      have hb := h2 x (List.mem_append_right _ (List.mem_singleton.mpr rfl))
      have hk : w.get.2.kept = .empty := by unfold Watcher.get; split <;> rfl
      rw [hk, outcome_empty]
      show outcomes (h.got ++ [w.get.1]) t p = x.after p
      unfold outcomes
      rw [List.foldl_append]
      show outcome w.get.1 (outcomes h.got t) p = x.after p
      unfold Watcher.get
      cases hw : w.async with
      | none => dsimp only; rw [hp, (ih.now hw).2]
      | some n =>
        dsimp only
        rw [outcome_overlay, ih.map n hw]
        exact part_end ih.changes hb hp
  | @change h x w e u hw _ hc ih =>
    refine ⟨Changes.snoc ih.changes hc, fun hn => ?_, fun n hn => ?_, fun h1 h2 h3 => ih.past h1 h2 h3⟩
    · have hn : w.async.map (fun n => mergeAll n [e]) = none := hn
      exact absurd (Option.map_eq_none_iff.mp hn) hw
    · have hn : w.async.map (fun n => mergeAll n [e]) = some n := hn
      obtain ⟨m, hm, rfl⟩ := Option.map_eq_some_iff.mp hn
      rw [ih.map m hm]
      unfold mergeAll
      rw [List.foldl_append]
  | @unseen h x w u hw _ ih =>
    refine ⟨.nil _, fun _ => ⟨rfl, rfl⟩, fun n hn => (by rw [hw] at hn; exact nomatch hn), fun h1 h2 h3 => ?_⟩
    show outcome w.kept _ p = u p
    rw [ih.past h1 h2 (fun y hy => h3 y (List.mem_append_left _ hy)), (ih.now hw).2]
    exact h3 (x.after, u) (List.mem_append_right _ (List.mem_singleton.mpr rfl))

/-- **C201**, the part that holds: however often the watcher is stopped, started again and asked, the maps handed out lead, one after the other, to the tree
there is when it is asked: at every path that did not change while nothing was watched, and with the exception of C72 in every single part.
Missing: a watcher that is started while it is running. -/
theorem C201_restart_partial {t : Tree ν α} {h : History ν α} {x : Part ν α} {w : Watcher ν α} (hr : Run t h x w) (p : Path ν)
    (ha : h.again = false) (hb : ∀ y ∈ h.parts ++ [x], ¬ y.bad p) (hu : ∀ y ∈ h.unseen, y.1 p = y.2 p) :
    outcomes (h.got ++ [w.get.1]) t p = x.after p := by
  have hi := (Run.get hr).inv p
  have := hi.past ha hb hu
  have hk : w.get.2.kept = .empty := by unfold Watcher.get; split <;> rfl
  rw [hk, outcome_empty] at this
  exact this

/-- Nothing is handed out that did not change: a path about which there never was a notification is in no map. -/
theorem C201_untouched {t : Tree ν α} {h : History ν α} {x : Part ν α} {w : Watcher ν α} (hr : Run t h x w) (p : Path ν)
    (hp : ∀ y ∈ h.parts ++ [x], ∀ e ∈ y.events, e.path ≠ p) : w.get.1 p = none := by
  suffices hx : w.kept p = none ∧ ∀ n, w.async = some n → n p = none by
    unfold Watcher.get
    cases hw : w.async with
    | none => exact hx.1
    | some n => dsimp only [overlay]; rw [hx.2 n hw]; exact hx.1
  have map : ∀ {h x w}, Run t h x w → (∀ e ∈ x.events, e.path ≠ p) → ∀ n, w.async = some n → n p = none := fun hr hp n hn => by
    rw [(hr.inv p).map n hn, C102_untouched_paths_have_no_entry p hp]; rfl
  refine ⟨?_, map hr (hp x (List.mem_append_right _ (List.mem_singleton.mpr rfl)))⟩
  -- the parts before the current one
  replace hp : ∀ y ∈ h.parts, ∀ e ∈ y.events, e.path ≠ p := fun y hy => hp y (List.mem_append_left _ hy)
  induction hr with
  | create => rfl
  | start _ _ ih => exact ih hp
  | restart _ _ ih => exact ih fun y hy => hp y (List.mem_append_left _ hy)
  | @stop h x w hr' ih =>
    have h1 := ih fun y hy => hp y (List.mem_append_left _ hy)
    have h2 := map hr' (hp x (List.mem_append_right _ (List.mem_singleton.mpr rfl)))
    unfold Watcher.stop
    cases hw : w.async with
    | none => exact h1
    | some n => dsimp only [overlay]; rw [h2 n hw]; exact h1
  | @get h x w hr' ih => unfold Watcher.get; split <;> rfl
  | change _ _ _ ih => exact ih hp
  | unseen _ _ ih => exact ih hp

/-! ## It is false of the code if the watcher is started twice -/

/-- **C201** is false of the code: whatever has been collected and not been handed out is lost when the watcher is started while it is running. -/
theorem C201_started_twice_violated {t : Tree ν α} {h : History ν α} {x : Part ν α} {w : Watcher ν α} (hr : Run t h x w) (hw : w.async ≠ none)
    (hk : w.kept = .empty) : ∃ h', Run t h' ⟨x.after, [], x.after⟩ w.start ∧ h'.got = h.got ∧ w.start.get.1 = .empty := by
  refine ⟨_, .restart hw hr, rfl, ?_⟩
  show overlay w.kept .empty = .empty
  rw [hk]; rfl

/-! ## Examples -/

/-- A file is deleted, the watcher is stopped and started, the file is written again: the map handed out says so. -/
example : ∃ h x w, Run oneFile h x w ∧ h.again = false ∧ (∀ y ∈ h.parts ++ [x], ¬ y.bad [0]) ∧ (∀ y ∈ h.unseen, y.1 [0] = y.2 [0]) ∧
    w.get.1 [0] = some (.added, .file 7) ∧ w.kept [0] = some (.deleted, .file 7) := by
  have h1 := Run.start (t := oneFile) rfl .create
  have h2 := Run.change (w := Watcher.start {}) (by simp [Watcher.start, Watcher.stop, Watcher.notify]) h1 delete0_change
  have h3 := Run.start rfl (Run.stop h2)
  have h4 := Run.change (e := create0) (by simp [Watcher.start, Watcher.stop, Watcher.notify]) h3 create0_change
  refine ⟨_, _, _, h4, rfl, fun y hy => ?_, fun y hy => (nomatch hy), by decide, by decide⟩
  rcases List.mem_append.mp hy with hy | hy <;> have hy := List.mem_singleton.mp hy <;> subst hy
  · rintro ⟨_, _, e, he, hc⟩
    have he : e = delete0 := by simpa using he
    subst he
    rcases hc.2 with h | h <;> exact nomatch h
  · rintro ⟨h, _⟩
    exact h rfl

/-- A file is deleted, and the watcher is started again without being stopped: nothing is handed out, but the file has gone. -/
example : ∃ h x w, Run oneFile h x w ∧ outcomes (h.got ++ [w.get.1]) oneFile [0] = some (.file 7) ∧ x.after [0] = none := by
  have h1 := Run.start (t := oneFile) rfl .create
  have h2 := Run.change (w := Watcher.start {}) (by simp [Watcher.start, Watcher.stop, Watcher.notify]) h1 delete0_change
  have h3 := Run.restart (by simp [Watcher.start, Watcher.stop, Watcher.notify]) h2
  exact ⟨_, _, _, h3, by decide, rfl⟩

end Verif.Watch.Restart
