import Verif.Stream.Watcher

/-!
# The streamed directory, the file watcher and the thread that updates the manifest (C73, C74)

Three parties run concurrently:

* whoever changes the streamed directory,
* the watcher's thread, `WatchDirChanges` and `ReadDirChanges`, common/file_watcher_win.cc:199-443,
* the runner's thread, `MultiSessionRunner::Run`, cdc_stream/multi_session.cc:176-286.

Simplified: notifications are fetched one by one (the code holds a lock while it goes through a buffer
of them); time-outs, the delay before changes are picked up and errors are nondeterministic; the case that
`ReadDirectoryChangesExW` is not available is left out; statistics are left out.  How the updater turns the contents
of directories into a manifest is the subject of C25-C32; here a manifest is the tree it describes, and the
contents of a directory, or of a file, are read at one instant.
-/

namespace Verif.Watch

set_option linter.unusedSectionVars false

variable {ν α : Type} [DecidableEq ν]

/-! ## Changing the tree of a manifest -/

def Entry.isDir : Entry α → Bool
  | .dir => true
  | .file _ => false

/-- There is a directory at the path. -/
def dirAt (t : Tree ν α) (p : Path ν) : Bool :=
  match t p with
  | some .dir => true
  | _ => false

/-- There is an entry of the same kind as `e` at the path. -/
def kindAt (t : Tree ν α) (p : Path ν) (e : Entry α) : Bool :=
  match t p with
  | some e' => e'.sameKind e
  | none => false

def Tree.empty : Tree ν α := fun _ => none

/-- `DeleteAsset`, manifest_builder.cc:147-172: what is at the path goes with everything below. -/
def Tree.del (t : Tree ν α) (d : Path ν) : Tree ν α := fun p => if d <+: p then none else t p

/-- `GetOrCreateAsset` and what follows in `ApplyOperations`, manifest_builder.cc:81-145, 174-236 and manifest_updater.cc:646-701, not
recursive: missing directories on the way are created, an entry of another kind is replaced, a directory that
exists keeps its contents.  (A file on the way to `d` is replaced by a directory; in a tree there is nothing below it.) -/
def Tree.put (t : Tree ν α) (d : Path ν) (e : Entry α) : Tree ν α := fun p =>
  if p = d then some e
  else if d <+: p then (if kindAt t d e then t p else none)
  else if p <+: d ∧ p ≠ [] then some .dir
  else t p

/-- The manifest after the directory `d` has been scanned, `HandleDirScannerResult` and `ApplyOperations`,
manifest_updater.cc:619-702, 740-763: its direct children are as in the file system, what is no longer a directory
has nothing below it. -/
def Tree.scan (t fs : Tree ν α) (d : Path ν) : Tree ν α := fun p =>
  if d <+: p then
    match p.drop d.length with
    | [] => t p
    | [n] => fs (d ++ [n])
    | n :: _ => if dirAt fs (d ++ [n]) && dirAt t (d ++ [n]) then t p else none
  else t p

/-- A new content for a file. -/
def Tree.set (t : Tree ν α) (p : Path ν) (a : α) : Tree ν α := fun q => if q = p then some (.file a) else t q

/-! ## The states -/

/-- Where the watcher's thread is. -/
inductive WPhase where
  /-- no handle, file_watcher_win.cc:203-215 -/
  | closed
  /-- handle opened, the callback not called yet, lines 216-222 -/
  | opened
  /-- `ReadDirectoryChangesExW` not called yet, lines 223-325 -/
  | told
  /-- changes are being recorded, lines 336-440 -/
  | watching
  /-- changes have been merged into the map, `files_changed_cb_` not called yet, lines 450-526 -/
  | merged
  /-- back in `WatchDirChanges`, line 229-234 -/
  | lost
  deriving DecidableEq

/-- Where the runner's thread is. -/
inductive RPhase (ν α : Type) where
  /-- in `StartWatching`, multi_session.cc:180 -/
  | starting
  /-- in `UpdateAll`, multi_session.cc:196 (`initial`) and 260; `done`: the paths that have been looked at -/
  | scanning (initial : Bool) (done : Path ν → Prop)
  /-- in `AwaitWithTimeout` or before, multi_session.cc:208-227 -/
  | waiting
  /-- has fetched the changes and holds `mutex_`, multi_session.cc:242 -/
  | taken (b : FileMap ν α)
  /-- in `Update`, multi_session.cc:273; `b`: the changes still to be applied -/
  | applying (b : FileMap ν α)
  | stopped

/-- The whole system. -/
structure State (ν α : Type) where
  /-- the streamed directory -/
  fs : Tree ν α
  /-- recorded notifications that have not been fetched, each with the tree just after the change (for the specification only) -/
  queue : List (Event ν α × Tree ν α)
  /-- the directory has been deleted, or replaced by another one, after the watcher has opened it -/
  gone : Bool
  wphase : WPhase
  /-- `first_run`, file_watcher_win.cc:202 -/
  first : Bool
  /-- `prev_run_was_success`, file_watcher_win.cc:202 -/
  prevOk : Bool
  /-- `IsStarted()`, file_watcher_win.cc:167-171 -/
  started : Bool
  /-- `modified_files_`, file_watcher_win.cc:552 -/
  map : FileMap ν α
  /-- `files_changed_`, multi_session.h -/
  filesChanged : Bool
  /-- `dir_recreated_`, multi_session.h -/
  dirRecreated : Bool
  run : RPhase ν α
  /-- the manifest being edited -/
  view : Tree ν α
  /-- the manifest whose id has been saved in the store, manifest_updater.cc:880-883 -/
  saved : Tree ν α
  /-- the manifest that was last passed to `SetManifest` -/
  published : Tree ν α
  /-- the last `UpdateAll` succeeded -/
  scanOk : Bool
  /-- specification only: the tree as of the last notification that was fetched -/
  seen : Tree ν α
  /-- specification only: the tree as of the notifications that had been fetched when the runner last picked up the changes, or when
  watching began -/
  base : Tree ν α

/-- Changes are recorded. -/
def State.watched (s : State ν α) : Prop := (s.wphase = .watching ∨ s.wphase = .merged) ∧ s.gone = false

instance (s : State ν α) : Decidable s.watched :=
  inferInstanceAs (Decidable ((s.wphase = .watching ∨ s.wphase = .merged) ∧ s.gone = false))

/-- The runner does not hold `mutex_`. -/
def State.free (s : State ν α) : Prop := ∀ b, s.run ≠ .taken b

/-- A manifest is being worked on. -/
def State.updating (s : State ν α) : Prop := (∃ i d, s.run = .scanning i d) ∨ ∃ b, s.run = .applying b

/-- Before anything has happened; there may be a manifest from an earlier session. -/
structure Init (s : State ν α) : Prop where
  fs : s.fs.Wf
  view : s.view.Wf
  saved : s.saved = s.view
  wphase : s.wphase = .closed
  first : s.first = true
  started : s.started = false
  map : s.map = .empty
  dirRecreated : s.dirRecreated = false
  run : s.run = .starting

/-! ## The steps -/

/-- What makes a step special: -/
inductive Kind where
  /-- nothing -/
  | clean
  /-- the directory is changed between the callback and the first `ReadDirectoryChangesExW` -/
  | blind
  /-- a directory is moved with its contents -/
  | moved
  /-- a file that was known is taken for a temporary file -/
  | erased
  /-- a file or directory cannot be read -/
  | unreadable
  /-- an `Update` fails -/
  | failedUpdate
  deriving DecidableEq

/-- The entry of the map is erased by this notification, file_watcher_win.cc:480-481. -/
def erases (m : FileMap ν α) (e : Event ν α) : Prop :=
  wasAdded m e.path = true ∧ (e.action = .removed ∨ e.action = .renamedOld)

/-- `zero`: the content of the empty file. -/
inductive Step (zero : α) : Kind → State ν α → State ν α → Prop where
  -- the directory
  | change {s : State ν α} {e : Event ν α} {t : Tree ν α} {k : Kind} : Change e s.fs t →
      k = (if s.wphase = .told ∧ s.first = false then .blind else .clean) →
      Step zero k s { s with fs := t, queue := if s.watched then s.queue ++ [(e, t)] else s.queue }
  | move {s : State ν α} {e : Event ν α} {t : Tree ν α} {k : Kind} : Move e s.fs t →
      k = (if s.wphase = .told ∧ s.first = false then .blind else if s.watched then .moved else .clean) →
      Step zero k s { s with fs := t, queue := if s.watched then s.queue ++ [(e, t)] else s.queue }
  /-- the streamed directory itself is deleted or replaced -/
  | replace {s : State ν α} {t : Tree ν α} : t.Wf → Step zero .clean s { s with fs := t, gone := true }
  -- the watcher
  /-- file_watcher_win.cc:215-217 -/
  | opens {s : State ν α} : s.wphase = .closed → Step zero .clean s { s with wphase := .opened, gone := false }
  /-- the directory cannot be opened, file_watcher_win.cc:235-239 -/
  | openFails {s : State ν α} : s.wphase = .closed → s.free →
      Step zero .clean s { s with prevOk := false, dirRecreated := s.dirRecreated || s.prevOk }
  /-- file_watcher_win.cc:219-224 -/
  | tell {s : State ν α} : s.wphase = .opened → s.free →
      Step zero .clean s { s with wphase := .told, prevOk := true, dirRecreated := s.dirRecreated || ! s.first }
  /-- file_watcher_win.cc:312-336 -/
  | register {s : State ν α} : s.wphase = .told →
      Step zero .clean s { s with wphase := .watching, queue := [], first := false, started := true, seen := s.fs, base := s.fs }
  /-- file_watcher_win.cc:327-334 -/
  | registerFails {s : State ν α} : s.wphase = .told →
      Step zero .clean s { s with wphase := .lost, first := false, started := true }
  /-- file_watcher_win.cc:393-431, 450-522 -/
  | fetch {s : State ν α} {e : Event ν α} {t : Tree ν α} {q : List (Event ν α × Tree ν α)} :
      s.wphase = .watching ∨ s.wphase = .merged → s.queue = (e, t) :: q →
      (erases s.map e → s.base e.path = none ∧ s.view e.path = none) →
      Step zero .clean s { s with wphase := .merged, queue := q, map := merge s.map e, seen := t }
  | fetchErased {s : State ν α} {e : Event ν α} {t : Tree ν α} {q : List (Event ν α × Tree ν α)} :
      s.wphase = .watching ∨ s.wphase = .merged → s.queue = (e, t) :: q → erases s.map e →
      Step zero .erased s { s with wphase := .merged, queue := q, map := merge s.map e, seen := t }
  /-- file_watcher_win.cc:525 and multi_session.cc:372-375 -/
  | notify {s : State ν α} : s.wphase = .merged → s.free → Step zero .clean s { s with wphase := .watching, filesChanged := true }
  /-- the directory has gone, too many changes, or an error, file_watcher_win.cc:347-374, 394-410, 432-441 -/
  | lose {s : State ν α} : s.wphase = .watching → Step zero .clean s { s with wphase := .lost }
  /-- file_watcher_win.cc:234 -/
  | clear {s : State ν α} : s.wphase = .lost → Step zero .clean s { s with wphase := .closed, map := .empty, queue := [] }
  -- the runner
  /-- multi_session.cc:180-196 -/
  | start {s : State ν α} : s.run = .starting → s.started = true →
      Step zero .clean s { s with run := .scanning true fun _ => False }
  /-- multi_session.cc:182-186 -/
  | startFails {s : State ν α} : s.run = .starting → Step zero .clean s { s with run := .stopped }
  /-- a directory that is already in the manifest is listed -/
  | scanDir {s : State ν α} {i : Bool} {done : Path ν → Prop} {d : Path ν} : s.run = .scanning i done →
      d = [] ∨ (done d ∧ dirAt s.view d = true ∧ dirAt s.fs d = true) →
      Step zero .clean s { s with
        view := s.view.scan s.fs d
        run := .scanning i fun p => done p ∨ ∃ n, p = d ++ [n] ∨ (Below (d ++ [n]) p ∧ dirAt s.fs (d ++ [n]) = false) }
  /-- it cannot be listed, manifest_updater.cc:742-745 -/
  | scanDirFails {s : State ν α} {i : Bool} {done : Path ν → Prop} {d : Path ν} : s.run = .scanning i done →
      done d → dirAt s.view d = true →
      Step zero .unreadable s { s with run := .scanning i fun p => done p ∨ Below d p }
  /-- a file is read, manifest_updater.cc:704-738 -/
  | chunk {s : State ν α} {p : Path ν} {a b : α} : s.updating → s.view p = some (.file a) → s.fs p = some (.file b) →
      Step zero .clean s { s with view := s.view.set p b }
  /-- a file cannot be read, manifest_updater.cc:713-720; it may have gone -/
  | chunkFails {s : State ν α} {p : Path ν} {a : α} {k : Kind} : s.updating → s.view p = some (.file a) →
      k = (if s.fs p = none then .clean else .unreadable) → Step zero k s { s with view := s.view.set p zero }
  /-- an intermediate manifest is pushed -/
  | push {s : State ν α} {t : Tree ν α} : s.updating → Step zero .clean s { s with published := t }
  | scanEnds {s : State ν α} {i : Bool} {done : Path ν → Prop} : s.run = .scanning i done → (∀ p, p ≠ [] → done p) →
      Step zero .clean s { s with run := .waiting, saved := s.view, published := s.view, scanOk := true }
  /-- the manifest is built from scratch, manifest_updater.cc:458-469 -/
  | scanRestarts {s : State ν α} {i : Bool} {done : Path ν → Prop} : s.run = .scanning i done →
      Step zero .clean s { s with run := .scanning i fun _ => False, view := .empty, saved := .empty }
  /-- multi_session.cc:199-203, 263-269 -/
  | scanFails {s : State ν α} {i : Bool} {done : Path ν → Prop} : s.run = .scanning i done →
      Step zero .clean s { s with
        run := if i then .stopped else .waiting
        view := s.saved
        published := if i then s.published else .empty
        scanOk := false }
  /-- multi_session.cc:247-250, 260 -/
  | rescan {s : State ν α} : s.run = .waiting → s.dirRecreated = true →
      Step zero .clean s { s with run := .scanning false fun _ => False, dirRecreated := false }
  /-- multi_session.cc:240-242 -/
  | take {s : State ν α} : s.run = .waiting → s.dirRecreated = false → s.filesChanged = true →
      Step zero .clean s { s with run := .taken s.map, map := .empty, base := s.seen }
  /-- multi_session.cc:243, 270; there is nothing to do -/
  | takenNothing {s : State ν α} {b : FileMap ν α} : s.run = .taken b → (∀ p, b p = none) →
      Step zero .clean s { s with run := .waiting, filesChanged := false }
  /-- multi_session.cc:243, 270-273 -/
  | takenSome {s : State ν α} {b : FileMap ν α} : s.run = .taken b → (∃ p, b p ≠ none) →
      Step zero .clean s { s with run := .applying b, filesChanged := false }
  /-- deletions come first, manifest_updater.cc:624-644 -/
  | applyDelete {s : State ν α} {b : FileMap ν α} {d : Path ν} {e : Entry α} : s.run = .applying b → b d = some (.deleted, e) →
      Step zero .clean s { s with run := .applying fun q => if q = d then none else b q, view := s.view.del d }
  /-- manifest_updater.cc:646-701 -/
  | applyPut {s : State ν α} {b : FileMap ν α} {d : Path ν} {a : Act} {e : Entry α} : s.run = .applying b →
      (∀ q e', b q ≠ some (.deleted, e')) → b d = some (a, e) →
      Step zero .clean s { s with run := .applying fun q => if q = d then none else b q, view := s.view.put d e }
  | updateEnds {s : State ν α} {b : FileMap ν α} : s.run = .applying b → (∀ p, b p = none) →
      Step zero .clean s { s with run := .waiting, saved := s.view, published := s.view }
  /-- multi_session.cc:276-280 -/
  | updateFails {s : State ν α} {b : FileMap ν α} : s.run = .applying b →
      Step zero .failedUpdate s { s with run := .waiting, view := s.saved, published := .empty }
  /-- multi_session.cc:234-237 -/
  | shutdown {s : State ν α} : s.run = .waiting → Step zero .clean s { s with run := .stopped }

/-- The states that are reached with steps of the given kinds. -/
inductive Reach (zero : α) (ok : Kind → Prop) : State ν α → Prop where
  | init {s : State ν α} : Init s → Reach zero ok s
  | step {k : Kind} {s s' : State ν α} : Reach zero ok s → ok k → Step zero k s s' → Reach zero ok s'

/-! ## C73: no change is forgotten -/

/-- The watcher holds no changes. -/
def State.nothing (s : State ν α) : Prop := ∀ p, s.map p = none

structure Told (s : State ν α) : Prop where
  flag : s.filesChanged = true ∨ s.wphase = .merged ∨ s.nothing
  taken : ∀ b, s.run = .taken b → s.wphase = .merged ∨ s.nothing

theorem told_step {zero : α} {k : Kind} {s s' : State ν α} (h : Told s) (hs : Step zero k s s') : Told s' := by
  obtain ⟨h1, h2⟩ := h
  unfold State.nothing at *
  cases hs with
  | change | move | replace | push | chunk | chunkFails =>
    exact ⟨h1, h2⟩
  | opens hw | openFails hw | tell hw =>
    constructor
    · rcases h1 with h1 | h1 | h1
      · exact .inl h1
      · rw [hw] at h1; cases h1
      · exact .inr (.inr h1)
    · intro b hb
      rcases h2 b hb with h2 | h2
      · rw [hw] at h2; cases h2
      · exact .inr h2
  | register hw | registerFails hw | lose hw =>
    constructor
    · rcases h1 with h1 | h1 | h1
      · exact .inl h1
      · rw [hw] at h1; cases h1
      · exact .inr (.inr h1)
    · intro b hb
      rcases h2 b hb with h2 | h2
      · rw [hw] at h2; cases h2
      · exact .inr h2
  | fetch | fetchErased => exact ⟨.inr (.inl rfl), fun _ _ => .inl rfl⟩
  | notify _ hfree => exact ⟨.inl rfl, fun b hb => absurd hb (hfree b)⟩
  | clear => exact ⟨.inr (.inr fun _ => rfl), fun _ _ => .inr fun _ => rfl⟩
  | start | startFails | scanDir | scanDirFails | scanEnds | scanRestarts | rescan | applyDelete | applyPut | updateEnds |
    updateFails | shutdown => exact ⟨h1, fun b hb => by cases hb⟩
  | scanFails => exact ⟨h1, fun b hb => by dsimp only at hb; split at hb <;> cases hb⟩
  | take => exact ⟨.inr (.inr fun _ => rfl), fun _ _ => .inr fun _ => rfl⟩
  | takenNothing hb => exact ⟨.inr (h2 _ hb), fun b hb => by cases hb⟩
  | takenSome hb => exact ⟨.inr (h2 _ hb), fun b hb => by cases hb⟩

theorem Reach.told {zero : α} {ok : Kind → Prop} {s : State ν α} (h : Reach zero ok s) : Told s := by
  induction h with
  | init hi => exact ⟨.inr (.inr fun p => by rw [hi.map]; rfl), fun b hb => by rw [hi.run] at hb; cases hb⟩
  | step _ _ hs ih => exact told_step ih hs

/-- C73: whatever happens, while the runner has not been told of changes and the watcher is not about to tell it, the watcher
holds no changes: the runner never sleeps while there is something to pick up. -/
theorem C73_no_lost_wakeup {zero : α} {ok : Kind → Prop} {s : State ν α} (h : Reach zero ok s) (hf : s.filesChanged = false)
    (hw : s.wphase ≠ .merged) : ∀ p, s.map p = none := by
  rcases h.told.flag with h' | h' | h'
  · rw [hf] at h'; cases h'
  · exact absurd h' hw
  · exact h'

end Verif.Watch
