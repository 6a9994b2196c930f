import Verif.Stream.Content

/-!
# The server's chunk index and the files of the manifest (C79)

What `ApplyOperations` and `HandleFileChunkerResult`, manifest/manifest_updater.cc:619-738, do to the chunk map when the
file watcher reports changes.  The watcher reports paths with backslashes, common/file_watcher_win.cc:462-464; the
manifest builder and the tasks use slashes, manifest_builder.cc:87, 150, manifest_updater.cc:705.
-/

namespace Verif.ChunkIndex

open Verif.ChunkMap Verif.Content

/-! ## Model -/

/-- `path::ToUnix`, common/path.cc:467-470. -/
def toUnix (p : Path) : Path := p.map fun c => if c = '\\' then '/' else c

/-- A change that the watcher reports, `GetFileOperations`, cdc_stream/multi_session.cc:57-74. -/
inductive Change
  | deleted (path : Path)
  /-- a file that was added or changed; size and chunks are found when it is chunked -/
  | file (path : Path) (size : UInt64) (chunks : List (Id × UInt64))
  /-- a directory that was added or changed; what is in it is reported separately -/
  | dir (path : Path)

def Change.isDeleted : Change → Bool
  | .deleted _ => true
  | _ => false

/-- What happens to the chunk map: `Remove` with the path as reported, manifest_updater.cc:632; `Init` and
`AppendCopy` with the path of the task, manifest_updater.cc:705, 733-735. -/
def chunkOps : Change → List Op
  | .deleted p => [.remove p]
  | .file p n cs => [.init (toUnix p) n [], .append (toUnix p) cs 0]
  | .dir _ => []

/-- An update, `ApplyOperations` and what follows, manifest_updater.cc:619-702, 704-738: deletions first.  The chunk map is
flushed when the manifest is, manifest_updater.cc:494-517; in which order the chunked files arrive does not matter,
since a path is reported at most once. -/
def updateOps (cs : List Change) (order : List (Path × File)) : List Op :=
  (cs.filter Change.isDeleted).flatMap chunkOps ++ (cs.filter fun c => !c.isDeleted).flatMap chunkOps ++ [.flush order]

/-! ## Specification -/

/-- What a change means for the files below the streamed directory; names of files are separated by slashes. -/
def specChange (f : Files) : Change → Files
  | .deleted p => fun q => if q = toUnix p ∨ toUnix p ++ ['/'] <+: q then none else f q
  | .file p n cs => fun q => if q = toUnix p then some (n, cs) else f q
  | .dir p => fun q => if q = toUnix p then none else f q

/-- What an update means: things that are deleted and created again exist. -/
def specUpdate (f : Files) (cs : List Change) : Files :=
  (cs.filter fun c => !c.isDeleted).foldl specChange ((cs.filter Change.isDeleted).foldl specChange f)

/-- The changes for which the index is maintained: entries of the streamed directory itself are deleted that are not
directories with files in them, and no file is replaced by a directory. -/
def Easy (f : Files) : Change → Prop
  | .deleted p => toUnix p = p ∧ ∀ q, p ++ ['/'] <+: q → f q = none
  | .file _ _ _ => True
  | .dir p => f (toUnix p) = none

/-- All changes of a list are easy when they are made. -/
def AllEasy : Files → List Change → Prop
  | _, [] => True
  | f, c :: cs => Easy f c ∧ AllEasy (specChange f c) cs

/-! ## C79 -/

theorem chunkOps_spec {f : Files} {c : Change} (h : Easy f c) : (chunkOps c).foldl specStep f = specChange f c := by
  cases c with
  | deleted p =>
    funext q
    show (if q = p then none else f q) = if q = toUnix p ∨ toUnix p ++ ['/'] <+: q then none else f q
    rw [h.1]
    by_cases e : q = p
    · rw [if_pos e, if_pos (.inl e)]
    · rw [if_neg e]
      by_cases e2 : p ++ ['/'] <+: q
      · rw [if_pos (.inr e2)]
        exact h.2 q e2
      · rw [if_neg (by rintro (h | h); exacts [e h, e2 h])]
  | file p n cs =>
    funext q
    by_cases e : q = toUnix p
    · simp [chunkOps, specStep, specChange, e]
    · simp [chunkOps, specStep, specChange, e]
  | dir p =>
    funext q
    show f q = if q = toUnix p then none else f q
    split
    · rename_i e
      rw [e]
      exact h
    · rfl

theorem flatMap_spec {f : Files} {cs : List Change} (h : AllEasy f cs) :
    (cs.flatMap chunkOps).foldl specStep f = cs.foldl specChange f := by
  induction cs generalizing f with
  | nil => rfl
  | cons c cs ih =>
    rw [List.flatMap_cons, List.foldl_append, chunkOps_spec h.1, ih h.2]
    rfl

/-- The operations of a sequence of updates. -/
def allOps (us : List (List Change × List (Path × File))) : List Op := us.flatMap fun u => updateOps u.1 u.2

def AllEasyUpdates : Files → List (List Change × List (Path × File)) → Prop
  | _, [] => True
  | f, u :: us =>
    AllEasy f (u.1.filter Change.isDeleted) ∧
      AllEasy ((u.1.filter Change.isDeleted).foldl specChange f) (u.1.filter fun c => !c.isDeleted) ∧
      AllEasyUpdates (specUpdate f u.1) us

theorem upTo_flush (ops : List Op) (o : List (Path × File)) :
    upToLastFlush (ops ++ [.flush o]) = ops ++ [.flush o] := by
  induction ops with
  | nil => rfl
  | cons a ops ih =>
    rw [List.cons_append, upToLastFlush.eq_def]
    dsimp only
    rw [ih]
    cases ops <;> rfl

theorem allOps_spec {f : Files} {us : List (List Change × List (Path × File))} (h : AllEasyUpdates f us) :
    (allOps us).foldl specStep f = us.foldl (fun f u => specUpdate f u.1) f := by
  induction us generalizing f with
  | nil => rfl
  | cons u us ih =>
    have h1 : (updateOps u.1 u.2).foldl specStep f = specUpdate f u.1 := by
      unfold updateOps specUpdate
      rw [List.foldl_append, List.foldl_append, flatMap_spec h.1, flatMap_spec h.2.1]
      rfl
    show (updateOps u.1 u.2 ++ allOps us).foldl specStep f = _
    rw [List.foldl_append, h1, ih h.2.2]
    rfl

/-- If all changes are easy, the index lists, after every update, exactly the files that there are.  Missing:
deletions below the top level, deletions of directories, and directories in place of files; see the violations. -/
theorem C79_index_partial {us : List (List Change × List (Path × File))} (h : AllEasyUpdates noFiles us) :
    flushedFiles (allOps us) = us.foldl (fun f u => specUpdate f u.1) noFiles := by
  rw [← allOps_spec h]
  unfold flushedFiles
  rcases List.eq_nil_or_concat us with rfl | ⟨us', u, rfl⟩
  · rfl
  · have : allOps (us'.concat u) = (allOps us' ++ ((u.1.filter Change.isDeleted).flatMap chunkOps ++
        (u.1.filter fun c => !c.isDeleted).flatMap chunkOps)) ++ [.flush u.2] := by
      simp [allOps, updateOps]
    rw [this, upTo_flush]

/-- A file is added below `d`, another one elsewhere, and the first one is deleted. -/
example : AllEasyUpdates noFiles
    [([.dir ['d'], .file ['d', '\\', 'x'] 2 [([1, 2], 0)], .file ['g'] 2 [([1, 2], 0)], .file ['h'] 1 [([3], 0)]], []),
     ([.deleted ['h'], .file ['g'] 1 [([5], 0)]], [])] := by
  refine ⟨trivial, ⟨rfl, trivial, trivial, trivial, trivial⟩, ⟨⟨rfl, fun q hq => ?_⟩, trivial⟩, ⟨trivial, trivial⟩, trivial⟩
  obtain ⟨r, rfl⟩ := hq
  rfl

def content2 : List (Id × UInt64) := [([1, 2], 0)]
def dx : Path := ['d', '/', 'x']
def dbx : Path := ['d', '\\', 'x']
def fileG : Path := ['g']

/-- The order in which the hash map happens to be iterated. -/
def order2 : List (Path × File) := [(fileG, ⟨[⟨[1, 2], 0⟩], 2⟩), (dx, ⟨[⟨[1, 2], 0⟩], 2⟩)]

/-- `d\x` and `g` with the same contents are added. -/
def added : List Change × List (Path × File) := ([.dir ['d'], .file dbx 2 content2, .file fileG 2 content2], order2)

/-- Then only `g` is left. -/
def onlyG : Path → Option Bytes := fun p => if p = fileG then some [1, 2] else none

/-- Two files with the same contents; one of them, in a subdirectory, is deleted.  It stays in the index, and a request for the contents of
the other one fails. -/
theorem C79_nested_delete_violated :
    (flushedFiles (allOps [added, ([.deleted dbx], order2)]) dx).isSome ∧
    getContent (Map.run {} (allOps [added, ([.deleted dbx], order2)])) onlyG (fun _ => none) [[1, 2]] = none :=
  ⟨rfl, by decide⟩

/-- The same if the directory is deleted as a whole and the watcher reports only that. -/
theorem C79_dir_delete_violated :
    (flushedFiles (allOps [added, ([.deleted ['d']], order2)]) dx).isSome ∧
    getContent (Map.run {} (allOps [added, ([.deleted ['d']], order2)])) onlyG (fun _ => none) [[1, 2]] = none :=
  ⟨rfl, by decide⟩

/-- According to the specification only `g` is left, so the request should succeed. -/
example : specUpdate (specUpdate noFiles added.1) [.deleted dbx] dx = none ∧
    specUpdate (specUpdate noFiles added.1) [.deleted dbx] fileG = some (2, content2) := by decide

/-- A file that is replaced by a directory stays in the index. -/
theorem C79_replaced_violated :
    (flushedFiles (allOps [([.file fileG 2 content2], []), ([.dir fileG], []), ([.file ['k'] 1 [([9], 0)]], [])])
      fileG).isSome := rfl

end Verif.ChunkIndex
