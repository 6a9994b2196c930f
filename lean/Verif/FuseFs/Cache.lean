/-!
# What a program reads from a file that changes (C68): cdc_fuse_fs/cdc_fuse_fs.cc

One file, the kernel's page cache for it, the handles programs have of it and the manifests that
arrive.  The kernel is part of the model because the replies to open requests decide what the kernel
keeps in its cache: `keep_cache = 0` makes it drop all pages of the file (fs/fuse/file.c,
`fuse_finish_open`), and a page in the cache is returned to a program without asking the file
system.  Only versions of the file with the same size are considered; the kernel drops the pages when
it learns that the size has changed.
-/

namespace Verif.FuseFs.Cache

abbrev Page := Nat
abbrev Handle := Nat

/-- The descriptions of a file in manifests and what is in the file then: equal descriptions (protos)
have equal contents. -/
structure World where
  Desc : Type
  [dec : DecidableEq Desc]
  Data : Type
  content : Desc → Page → Data

attribute [instance] World.dec

variable {W : World}

/-- `InodeState` (cdc_fuse_fs.cc:50-55) outside `SetManifest`; a file that is no longer there is not
considered here. -/
inductive NState
  | initialized | updated
  deriving DecidableEq

/-- A handle.  `since`: for the specification, the descriptions the file has had from the time the
handle was opened, the first of them last. -/
structure Open (W : World) where
  id : Handle
  direct : Bool
  since : List W.Desc

structure State (W : World) where
  cur : W.Desc
  st : NState
  cache : Page → Option W.Data
  handles : List (Open W)

def State.init (d : W.Desc) : State W := ⟨d, .initialized, fun _ => none, []⟩

/-- What a new manifest does to the state of a node that is still there (cdc_fuse_fs.cc:1421-1426 and,
at the end of `SetManifest`, 1566-1577: `kUpdatedProto` is replaced by `kInitialized`). -/
def stateAfter (old new : W.Desc) : NState := if new = old then .initialized else .updated

/-- `SetManifest` with a manifest in which the file has this description. -/
def setManifest (d : W.Desc) (s : State W) : State W :=
  { s with cur := d, st := stateAfter s.cur d,
           handles := s.handles.map fun h => { h with since := d :: h.since } }

/-- The `keep_cache` flag in the reply of `CdcFuseOpen` (cdc_fuse_fs.cc:576-588). -/
def keepCache (direct : Bool) (s : State W) : Bool := !direct && s.st ≠ .updated

/-- `CdcFuseOpen` (cdc_fuse_fs.cc:542-591) and what the kernel does with the reply. -/
def openFile (id : Handle) (direct : Bool) (s : State W) : State W :=
  { s with st := .initialized,
           cache := if keepCache direct s then s.cache else fun _ => none,
           handles := ⟨id, direct, [s.cur]⟩ :: s.handles }

/-- `CdcFuseRead` (cdc_fuse_fs.cc:595-621); `none`: the error EIO.  Failures of fetching data are not
modelled here. -/
def fsRead (s : State W) (p : Page) : Option W.Data :=
  if s.st = .updated then none else some (W.content s.cur p)

/-- What a program gets when it reads a page through a handle: from the cache, unless the handle was
opened for direct I/O, or else from the file system. -/
def result (h : Open W) (p : Page) (s : State W) : Option W.Data :=
  match h.direct, s.cache p with
  | false, some a => some a
  | _, _ => fsRead s p

/-- What is in the cache afterwards. -/
def afterRead (h : Open W) (p : Page) (s : State W) : State W :=
  { s with cache := fun q => if q = p ∧ h.direct = false then result h p s else s.cache q }

/-- What can happen.  `evict`: the kernel may drop a page at any time.  The first arguments say
which histories are considered: `calm`: no new manifest arrives after one that has changed the file
until the file has been opened; `alone`: the first to open a changed file is the only one who has it
open then. -/
inductive Step (calm alone : Bool) : State W → State W → Prop
  | manifest {s} (d : W.Desc) : (calm = true → s.st ≠ .updated) → Step calm alone s (setManifest d s)
  | open {s} (id : Handle) (direct : Bool) : id ∉ s.handles.map (·.id) →
      (alone = true → s.st = .updated → s.handles = []) → Step calm alone s (openFile id direct s)
  | read {s} (h : Open W) (p : Page) : h ∈ s.handles → Step calm alone s (afterRead h p s)
  | close {s} (id : Handle) : Step calm alone s { s with handles := s.handles.filter (·.id ≠ id) }
  | evict {s} (p : Page) : Step calm alone s { s with cache := fun q => if q = p then none else s.cache q }

inductive Reach (calm alone : Bool) (d0 : W.Desc) : State W → Prop
  | init : Reach calm alone d0 (State.init d0)
  | step {s t} : Reach calm alone d0 s → Step calm alone s t → Reach calm alone d0 t

/-! ## Specification -/

/-- Whatever a program reads has been in the file since the program opened it. -/
def FreshReads (s : State W) : Prop :=
  ∀ h ∈ s.handles, ∀ p a, result h p s = some a → ∃ d ∈ h.since, a = W.content d p

/-- Whatever a program reads has been in the file when the program opened it: all its reads show one
and the same version of the file. -/
def OneVersion (s : State W) : Prop :=
  ∀ h ∈ s.handles, ∀ p a, result h p s = some a →
    ∃ d, h.since.getLast? = some d ∧ a = W.content d p

/-! ## Violations -/

/-- The restricted histories are among all histories. -/
theorem Reach.mono {calm alone : Bool} {d0 : W.Desc} {s : State W} (h : Reach calm alone d0 s) :
    Reach false false d0 s := by
  induction h with
  | init => exact .init
  | step h hs ih =>
    refine .step ih ?_
    cases hs with
    | manifest d _ => exact .manifest d (by simp)
    | «open» id direct h1 _ => exact .open id direct h1 (by simp)
    | read h p h1 => exact .read h p h1
    | close id => exact .close id
    | evict p => exact .evict p

/-- **C68** is false: two manifests in a row after a change are enough.  Whatever the history, if a
page is in the cache and the file changes, and then another manifest arrives in which this file has
not changed again, a program that opens the file after all that still reads the old content. -/
theorem C68_stale_violated {d0 : W.Desc} {s : State W} (h : Reach false false d0 s) {p : Page} {a : W.Data}
    (hc : s.cache p = some a) (d : W.Desc) (ha : a ≠ W.content d p) (id : Handle)
    (hid : id ∉ s.handles.map (·.id)) :
    ∃ t, Reach false false d0 t ∧ t.cur = d ∧
      ∃ hd ∈ t.handles, hd.id = id ∧ hd.since = [d] ∧ result hd p t = some a ∧ ¬ FreshReads t := by
  have h1 := Reach.step h (.manifest d (by simp))
  have h2 := Reach.step h1 (.manifest d (by simp))
  have h3 := Reach.step h2 (.open id false (by
    simpa [setManifest, List.map_map, Function.comp_def] using hid) (by simp))
  have hmem : (⟨id, false, [d]⟩ : Open W) ∈ (openFile id false (setManifest d (setManifest d s))).handles :=
    List.mem_cons_self ..
  have hr : result ⟨id, false, [d]⟩ p (openFile id false (setManifest d (setManifest d s))) = some a := by
    simp [result, openFile, keepCache, setManifest, stateAfter, hc]
  refine ⟨_, h3, rfl, _, hmem, rfl, rfl, hr, fun hf => ?_⟩
  obtain ⟨d', hd', e⟩ := hf _ hmem p a hr
  simp only [List.mem_singleton] at hd'
  subst hd'
  exact ha e

/-- A program that has the file open while it changes can be given parts of two versions, without
an error: it is enough that another program opens the file.  This also happens in histories in which
every change is followed by an open before the next manifest. -/
theorem C68_mixture_violated (d0 d : W.Desc) (p q : Page)
    (hq : W.content d q ≠ W.content d0 q) :
    ∃ s t : State W, Reach true false d0 s ∧ Reach true false d0 t ∧ ∃ h ∈ s.handles, ∃ h' ∈ t.handles, h'.id = h.id ∧
      h'.since.getLast? = h.since.getLast? ∧
      result h p s = some (W.content d0 p) ∧ result h' q t = some (W.content d q) ∧ ¬ OneVersion t := by
  have h1 : Reach true false d0 _ := Reach.step Reach.init (.open 1 false (by simp [State.init]) (by simp))
  have h2 := Reach.step h1 (.read ⟨1, false, [d0]⟩ p (List.mem_cons_self ..))
  have h3 := Reach.step h2 (.manifest d (by simp [afterRead, openFile]))
  have h4 := Reach.step h3 (.open 2 false (by simp [setManifest, afterRead, openFile, State.init]) (by simp))
  have hd : d ≠ d0 := fun e => hq (by rw [e])
  have hmem : (⟨1, false, [d, d0]⟩ : Open W) ∈ (openFile 2 false (setManifest d
      (afterRead ⟨1, false, [d0]⟩ p (openFile 1 false (State.init d0))))).handles := by
    simp [openFile, setManifest, afterRead, State.init]
  have hr : result ⟨1, false, [d, d0]⟩ q (openFile 2 false (setManifest d
      (afterRead ⟨1, false, [d0]⟩ p (openFile 1 false (State.init d0))))) = some (W.content d q) := by
    simp [result, openFile, keepCache, setManifest, stateAfter, fsRead, hd, afterRead, State.init]
  refine ⟨_, _, h1, h4, ⟨1, false, [d0]⟩, List.mem_cons_self .., _, hmem, rfl, rfl, ?_, hr, fun hv => ?_⟩
  · have hc : (openFile 1 false (State.init d0)).cache p = none := by
      simp only [openFile]; split <;> rfl
    simp only [result, hc]; rfl
  · obtain ⟨x, hx, e⟩ := hv _ hmem q _ hr
    simp only [List.getLast?_cons_cons, List.getLast?_singleton, Option.some.injEq] at hx
    subst hx
    exact hq e

/-! ## What holds -/

/-- The cache has pages of one version only: the current one, unless the file has changed and has
not been opened since. -/
structure CInv (alone : Bool) (b : W.Desc) (s : State W) : Prop where
  pages : ∀ p a, s.cache p = some a → a = W.content b p
  cur : s.st = .initialized → b = s.cur
  seen : ∀ h ∈ s.handles, b ∈ h.since
  top : ∀ h ∈ s.handles, s.cur ∈ h.since
  first : alone = true → ∀ h ∈ s.handles, h.since.getLast? = some b

theorem CInv.result {alone : Bool} {b : W.Desc} {s : State W} (hi : CInv alone b s) {h : Open W} {p : Page} {a : W.Data}
    (e : result h p s = some a) : a = W.content b p := by
  have hf : ∀ {a}, fsRead s p = some a → a = W.content b p := by
    intro a e
    simp only [fsRead, Option.ite_none_left_eq_some, Option.some.injEq] at e
    cases hs : s.st with
    | updated => exact absurd hs e.1
    | initialized => rw [hi.cur hs]; exact e.2.symm
  simp only [Verif.FuseFs.Cache.result] at e
  split at e
  · rename_i a' _ hc
    obtain rfl := Option.some.inj e
    exact hi.pages p _ hc
  · exact hf e

theorem CInv.step {alone : Bool} {b : W.Desc} {s t : State W} (hi : CInv alone b s) (hs : Step true alone s t) :
    ∃ b', CInv alone b' t := by
  cases hs with
  | manifest d h =>
    refine ⟨b, hi.pages, ?_, ?_, ?_, ?_⟩
    · intro he
      simp only [setManifest, stateAfter] at he ⊢
      split at he
      · rename_i e
        rw [e]
        refine hi.cur ?_
        cases hs : s.st with
        | initialized => rfl
        | updated => exact absurd hs (h rfl)
      · cases he
    · intro h' hh
      obtain ⟨h0, hh0, rfl⟩ := List.mem_map.mp hh
      exact List.mem_cons_of_mem _ (hi.seen h0 hh0)
    · intro h' hh
      obtain ⟨h0, hh0, rfl⟩ := List.mem_map.mp hh
      exact List.mem_cons_self ..
    · intro ha h' hh
      obtain ⟨h0, hh0, rfl⟩ := List.mem_map.mp hh
      have := hi.first ha h0 hh0
      simp only [List.getLast?_cons, this, Option.getD_some]
  | «open» id direct h1 h2 =>
    by_cases hst : s.st = .updated
    · have hk : keepCache direct s = false := by simp [keepCache, hst]
      refine ⟨s.cur, ?_, fun _ => rfl, ?_, ?_, ?_⟩
      · intro p a; simp [openFile, hk]
      · intro h hh
        rcases List.mem_cons.mp hh with rfl | hh'
        · exact List.mem_singleton.mpr rfl
        · exact hi.top h hh'
      · intro h hh
        rcases List.mem_cons.mp hh with rfl | hh'
        · exact List.mem_singleton.mpr rfl
        · exact hi.top h hh'
      · intro ha h hh
        simp only [openFile, h2 ha hst, List.mem_singleton] at hh
        subst hh; rfl
    · have hst' : s.st = .initialized := by
        cases hs : s.st with
        | initialized => rfl
        | updated => exact absurd hs hst
      have hb := hi.cur hst'
      refine ⟨b, ?_, fun _ => hb, ?_, ?_, ?_⟩
      · intro p a he
        simp only [openFile] at he
        split at he
        · exact hi.pages p a he
        · cases he
      · intro h hh
        rcases List.mem_cons.mp hh with rfl | hh'
        · exact List.mem_singleton.mpr hb
        · exact hi.seen h hh'
      · intro h hh
        rcases List.mem_cons.mp hh with rfl | hh'
        · exact List.mem_singleton.mpr rfl
        · exact hi.top h hh'
      · intro ha h hh
        rcases List.mem_cons.mp hh with rfl | hh'
        · rw [hb]; rfl
        · exact hi.first ha h hh'
  | read h p hh =>
    refine ⟨b, ?_, hi.cur, hi.seen, hi.top, hi.first⟩
    intro q a he
    simp only [afterRead] at he
    split at he
    · rename_i hq; rw [hq.1]; exact hi.result he
    · exact hi.pages q a he
  | close id =>
    exact ⟨b, hi.pages, hi.cur, fun h hh => hi.seen h (List.mem_filter.mp hh |>.1),
      fun h hh => hi.top h (List.mem_filter.mp hh |>.1), fun ha h hh => hi.first ha h (List.mem_filter.mp hh |>.1)⟩
  | evict p =>
    refine ⟨b, ?_, hi.cur, hi.seen, hi.top, hi.first⟩
    intro q a he
    simp only at he
    split at he
    · cases he
    · exact hi.pages q a he

theorem Reach.cinv {alone : Bool} {d0 : W.Desc} {s : State W} (h : Reach true alone d0 s) :
    ∃ b, CInv alone b s := by
  induction h with
  | init => exact ⟨d0, (by intro p a h; cases h), fun _ => rfl, by simp [State.init], by simp [State.init],
      by simp [State.init]⟩
  | step _ hs ih => obtain ⟨b, hb⟩ := ih; exact hb.step hs

/-- **C68**, the part that holds: if every changed file is opened before the next manifest arrives,
every program reads only what has been in the file since it opened it.  (Missing: other histories,
for which it is false.) -/
theorem C68_fresh_partial {alone : Bool} {d0 : W.Desc} {s : State W} (h : Reach true alone d0 s) : FreshReads s := by
  obtain ⟨b, hb⟩ := h.cinv
  exact fun hd hh p a e => ⟨b, hb.seen hd hh, hb.result e⟩

/-- If moreover a changed file is opened again only after everyone has closed it, every program sees one version of it
or gets an error.  (Missing: other histories, for which it is false.) -/
theorem C68_one_version_partial {d0 : W.Desc} {s : State W} (h : Reach true true d0 s) : OneVersion s := by
  obtain ⟨b, hb⟩ := h.cinv
  exact fun hd hh p a e => ⟨b, hb.first rfl hd hh, hb.result e⟩

/-- A page that is not in the cache cannot be read between a change of the file and the next open;
a program that opens the file then reads the new version, whether or not the page was in the cache. -/
theorem C68_reopen_needed {d0 d : W.Desc} {s : State W} (_ : Reach true true d0 s) (hd : d ≠ s.cur) (p : Page) :
    (∀ h ∈ (setManifest d s).handles, s.cache p = none → result h p (setManifest d s) = none) ∧
    ∀ id direct, result ⟨id, direct, [d]⟩ p (openFile id direct (setManifest d s)) = some (W.content d p) := by
  have hst : (setManifest d s).st = .updated := by simp [setManifest, stateAfter, hd]
  constructor
  · intro h _ hc
    have hc' : (setManifest d s).cache p = none := hc
    simp [result, hc', fsRead, hst]
  · intro id direct
    have hk : keepCache direct (setManifest d s) = false := by simp [keepCache, hst]
    cases direct <;> simp [result, openFile, hk, fsRead] <;> rfl

/-! ## The hypotheses can be met -/

/-- A file whose content is the number of its version. -/
def exW : World := ⟨Nat, Nat, fun d p => 10 * d + p⟩

/-- A page is read, the file changes, is opened again and read again. -/
example : ∃ s : State exW, Reach true true (1 : Nat) s ∧ s.cur = (2 : Nat) ∧ s.cache 0 = some (20 : Nat) ∧ s.handles.length = 1 := by
  have h1 : Reach (W := exW) true true (1 : Nat) _ := Reach.step Reach.init (.open 1 false (by simp [State.init]) (by simp [State.init]))
  have h2 := Reach.step h1 (.read ⟨1, false, [(1 : Nat)]⟩ 0 (List.mem_cons_self ..))
  have h3 := Reach.step h2 (.manifest (2 : Nat) (by simp [afterRead, openFile]))
  have h4 := Reach.step h3 (.close 1)
  have h5 := Reach.step h4 (.open 2 false (by simp [setManifest, afterRead, openFile, State.init])
    (by simp [setManifest, afterRead, openFile, State.init]))
  have h6 := Reach.step h5 (.read ⟨2, false, [(2 : Nat)]⟩ 0 (List.mem_cons_self ..))
  exact ⟨_, h6, rfl, rfl, rfl⟩

/-- `C68_stale_violated` applies to a state in which a page has been read. -/
example : ∃ s : State exW, Reach false false (1 : Nat) s ∧ s.cache 0 = some (10 : Nat) ∧ (10 : Nat) ≠ exW.content (2 : Nat) 0 := by
  have h1 : Reach (W := exW) false false (1 : Nat) _ := Reach.step Reach.init (.open 1 false (by simp [State.init]) (by simp))
  have h2 := Reach.step h1 (.read ⟨1, false, [(1 : Nat)]⟩ 0 (List.mem_cons_self ..))
  exact ⟨_, h2, rfl, show (10 : Nat) ≠ 20 by decide⟩

end Verif.FuseFs.Cache
