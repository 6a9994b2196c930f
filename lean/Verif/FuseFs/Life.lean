/-!
# The life of the file system process (C191, C192): cdc_fuse_fs/main.cc, cdc_fuse_fs.cc, config_stream_client.cc

From the first step of `Initialize` to the end of `main`, with the thread that receives manifests.  Every call may fail.
-/

namespace Verif.FuseFs.Life

/-! ## Model -/

/-- What `Initialize` acquires (cdc_fuse_fs.cc:934-1016): the arguments, the copy of the mount point's name, the mount, the FUSE session, the
signal handlers and the connection of session and mount. -/
inductive Res
  | args | name | mount | session | handlers | link
  deriving DecidableEq, Repr

/-- Where the main thread is. -/
inductive Pc
  | parse | mount | session | handlers | link
  | store | wait | stats | provider | client | listen | loop | stopReader | stopProvider
  | unlink | unhandle | destroy | unmount | freeName | freeArgs | delete | over
  deriving DecidableEq, Repr

/-- The thread that receives manifests: `reader_thread_` (config_stream_client.cc:40-72).  `working`: it is in `SetManifest`.  `ended`: its
function has returned, but it has not been joined. -/
inductive Reader
  | none | reading | working | ended | joined
  deriving DecidableEq, Repr

/-- The process after `ctx = new CdcFuseFsContext()` and `FUSE_ARGS_INIT` (cdc_fuse_fs.cc:935-940).  Not modelled: the steps of `main` before
that, which acquire nothing. -/
structure State where
  pc : Pc := .parse
  /-- `ctx` points to the context -/
  ctx : Bool := true
  /-- `ctx->mountpoint`, `ctx->channel`, `ctx->session`, `ctx->signal_handlers_set` -/
  name : Bool := false
  channel : Bool := false
  session : Bool := false
  handlers : Bool := false
  /-- what has been acquired and released, in order -/
  acquired : List Res := [.args]
  released : List Res := []
  reader : Reader := .none
  /-- what `main` will return (0: success) -/
  code : Nat := 0

/-- What can happen to the process: it goes on, or it is ended by `std::terminate`, or it uses something that was freed. -/
inductive Outcome
  | goes (s : State) | terminated | freed

def State.acquire (s : State) (r : Res) : State := { s with acquired := s.acquired ++ [r] }
def State.release (s : State) (r : Res) : State := { s with released := s.released ++ [r] }

/-- What is special about a step: `loop`: the loop of the session has failed; `early`: `main` returns without `Shutdown`. -/
inductive Label
  | normal | loop | early
  deriving DecidableEq, Repr

/-- One step. -/
inductive Step : State → Label → Outcome → Prop
  /-- `fuse_parse_cmdline`, cdc_fuse_fs.cc:940-945 -/
  | parse {s} : s.pc = .parse → Step s .normal (.goes { s.acquire .name with pc := .mount, name := true })
  | parseFails {s} {c : Nat} : s.pc = .parse → c ≠ 0 → Step s .normal (.goes { s with pc := .unlink, code := c })
  /-- `fuse_mount`, cdc_fuse_fs.cc:948-952 -/
  | mount {s} : s.pc = .mount → Step s .normal (.goes { s.acquire .mount with pc := .session, channel := true })
  | mountFails {s} {c : Nat} : s.pc = .mount → c ≠ 0 → Step s .normal (.goes { s with pc := .unlink, code := c })
  /-- `fuse_lowlevel_new`, cdc_fuse_fs.cc:994-999 -/
  | session {s} : s.pc = .session → Step s .normal (.goes { s.acquire .session with pc := .handlers, session := true })
  | sessionFails {s} {c : Nat} : s.pc = .session → c ≠ 0 → Step s .normal (.goes { s with pc := .unlink, code := c })
  /-- `fuse_set_signal_handlers`, cdc_fuse_fs.cc:1002-1006 -/
  | handlers {s} : s.pc = .handlers → Step s .normal (.goes { s.acquire .handlers with pc := .link, handlers := true })
  | handlersFail {s} {c : Nat} : s.pc = .handlers → c ≠ 0 → Step s .normal (.goes { s with pc := .unlink, code := c })
  /-- `fuse_session_add_chan`, cdc_fuse_fs.cc:1008 -/
  | link {s} : s.pc = .link → Step s .normal (.goes { s.acquire .link with pc := .store })
  /-- the disk cache, main.cc:193-202 -/
  | store {s} : s.pc = .store → Step s .normal (.goes { s with pc := .wait })
  | storeFails {s} : s.pc = .store → Step s .early (.goes { s with pc := .over, code := 1 })
  /-- the connection to the workstation, main.cc:205-211 -/
  | wait {s} : s.pc = .wait → Step s .normal (.goes { s with pc := .stats })
  | waitFails {s} {c : Nat} : s.pc = .wait → c ≠ 0 → Step s .early (.goes { s with pc := .over, code := c })
  /-- the list of cached chunks, main.cc:228-244 -/
  | stats {s} : s.pc = .stats → Step s .normal (.goes { s with pc := .provider })
  | statsFail {s} : s.pc = .stats → Step s .early (.goes { s with pc := .over, code := 1 })
  /-- `DataProvider` and `SetConfigClient`, main.cc:246-254 -/
  | provider {s} : s.pc = .provider → Step s .normal (.goes { s with pc := .client })
  | client {s} : s.pc = .client → Step s .normal (.goes { s with pc := .listen })
  /-- `StartListeningToManifestUpdates`, cdc_fuse_fs.cc:1651-1653, config_stream_client.cc:40-53 -/
  | listen {s} : s.pc = .listen → Step s .normal (.goes { s with pc := .loop, reader := .reading })
  | listenFails {s} {c : Nat} : s.pc = .listen → c ≠ 0 → Step s .normal (.goes { s with pc := .stopProvider, code := c })
  /-- the loop of the session, cdc_fuse_fs.cc:1655-1660; if it fails `Run` returns before it stops the reader -/
  | loop {s} : s.pc = .loop → Step s .normal (.goes { s with pc := .stopReader })
  | loopFails {s} {c : Nat} : s.pc = .loop → c ≠ 0 → Step s .loop (.goes { s with pc := .stopProvider, code := c })
  /-- `ConfigStreamClient::Shutdown`, cdc_fuse_fs.cc:1662, config_stream_client.cc:75-82: waits for the end of the reader -/
  | stopReader {s} : s.pc = .stopReader → s.reader = .ended → Step s .normal (.goes { s with pc := .stopProvider, reader := .joined })
  /-- `DataProvider::Shutdown`, main.cc:264 -/
  | stopProvider {s} : s.pc = .stopProvider → Step s .normal (.goes { s with pc := .unlink })
  /-- `Shutdown`, cdc_fuse_fs.cc:1018-1047 -/
  | unlink {s} : s.pc = .unlink → s.handlers = true → Step s .normal (.goes { s.release .link with pc := .unhandle, handlers := false })
  | noUnlink {s} : s.pc = .unlink → s.handlers = false → Step s .normal (.goes { s with pc := .destroy })
  | unhandle {s} : s.pc = .unhandle → Step s .normal (.goes { s.release .handlers with pc := .destroy })
  | destroy {s} : s.pc = .destroy → s.session = true → Step s .normal (.goes { s.release .session with pc := .unmount, session := false })
  | noDestroy {s} : s.pc = .destroy → s.session = false → Step s .normal (.goes { s with pc := .unmount })
  | unmount {s} : s.pc = .unmount → s.channel = true → Step s .normal (.goes { s.release .mount with pc := .freeName, channel := false })
  | noUnmount {s} : s.pc = .unmount → s.channel = false → Step s .normal (.goes { s with pc := .freeName })
  | freeName {s} : s.pc = .freeName → s.name = true → Step s .normal (.goes { s.release .name with pc := .freeArgs, name := false })
  | noFreeName {s} : s.pc = .freeName → s.name = false → Step s .normal (.goes { s with pc := .freeArgs })
  | freeArgs {s} : s.pc = .freeArgs → Step s .normal (.goes { s.release .args with pc := .delete })
  /-- `delete ctx`, cdc_fuse_fs.cc:1049-1051: the destructor of `std::thread` ends the program if the thread has not been joined -/
  | delete {s} : s.pc = .delete → (s.reader = .none ∨ s.reader = .joined) → Step s .normal (.goes { s with pc := .over, ctx := false })
  | deleteRunning {s} : s.pc = .delete → s.reader ≠ .none → s.reader ≠ .joined → Step s .normal .terminated
  /-- the reader gets a manifest, config_stream_client.cc:56-71 -/
  | receive {s} : s.pc ≠ .over → s.reader = .reading → Step s .normal (.goes { s with reader := .working })
  /-- it uses the context and answers waiting requests through the session (cdc_fuse_fs.cc:1532-1618) -/
  | work {s} : s.pc ≠ .over → s.reader = .working → s.ctx = true → s.session = true → Step s .normal (.goes s)
  | workFreed {s} : s.pc ≠ .over → s.reader = .working → (s.ctx = false ∨ s.session = false) → Step s .normal .freed
  | worked {s} : s.pc ≠ .over → s.reader = .working → Step s .normal (.goes { s with reader := .reading })
  /-- the stream ends: the workstation is gone, or it was cancelled -/
  | streamEnds {s} : s.pc ≠ .over → s.reader = .reading → Step s .normal (.goes { s with reader := .ended })

/-- Any number of steps from the start, with their labels. -/
inductive Run : List Label → Outcome → Prop
  | start : Run [] (.goes {})
  | step {l s x t} : Run l (.goes s) → Step s x t → Run (l ++ [x]) t

/-! ## Specification -/

/-- Everything that has been acquired has been released, in the opposite order. -/
def Clean (s : State) : Prop := s.released = s.acquired.reverse

/-- The directory is still mounted. -/
def Mounted (s : State) : Prop := .mount ∈ s.acquired ∧ .mount ∉ s.released

/-! ## Proof -/

def all : List Res := [.args, .name, .mount, .session, .handlers, .link]

/-- What has been acquired and released, and the flags, when the main thread is at a place. -/
def At (s : State) : Prop := match s.pc with
  | .parse => s.acquired = all.take 1 ∧ s.released = [] ∧ s.name = false ∧ s.channel = false ∧ s.session = false ∧ s.handlers = false
  | .mount => s.acquired = all.take 2 ∧ s.released = [] ∧ s.name = true ∧ s.channel = false ∧ s.session = false ∧ s.handlers = false
  | .session => s.acquired = all.take 3 ∧ s.released = [] ∧ s.name = true ∧ s.channel = true ∧ s.session = false ∧ s.handlers = false
  | .handlers => s.acquired = all.take 4 ∧ s.released = [] ∧ s.name = true ∧ s.channel = true ∧ s.session = true ∧ s.handlers = false
  | .link => s.acquired = all.take 5 ∧ s.released = [] ∧ s.name = true ∧ s.channel = true ∧ s.session = true ∧ s.handlers = true
  | .store | .wait | .stats | .provider | .client | .listen | .loop | .stopReader | .stopProvider =>
    s.acquired = all ∧ s.released = [] ∧ s.name = true ∧ s.channel = true ∧ s.session = true ∧ s.handlers = true
  | .unlink => s.released = [] ∧
    ((s.acquired = all ∧ s.name = true ∧ s.channel = true ∧ s.session = true ∧ s.handlers = true) ∨
      (s.handlers = false ∧ ((s.acquired = all.take 4 ∧ s.session = true ∧ s.channel = true ∧ s.name = true) ∨
        (s.session = false ∧ ((s.acquired = all.take 3 ∧ s.channel = true ∧ s.name = true) ∨
          (s.channel = false ∧ ((s.acquired = all.take 2 ∧ s.name = true) ∨ (s.acquired = all.take 1 ∧ s.name = false))))))))
  | .unhandle => s.acquired = all ∧ s.released = [.link] ∧ s.name = true ∧ s.channel = true ∧ s.session = true
  | .destroy =>
    (s.session = true ∧ s.channel = true ∧ s.name = true ∧
      ((s.acquired = all ∧ s.released = [.link, .handlers]) ∨ (s.acquired = all.take 4 ∧ s.released = []))) ∨
    (s.session = false ∧ s.released = [] ∧ ((s.acquired = all.take 3 ∧ s.channel = true ∧ s.name = true) ∨
          (s.channel = false ∧ ((s.acquired = all.take 2 ∧ s.name = true) ∨ (s.acquired = all.take 1 ∧ s.name = false)))))
  | .unmount =>
    (s.channel = true ∧ s.name = true ∧ ∃ r, s.acquired = all.take 3 ++ r ∧ s.released = r.reverse) ∨
    (s.channel = false ∧ s.released = [] ∧ ((s.acquired = all.take 2 ∧ s.name = true) ∨ (s.acquired = all.take 1 ∧ s.name = false)))
  | .freeName => (s.name = true ∧ ∃ r, s.acquired = all.take 2 ++ r ∧ s.released = r.reverse) ∨
    (s.name = false ∧ s.acquired = all.take 1 ∧ s.released = [])
  | .freeArgs => ∃ r, s.acquired = all.take 1 ++ r ∧ s.released = r.reverse
  | .delete => s.released = s.acquired.reverse
  | .over => s.released = s.acquired.reverse ∨ (s.code ≠ 0 ∧ s.acquired = all ∧ s.released = [])

theorem At.step {s t : State} {x : Label} (h : At s) (hs : Step s x (.goes t)) : At t := by
  generalize ho : Outcome.goes t = o at hs
  cases hs <;> (first | (cases ho; done) | skip) <;> injection ho with ho <;> subst ho
  case receive hp _ => exact h
  case work => exact h
  case worked => exact h
  case streamEnds => exact h
  all_goals (rename_i hp; first | (unfold At at h; rw [hp] at h) | skip)
  all_goals simp_all [At, State.acquire, State.release, all]
  case noUnlink => rcases h with ⟨_, ⟨_, _, _, _⟩ | ⟨_, ⟨_, _, _⟩ | ⟨_, ⟨_, _⟩ | ⟨_, _⟩⟩⟩⟩ <;> simp [*]
  case destroy =>
    rcases h with ⟨_, _, ⟨h1, h2⟩ | ⟨h1, h2⟩⟩
    · exact ⟨[.session, .handlers, .link], h1, by rw [h2]; rfl⟩
    · exact ⟨[.session], h1, by rw [h2]; rfl⟩
  case noDestroy =>
    rcases h with ⟨h0, ⟨h1, h2, h3⟩ | ⟨h1, h2 | h2⟩⟩ <;> simp [*]
  case unmount =>
    obtain ⟨_, r, h1, h2⟩ := h
    exact ⟨.mount :: r, h1, by rw [h2]; simp⟩
  case noUnmount => rcases h with ⟨_, ⟨h1, h2⟩ | ⟨h1, h2⟩⟩ <;> simp [*]
  case freeName =>
    obtain ⟨r, h1, h2⟩ := h
    exact ⟨.name :: r, h1, by rw [h2]; simp⟩
  case freeArgs =>
    obtain ⟨r, h1, h2⟩ := h
    rw [h1, h2]; simp

/-- What holds in every run: where the resources are, what the reader is doing, and which runs end with an error. -/
structure Inv (l : List Label) (s : State) : Prop where
  place : At s
  ctx : s.ctx = true ∨ (s.pc = .over ∧ .early ∉ l)
  reader : (s.reader = .none ∨ s.reader = .joined) ∨ s.pc = .loop ∨ s.pc = .stopReader ∨ .loop ∈ l
  failed : .loop ∈ l → (s.reader = .reading ∨ s.reader = .working ∨ s.reader = .ended) ∧
    (s.pc = .stopProvider ∨ s.pc = .unlink ∨ s.pc = .unhandle ∨ s.pc = .destroy ∨ s.pc = .unmount ∨ s.pc = .freeName ∨ s.pc = .freeArgs ∨
      s.pc = .delete)
  begun : s.pc = .loop ∨ s.pc = .stopReader → s.reader = .reading ∨ s.reader = .working ∨ s.reader = .ended
  early : .early ∈ l → s.pc = .over ∧ s.code ≠ 0 ∧ s.acquired = all ∧ s.released = []
  over : s.pc = .over → .early ∈ l ∨ (Clean s ∧ s.ctx = false)
  code : s.code = 0 → s.acquired = all ∨ s.pc = .parse ∨ s.pc = .mount ∨ s.pc = .session ∨ s.pc = .handlers ∨ s.pc = .link

theorem At.facts {s : State} (h : At s) :
    (s.pc = .store ∨ s.pc = .wait ∨ s.pc = .stats → s.acquired = all ∧ s.released = []) ∧ (s.pc = .delete → s.released = s.acquired.reverse) ∧
    (s.pc = .link → s.acquired ++ [.link] = all) ∧ (s.pc = .loop ∨ s.pc = .stopReader → s.session = true) := by
  unfold At at h
  refine ⟨?_, ?_, ?_, ?_⟩
  · rintro (e | e | e) <;> rw [e] at h <;> exact ⟨h.1, h.2.1⟩
  · intro e; rw [e] at h; exact h
  · intro e; rw [e] at h; rw [h.1]; rfl
  · rintro (e | e) <;> rw [e] at h <;> exact h.2.2.2.2.1

theorem Run.inv {l : List Label} {o : Outcome} (h : Run l o) : ∀ s, o = .goes s → Inv l s := by
  induction h with
  | start =>
    rintro s ⟨⟩
    exact ⟨⟨rfl, rfl, rfl, rfl, rfl, rfl⟩, .inl rfl, .inl (.inl rfl), by simp, by simp, by simp, by simp, by simp⟩
  | @step l s x t _ hs ih =>
    rintro t rfl
    have hi := ih s rfl
    obtain ⟨f1, f2, f3, _⟩ := hi.place.facts
    refine ⟨hi.place.step hs, ?_, ?_, ?_, ?_, ?_, ?_, ?_⟩
    all_goals
      obtain ⟨_, h2, h3, h4, h5, h6, h7, h8⟩ := hi
      clear ih
      generalize ho : Outcome.goes t = o at hs
      cases hs <;> (first | (cases ho; done) | skip) <;> injection ho with ho <;> subst ho <;>
        simp_all [State.acquire, State.release, Clean]
    rename_i hr
    intro hl
    have := h4 hl
    rcases hr with e | e <;> rw [e] at this <;> simp at this

/-- **C191**, the part that holds: if the process ends by itself and not because the cache, the connection to the workstation or the list of
cached chunks fails, then whatever else has failed everything that was acquired has been released, in the opposite order; the directory is
not mounted any more, and the exit code is 0 only if the file system had been set up.  Missing: those three failures. -/
theorem C191_clean_partial {l : List Label} {s : State} (h : Run l (.goes s)) (ho : s.pc = .over) (he : .early ∉ l) :
    Clean s ∧ ¬ Mounted s ∧ s.ctx = false ∧ (s.code = 0 → s.acquired = [.args, .name, .mount, .session, .handlers, .link]) := by
  have hi := h.inv s rfl
  rcases hi.over ho with h1 | ⟨h1, h2⟩
  · exact absurd h1 he
  · refine ⟨h1, fun hm => hm.2 ?_, h2, fun hc => ?_⟩
    · rw [h1]; exact List.mem_reverse.mpr hm.1
    · have := hi.code hc
      rw [ho] at this
      simpa [all] using this

/-- **C191** is false of the code: if the cache cannot be used, or the connection to the workstation or the list of cached chunks fails, the
process ends while the directory is mounted; nothing is released. -/
theorem C191_left_mounted_violated {l : List Label} {s : State} (h : Run l (.goes s)) (he : .early ∈ l) :
    s.pc = .over ∧ Mounted s ∧ s.released = [] ∧ s.ctx = true := by
  have hi := h.inv s rfl
  obtain ⟨h1, _, h2, h3⟩ := hi.early he
  refine ⟨h1, ⟨by rw [h2]; decide, by rw [h3]; simp⟩, h3, ?_⟩
  rcases hi.ctx with h4 | h4
  · exact h4
  · exact absurd he h4.2

/-- **C192**, the part that holds: if the loop of the session does not fail, nothing that was freed is used, by neither thread, and the
program is not terminated, whenever manifests arrive.  Missing: a failure of the loop. -/
theorem C192_threads_partial {l : List Label} {o : Outcome} (h : Run l o) (hl : .loop ∉ l) : ∃ s, o = .goes s := by
  cases h with
  | start => exact ⟨_, rfl⟩
  | @step l s x t hr hs =>
    have hi := hr.inv s rfl
    have hl' : .loop ∉ l := fun h => hl (List.mem_append_left _ h)
    obtain ⟨f1, f2, f3, f4⟩ := hi.place.facts
    obtain ⟨h1, h2, h3, h4, h5, h6, h7, h8⟩ := hi
    clear h1
    cases hs <;> first | exact ⟨_, rfl⟩ | simp_all

/-- **C192** is false of the code: after a failure of the loop the process never gets to its regular end: the thread that receives manifests
is not stopped. -/
theorem C192_loop_fails_violated {l : List Label} {s : State} (h : Run l (.goes s)) (hl : .loop ∈ l) : s.pc ≠ .over := by
  have := (h.inv s rfl).failed hl
  intro ho
  rw [ho] at this
  simp at this

/-! ## Examples -/

theorem toLoop : Run [.normal, .normal, .normal, .normal, .normal, .normal, .normal, .normal, .normal, .normal, .normal]
    (.goes { pc := .loop, name := true, channel := true, session := true, handlers := true, acquired := all, reader := .reading }) := by
  have h1 := Run.step .start (.parse rfl)
  have h2 := Run.step h1 (.mount rfl)
  have h3 := Run.step h2 (.session rfl)
  have h4 := Run.step h3 (.handlers rfl)
  have h5 := Run.step h4 (.link rfl)
  have h6 := Run.step h5 (.store rfl)
  have h7 := Run.step h6 (.wait rfl)
  have h8 := Run.step h7 (.stats rfl)
  have h9 := Run.step h8 (.provider rfl)
  have h10 := Run.step h9 (.client rfl)
  exact Run.step h10 (.listen rfl)

/-- A regular end. -/
example : ∃ l s, Run l (.goes s) ∧ s.pc = .over ∧ .early ∉ l ∧ .loop ∉ l ∧ s.code = 0 := by
  have h1 := Run.step toLoop (.receive (fun h => nomatch h) rfl)
  have h2 := Run.step h1 (.worked (fun h => nomatch h) rfl)
  have h3 := Run.step h2 (.loop rfl)
  have h4 := Run.step h3 (.streamEnds (fun h => nomatch h) rfl)
  have h5 := Run.step h4 (.stopReader rfl rfl)
  have h6 := Run.step h5 (.stopProvider rfl)
  have h7 := Run.step h6 (.unlink rfl rfl)
  have h8 := Run.step h7 (.unhandle rfl)
  have h9 := Run.step h8 (.destroy rfl rfl)
  have h10 := Run.step h9 (.unmount rfl rfl)
  have h11 := Run.step h10 (.freeName rfl rfl)
  have h12 := Run.step h11 (.freeArgs rfl)
  have h13 := Run.step h12 (.delete rfl (.inr rfl))
  exact ⟨_, _, h13, rfl, by decide, by decide, rfl⟩

/-- The mount fails: everything is released. -/
example : ∃ l s, Run l (.goes s) ∧ s.pc = .over ∧ .early ∉ l ∧ s.code = 2 ∧ s.released = [.name, .args] := by
  have h1 := Run.step .start (.parse rfl)
  have h2 := Run.step h1 (.mountFails (c := 2) rfl (by decide))
  have h3 := Run.step h2 (.noUnlink rfl rfl)
  have h4 := Run.step h3 (.noDestroy rfl rfl)
  have h5 := Run.step h4 (.noUnmount rfl rfl)
  have h6 := Run.step h5 (.freeName rfl rfl)
  have h7 := Run.step h6 (.freeArgs rfl)
  have h8 := Run.step h7 (.delete rfl (.inl rfl))
  exact ⟨_, _, h8, rfl, by decide, rfl, rfl⟩

/-- The cache cannot be used. -/
example : ∃ l s, Run l (.goes s) ∧ .early ∈ l := by
  have h1 := Run.step .start (.parse rfl)
  have h2 := Run.step h1 (.mount rfl)
  have h3 := Run.step h2 (.session rfl)
  have h4 := Run.step h3 (.handlers rfl)
  have h5 := Run.step h4 (.link rfl)
  exact ⟨_, _, Run.step h5 (.storeFails rfl), by decide⟩

/-- The loop fails: the program is terminated, or the thread uses the session that has been destroyed. -/
theorem C192_terminated_violated : (∃ l, Run l .terminated ∧ .early ∉ l) ∧ ∃ l, Run l .freed ∧ .early ∉ l := by
  have h3 := Run.step toLoop (.loopFails (c := 13) rfl (by decide))
  have h6 := Run.step h3 (.stopProvider rfl)
  have h7 := Run.step h6 (.unlink rfl rfl)
  have h8 := Run.step h7 (.unhandle rfl)
  have h9 := Run.step h8 (.destroy rfl rfl)
  have h10 := Run.step h9 (.unmount rfl rfl)
  have h11 := Run.step h10 (.freeName rfl rfl)
  have h12 := Run.step h11 (.freeArgs rfl)
  refine ⟨⟨_, Run.step h12 (.deleteRunning rfl (fun h => nomatch h) (fun h => nomatch h)), by decide⟩, ?_⟩
  have k1 := Run.step h9 (.receive (fun h => nomatch h) rfl)
  exact ⟨_, Run.step k1 (.workFreed (fun h => nomatch h) rfl (.inr rfl)), by decide⟩

end Verif.FuseFs.Life
