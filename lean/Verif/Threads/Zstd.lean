/-
Model of the compression stream (cdc_rsync/zstd_stream.cc:34-182, cdc_rsync/zstd_stream.h) and of
the decompression stream on the server (cdc_rsync_server/unzstd_stream.cc:34-75).

The zstd library itself is not part of the project and not modelled: the structures `Codec` and
`Decoder` below state what its documentation promises about `ZSTD_compressStream2` and
`ZSTD_decompressStream`, and the theorems hold for everything that keeps these promises.  A toy
codec shows that the promises can be kept.

Writer, finisher, destructor and compressor thread interleave at mutex boundaries.  The compressor
thread keeps the mutex while it compresses and sends (lines 131-181, only `AwaitWithTimeout` gives
it up), so the others' steps are enabled only while it waits or after it has ended.
-/
namespace Verif.Threads.Zstd

abbrev Bytes := List UInt8

/-- `ZSTD_EndDirective`. -/
inductive Mode where
  | cont | flush | fin
deriving DecidableEq, Repr

/-- What zstd's documentation promises about the streaming compressor.
`call c m inp c' k out r`: `ZSTD_compressStream2` in state `c` with directive `m` on the unread
input `inp` may end in state `c'`, having consumed `k` bytes of `inp` and written `out`, returning
`r` (0: nothing left to flush).  `frame d o`: `o` is a complete zstd frame for the data `d`.
`opened c d o`: the current frame has consumed `d` and written `o` so far. -/
structure Codec where
  C : Type
  init : C
  call : C → Mode → Bytes → C → Nat → Bytes → Nat → Prop
  frame : Bytes → Bytes → Prop
  opened : C → Bytes → Bytes → Prop
  /-- upper bound on the calls needed to finish with the same directive -/
  fuel : C → Mode → Bytes → Nat
  opened_init : opened init [] []
  consumed_le : ∀ {c m inp c' k out r}, call c m inp c' k out r → k ≤ inp.length
  /-- 0 is only returned to flush/end once the input is consumed (zstd.h) -/
  all_consumed : ∀ {c m inp c' k out}, call c m inp c' k out 0 → m ≠ .cont → k = inp.length
  /-- 0 returned to end: the frame is complete, the next call starts a new one -/
  ended : ∀ {c inp c' k out d o}, opened c d o → call c .fin inp c' k out 0 →
    frame (d ++ inp) (o ++ out) ∧ opened c' [] []
  /-- otherwise the frame goes on -/
  goes_on : ∀ {c m inp c' k out r d o}, opened c d o → call c m inp c' k out r →
    ¬(m = .fin ∧ r = 0) → opened c' (d ++ inp.take k) (o ++ out)
  /-- flushing a frame that got no data writes nothing -/
  flush_nothing : ∀ {c m c' k out r}, opened c [] [] → call c m [] c' k out r → m ≠ .fin → out = []
  /-- calls make progress -/
  progress : ∀ {c m inp c' k out r}, call c m inp c' k out r →
    ¬(if m = .cont then k = inp.length else r = 0) → fuel c' m (inp.drop k) < fuel c m inp

/-- The compressor thread (lines 127-182). -/
inductive Tpc where
  /-- waiting in `AwaitWithTimeout` (or not there yet), mutex not held (lines 131-139) -/
  | top
  /-- in the do-loop with the mutex held, `input.pos = pos` (lines 153-171) -/
  | compress (m : Mode) (pos : Nat)
  /-- returned -/
  | dead
deriving DecidableEq, Repr

structure State (K : Codec) where
  /-- `in_buffer_` -/
  buf : Bytes := []
  /-- `shutdown_` -/
  shutdown : Bool := false
  /-- `last_chunk_` -/
  last : Bool := false
  /-- `last_chunk_sent_` -/
  lastSent : Bool := false
  /-- `status_.ok()` -/
  ok : Bool := true
  /-- the constructor has assigned `status_` (line 38) and returned -/
  built : Bool := false
  tpc : Tpc := .top
  /-- `cctx_` -/
  c : K.C
  /-- a running `Write`: the data it has not copied yet -/
  writing : Option Bytes := none
  /-- a running `Finish`: how many bytes had been accepted into the buffer when it started -/
  finishing : Option Nat := none
  /-- history: number of calls of `Finish` that got past line 86 -/
  finishes : Nat := 0
  /-- history: the arguments of all calls of `Write` -/
  given : Bytes := []
  /-- history: all bytes ever copied into `in_buffer_` -/
  accepted : Bytes := []
  /-- history: some `Write` returned an error after it had started copying -/
  failed : Bool := false
  /-- history: completed frames, (data, compressed bytes) -/
  frames : List (Bytes × Bytes) := []
  /-- history: data consumed by the compressor in the current frame -/
  cur : Bytes := []
  /-- history: compressed bytes of the current frame -/
  curOut : Bytes := []
  /-- history: everything the socket has accepted -/
  sent : Bytes := []

variable {K : Codec}

/-- The thread holds the mutex. -/
def State.locked (s : State K) : Bool := match s.tpc with
  | .compress _ _ => true
  | _ => false

/-- A new stream; the thread is started by `Initialize` before the constructor assigns `status_`
(lines 38, 123). -/
def init (K : Codec) : State K := { c := K.init }

/-- The directive chosen for this iteration (lines 138-148), `cap` is `in_buffer_.capacity()`. -/
def mode (cap : Nat) (s : State K) : Mode :=
  if s.last then .fin else if s.buf.length = cap then .cont else .flush

/-- Loop exit condition (lines 169-171). -/
def finished (m : Mode) (size pos r : Nat) : Prop := if m = .cont then pos = size else r = 0

/-- Steps of the compressor thread. -/
inductive TStep (cap : Nat) : State K → State K → Prop where
  /-- shutdown seen (lines 132, 140-142) -/
  | stop (s : State K) (h : s.tpc = .top) (hs : s.shutdown = true) :
      TStep cap s { s with tpc := .dead }
  /-- the wait ends, by its condition or by the timeout (lines 138-154) -/
  | wake (s : State K) (h : s.tpc = .top) (hs : s.shutdown = false) :
      TStep cap s { s with tpc := .compress (mode cap s) 0 }
  /-- a call of the compressor, output sent, loop goes on (lines 156-171) -/
  | more (s : State K) (m : Mode) (pos : Nat) (c' : K.C) (k : Nat) (out : Bytes) (r : Nat)
      (h : s.tpc = .compress m pos) (hc : K.call s.c m (s.buf.drop pos) c' k out r)
      (hf : ¬ finished m s.buf.length (pos + k) r) :
      TStep cap s { s with
        c := c', tpc := .compress m (pos + k), cur := s.cur ++ (s.buf.drop pos).take k
        curOut := s.curOut ++ out, sent := s.sent ++ out
        ok := if out = [] then s.ok else true }
  /-- the last call of the iteration in mode continue or flush (lines 156-180) -/
  | endIter (s : State K) (m : Mode) (pos : Nat) (c' : K.C) (k : Nat) (out : Bytes) (r : Nat)
      (h : s.tpc = .compress m pos) (hc : K.call s.c m (s.buf.drop pos) c' k out r)
      (hf : finished m s.buf.length (pos + k) r) (hl : s.last = false) :
      TStep cap s { s with
        c := c', tpc := .top, cur := s.cur ++ (s.buf.drop pos).take k
        curOut := s.curOut ++ out, sent := s.sent ++ out, buf := []
        ok := if out = [] then s.ok else true }
  /-- the last call of the iteration for the last chunk (lines 156-180) -/
  | endLast (s : State K) (m : Mode) (pos : Nat) (c' : K.C) (k : Nat) (out : Bytes) (r : Nat)
      (h : s.tpc = .compress m pos) (hc : K.call s.c m (s.buf.drop pos) c' k out r)
      (hf : finished m s.buf.length (pos + k) r) (hl : s.last = true) :
      TStep cap s { s with
        c := c', tpc := .top, last := false, lastSent := true, buf := []
        cur := [], curOut := [], sent := s.sent ++ out
        frames := s.frames ++ [(s.cur ++ (s.buf.drop pos).take k, s.curOut ++ out)]
        ok := if out = [] then s.ok else true }
  /-- the compressor fails (lines 158-162) -/
  | compressError (s : State K) (m : Mode) (pos : Nat) (h : s.tpc = .compress m pos) :
      TStep cap s { s with ok := false, tpc := .dead }
  /-- sending fails after some of the output was sent (lines 164-167) -/
  | sendError (s : State K) (m : Mode) (pos : Nat) (c' : K.C) (k : Nat) (out : Bytes) (r n : Nat)
      (h : s.tpc = .compress m pos) (hc : K.call s.c m (s.buf.drop pos) c' k out r)
      (ho : out ≠ []) :
      TStep cap s { s with
        c := c', ok := false, tpc := .dead, cur := s.cur ++ (s.buf.drop pos).take k
        curOut := s.curOut ++ out.take n, sent := s.sent ++ out.take n }

/-- What a call returned. -/
inductive Ret where
  | none | writeOk | writeError | finishOk | finishError
deriving DecidableEq, Repr

/-- Steps of the threads using the stream. -/
inductive CStep (cap : Nat) : Ret → State K → State K → Prop where
  /-- the constructor's assignment, without the mutex (line 38) -/
  | built (s : State K) (h : s.built = false) : CStep cap .none s { s with built := true, ok := true }
  /-- the destructor (lines 43-46) -/
  | shutdown (s : State K) (hl : s.locked = false) (hb : s.built = true) :
      CStep cap .none s { s with shutdown := true }
  /-- `Write` starts (lines 58-62) -/
  | write (s : State K) (data : Bytes) (hl : s.locked = false) (hb : s.built = true)
      (hw : s.writing = .none) (ho : s.ok = true) :
      CStep cap .none s { s with writing := some data, given := s.given ++ data }
  /-- `Write` finds an error at once (line 59) -/
  | writeBad (s : State K) (hl : s.locked = false) (hb : s.built = true) (hw : s.writing = .none)
      (ho : s.ok = false) : CStep cap .writeError s s
  /-- one pass of the loop (lines 69-79) -/
  | copy (s : State K) (data : Bytes) (hl : s.locked = false) (hw : s.writing = some data)
      (hd : data ≠ []) (hs : s.shutdown = false) (ho : s.ok = true) (hc : s.buf.length < cap) :
      CStep cap .none s { s with
        writing := some (data.drop (min data.length (cap - s.buf.length)))
        buf := s.buf ++ data.take (min data.length (cap - s.buf.length))
        accepted := s.accepted ++ data.take (min data.length (cap - s.buf.length)) }
  /-- the loop sees shutdown or an error (lines 70-71) -/
  | copyBad (s : State K) (data : Bytes) (hl : s.locked = false) (hw : s.writing = some data)
      (hd : data ≠ []) (hs : s.shutdown = true ∨ s.ok = false) :
      CStep cap .writeError s { s with writing := .none, failed := true }
  /-- the loop is over (line 81) -/
  | written (s : State K) (hl : s.locked = false) (hw : s.writing = some []) :
      CStep cap .writeOk s { s with writing := .none }
  /-- `Finish` starts (lines 85-89) -/
  | finish (s : State K) (hl : s.locked = false) (hb : s.built = true) (hf : s.finishing = .none)
      (ho : s.ok = true) :
      CStep cap .none s { s with last := true, lastSent := false
                                 finishing := some s.accepted.length
                                 finishes := s.finishes + 1 }
  /-- `Finish` finds an error at once (line 86) -/
  | finishBad (s : State K) (hl : s.locked = false) (hb : s.built = true) (hf : s.finishing = .none)
      (ho : s.ok = false) : CStep cap .finishError s s
  /-- `Finish` returns `status_` (lines 93, 95) -/
  | finished (s : State K) (n : Nat) (hl : s.locked = false) (hf : s.finishing = some n)
      (hs : s.shutdown = false) (h : s.lastSent = true ∨ s.ok = false) :
      CStep cap (if s.ok then .finishOk else .finishError) s { s with finishing := .none }
  /-- `Finish` returns because of shutdown (line 94) -/
  | finishedShutdown (s : State K) (n : Nat) (hl : s.locked = false) (hf : s.finishing = some n)
      (hs : s.shutdown = true) : CStep cap .finishError s { s with finishing := .none }

inductive Step (cap : Nat) : State K → State K → Prop where
  | t {s s' : State K} : TStep cap s s' → Step cap s s'
  | c {r : Ret} {s s' : State K} : CStep cap r s s' → Step cap s s'

/-- Reachable with a buffer of `cap` bytes. -/
inductive Reach (K : Codec) (cap : Nat) : State K → Prop where
  | init : Reach K cap (init K)
  | step {s s' : State K} : Reach K cap s → Step cap s s' → Reach K cap s'

/-- Reachable if the constructor returns before the thread takes its first step. -/
inductive ReachB (K : Codec) (cap : Nat) : State K → Prop where
  | init : ReachB K cap { init K with built := true }
  | step {s s' : State K} : ReachB K cap s → Step cap s s' → ReachB K cap s'

/-! ### Invariant -/

/-- Position in the buffer: the compressor has consumed this much of it. -/
def State.pos (s : State K) : Nat := match s.tpc with
  | .compress _ p => p
  | _ => 0

/-- Data of completed frames. -/
def frameData : List (Bytes × Bytes) → Bytes
  | [] => []
  | f :: l => f.1 ++ frameData l

/-- Compressed bytes of completed frames. -/
def frameOut : List (Bytes × Bytes) → Bytes
  | [] => []
  | f :: l => f.2 ++ frameOut l

theorem frameData_snoc (l : List (Bytes × Bytes)) (f : Bytes × Bytes) :
    frameData (l ++ [f]) = frameData l ++ f.1 := by
  induction l with
  | nil => simp [frameData]
  | cons x l ih => simp [frameData, ih]

theorem frameOut_snoc (l : List (Bytes × Bytes)) (f : Bytes × Bytes) :
    frameOut (l ++ [f]) = frameOut l ++ f.2 := by
  induction l with
  | nil => simp [frameOut]
  | cons x l ih => simp [frameOut, ih]

structure Inv (cap : Nat) (s : State K) : Prop where
  /-- while the thread lives nothing is lost -/
  alive : s.tpc ≠ .dead → frameData s.frames ++ s.cur ++ s.buf.drop s.pos = s.accepted
  /-- after it died, what was consumed is a prefix -/
  prefx : frameData s.frames ++ s.cur <+: s.accepted
  posLe : s.pos ≤ s.buf.length
  sentEq : s.sent = frameOut s.frames ++ s.curOut
  opened : s.tpc ≠ .dead → K.opened s.c s.cur s.curOut
  frames : ∀ f ∈ s.frames, K.frame f.1 f.2
  mode : ∀ m p, s.tpc = .compress m p → (m = .fin ↔ s.last = true)
  okDead : s.ok = false → s.tpc = .dead
  given : s.failed = false → s.given = s.accepted ++ s.writing.getD []
  lost : s.failed = true → s.accepted <+: s.given ∧ (s.shutdown = true ∨ s.ok = false) ∧
    s.built = true
  wBuilt : s.writing ≠ none → s.built = true
  bufLe : s.buf.length ≤ cap
  finN : ∀ n, s.finishing = some n → n ≤ s.accepted.length
  finSent : ∀ n, s.finishing = some n → s.lastSent = true → n ≤ (frameData s.frames).length
  finLast : ∀ n, s.finishing = some n → s.lastSent = false → s.last = true
  sentLast : s.lastSent = true → s.last = false
  unbuilt : s.built = false → s.last = false ∧ s.lastSent = false
  dead : s.tpc = .dead → s.ok = true → s.shutdown = false → s.lastSent = false
  nframes : s.frames.length + (if s.last then 1 else 0) ≤ s.finishes
  sentFrames : s.lastSent = true → s.frames ≠ []
  quiet : s.cur = [] → s.buf.drop s.pos = [] → s.last = false → s.tpc ≠ .dead → s.curOut = []

theorem inv_init (K : Codec) (cap : Nat) : Inv cap (init K) := by
  constructor <;> simp [init, frameData, frameOut, State.pos, K.opened_init]

theorem pos_top {s : State K} (h : s.tpc = .top) : s.pos = 0 := by simp [State.pos, h]

theorem pos_compress {s : State K} {m : Mode} {p : Nat} (h : s.tpc = .compress m p) : s.pos = p := by
  simp [State.pos, h]

theorem consumed_all {m : Mode} {c c' : K.C} {b : Bytes} {pos k r : Nat} {out : Bytes}
    (hp : pos ≤ b.length) (hc : K.call c m (b.drop pos) c' k out r)
    (hf : finished m b.length (pos + k) r) : (b.drop pos).take k = b.drop pos := by
  have hk := K.consumed_le hc
  rw [List.take_of_length_le]
  simp only [List.length_drop] at *
  unfold finished at hf
  split at hf
  · omega
  · subst hf
    have := K.all_consumed hc ‹_›
    simp only [List.length_drop] at this
    omega

theorem inv_tstep {cap : Nat} {s s' : State K} (h : Inv cap s) (st : TStep cap s s') :
    Inv cap s' := by
  cases st with
  | stop ht hs =>
    exact { h with
      alive := by intro hd; exact (hd rfl).elim
      posLe := Nat.zero_le _
      opened := by intro hd; exact (hd rfl).elim
      mode := by intro m p hm; cases hm
      okDead := fun _ => rfl
      dead := fun _ _ h0 => by simp only [hs] at h0; cases h0
      quiet := by intro _ _ _ hd; exact (hd rfl).elim }
  | wake ht hs =>
    have hd : s.tpc ≠ .dead := by rw [ht]; simp
    have ha := h.alive hd
    rw [pos_top ht] at ha
    exact { h with
      alive := fun _ => ha
      posLe := Nat.zero_le _
      opened := fun _ => h.opened hd
      mode := by
        intro m p hm
        injection hm with h1 h2
        subst h1
        unfold mode
        cases hl : s.last <;> simp
        split <;> simp
      okDead := fun ho => (hd (h.okDead ho)).elim
      dead := by intro hx; cases hx
      quiet := by
        intro h1 h2 h3 _
        exact h.quiet h1 (by rw [pos_top ht]; exact h2) h3 hd }
  | more m pos c' k out r ht hc hf =>
    have hd : s.tpc ≠ .dead := by rw [ht]; simp
    have ha := h.alive hd
    have hp := h.posLe
    rw [pos_compress ht] at ha hp
    have hk := K.consumed_le hc
    rw [List.length_drop] at hk
    have hsplit : (s.buf.drop pos).take k ++ s.buf.drop (pos + k) = s.buf.drop pos := by
      rw [← List.drop_drop, List.take_append_drop]
    have hmode := h.mode m pos ht
    exact { h with
      alive := fun _ => by
        simp only [State.pos]
        rw [← ha]
        simp only [List.append_assoc, hsplit]
      prefx := by
        rw [← ha]
        exact ⟨s.buf.drop (pos + k), by simp only [List.append_assoc, hsplit]⟩
      posLe := by simp only [State.pos]; omega
      sentEq := by simp only [h.sentEq, List.append_assoc]
      opened := fun _ => by
        refine K.goes_on (h.opened hd) hc ?_
        rintro ⟨h1, h2⟩
        exact hf (by rw [h1, h2]; simp [finished])
      mode := by
        intro m' p' hm
        injection hm with h1 h2
        subst h1; exact hmode
      okDead := by
        intro ho
        simp only at ho
        split at ho
        · exact (hd (h.okDead ho)).elim
        · cases ho
      dead := by intro hx; cases hx
      lost := fun hfl => by
        obtain ⟨h1, h2, h3⟩ := h.lost hfl
        refine ⟨h1, ?_, h3⟩
        rcases h2 with h2 | h2
        · exact .inl h2
        · exact (hd (h.okDead h2)).elim
      quiet := by
        intro h1 h2 h3 _
        simp only [List.append_eq_nil_iff, State.pos] at h1 h2 h3 ⊢
        have hinp : s.buf.drop pos = [] := by
          rw [← hsplit, h1.2, h2]; rfl
        have hco := h.quiet h1.1 (by rw [pos_compress ht]; exact hinp) h3 hd
        have hop := h.opened hd
        rw [h1.1, hco] at hop
        rw [hinp] at hc
        refine ⟨hco, K.flush_nothing hop hc ?_⟩
        intro e
        have := hmode.mp e
        rw [h3] at this; cases this }
  | endIter m pos c' k out r ht hc hf hl =>
    have hd : s.tpc ≠ .dead := by rw [ht]; simp
    have ha := h.alive hd
    have hp := h.posLe
    rw [pos_compress ht] at ha hp
    have hall := consumed_all hp hc hf
    have hmode := h.mode m pos ht
    have hm : m ≠ .fin := fun e => by have := hmode.mp e; rw [hl] at this; cases this
    exact { h with
      alive := fun _ => by simp only [hall]; rw [← ha]; simp
      prefx := by simp only [hall]; rw [← ha, List.append_assoc]; exact List.prefix_refl _
      posLe := Nat.zero_le _
      sentEq := by simp only [h.sentEq, List.append_assoc]
      opened := fun _ => K.goes_on (h.opened hd) hc (fun e => hm e.1)
      mode := by intro m p hm; cases hm
      okDead := by
        intro ho
        simp only at ho
        split at ho
        · exact (hd (h.okDead ho)).elim
        · cases ho
      dead := by intro hx; cases hx
      lost := fun hfl => by
        obtain ⟨h1, h2, h3⟩ := h.lost hfl
        refine ⟨h1, ?_, h3⟩
        rcases h2 with h2 | h2
        · exact .inl h2
        · exact (hd (h.okDead h2)).elim
      bufLe := Nat.zero_le _
      quiet := by
        intro h1 _ h3 _
        simp only [List.append_eq_nil_iff] at h1 ⊢
        rw [hall] at h1
        have hco := h.quiet h1.1 (by rw [pos_compress ht]; exact h1.2) hl hd
        have hop := h.opened hd
        rw [h1.1, hco] at hop
        rw [h1.2] at hc
        exact ⟨hco, K.flush_nothing hop hc hm⟩ }
  | endLast m pos c' k out r ht hc hf hl =>
    have hd : s.tpc ≠ .dead := by rw [ht]; simp
    have ha := h.alive hd
    have hp := h.posLe
    rw [pos_compress ht] at ha hp
    have hall := consumed_all hp hc hf
    have hmode := h.mode m pos ht
    have hm : m = .fin := hmode.mpr hl
    subst hm
    have hr : r = 0 := by simpa [finished] using hf
    subst hr
    have hend := K.ended (h.opened hd) hc
    have hfd : frameData (s.frames ++ [(s.cur ++ (s.buf.drop pos).take k, s.curOut ++ out)]) =
        s.accepted := by
      rw [frameData_snoc, hall, ← ha, List.append_assoc]
    exact { h with
      alive := fun _ => by simp only [hfd]; simp
      prefx := by simp only [hfd]; simp
      posLe := Nat.zero_le _
      sentEq := by simp only [frameOut_snoc, h.sentEq, List.append_assoc, List.append_nil]
      opened := fun _ => hend.2
      frames := by
        intro f hfm
        simp only [List.mem_append, List.mem_singleton] at hfm
        rcases hfm with hfm | rfl
        · exact h.frames f hfm
        · simp only [hall]; exact hend.1
      mode := by intro m p hm; cases hm
      okDead := by
        intro ho
        simp only at ho
        split at ho
        · exact (hd (h.okDead ho)).elim
        · cases ho
      dead := by intro hx; cases hx
      lost := fun hfl => by
        obtain ⟨h1, h2, h3⟩ := h.lost hfl
        refine ⟨h1, ?_, h3⟩
        rcases h2 with h2 | h2
        · exact .inl h2
        · exact (hd (h.okDead h2)).elim
      bufLe := Nat.zero_le _
      sentLast := fun _ => rfl
      nframes := by have := h.nframes; rw [hl] at this; simpa using this
      sentFrames := by simp
      unbuilt := fun h0 => by have := (h.unbuilt h0).1; rw [hl] at this; cases this
      finSent := fun n hn _ => by simp only [hfd]; exact h.finN n hn
      finLast := by intro n _ hx; cases hx
      quiet := fun _ _ _ _ => rfl }
  | compressError m pos ht =>
    exact { h with
      alive := by intro hd; exact (hd rfl).elim
      posLe := Nat.zero_le _
      opened := by intro hd; exact (hd rfl).elim
      mode := by intro m p hm; cases hm
      okDead := fun _ => rfl
      lost := fun hfl => by
        obtain ⟨h1, h2, h3⟩ := h.lost hfl
        exact ⟨h1, .inr rfl, h3⟩
      dead := by intro _ hx; cases hx
      quiet := by intro _ _ _ hd; exact (hd rfl).elim }
  | sendError m pos c' k out r n ht hc ho =>
    have hd : s.tpc ≠ .dead := by rw [ht]; simp
    have ha := h.alive hd
    rw [pos_compress ht] at ha
    have hsplit : (s.buf.drop pos).take k ++ s.buf.drop (pos + k) = s.buf.drop pos := by
      rw [← List.drop_drop, List.take_append_drop]
    exact { h with
      alive := by intro hd; exact (hd rfl).elim
      prefx := by
        rw [← ha]
        exact ⟨s.buf.drop (pos + k), by simp only [List.append_assoc, hsplit]⟩
      posLe := Nat.zero_le _
      sentEq := by simp only [h.sentEq, List.append_assoc]
      opened := by intro hd; exact (hd rfl).elim
      mode := by intro m p hm; cases hm
      okDead := fun _ => rfl
      lost := fun hfl => by
        obtain ⟨h1, h2, h3⟩ := h.lost hfl
        exact ⟨h1, .inr rfl, h3⟩
      dead := by intro _ hx; cases hx
      quiet := by intro _ _ _ hd; exact (hd rfl).elim }

theorem unlocked {s : State K} (h : s.locked = false) : s.tpc = .top ∨ s.tpc = .dead := by
  unfold State.locked at h
  cases hs : s.tpc <;> simp [hs] at h ⊢

theorem pos_unlocked {s : State K} (h : s.locked = false) : s.pos = 0 := by
  rcases unlocked h with h | h <;> simp [State.pos, h]

theorem inv_cstep {cap : Nat} {r : Ret} {s s' : State K} (h : Inv cap s) (st : CStep cap r s s') :
    Inv cap s' := by
  cases st with
  | built _ hb =>
    exact { h with
      okDead := by intro ho; cases ho
      lost := fun hf => by have := (h.lost hf).2.2; rw [hb] at this; cases this
      unbuilt := fun h0 => by cases h0
      dead := fun _ _ _ => by
        exact (h.unbuilt hb).2
      wBuilt := fun _ => rfl }
  | shutdown _ hl hb =>
    exact { h with lost := fun hf => ⟨(h.lost hf).1, .inl rfl, (h.lost hf).2.2⟩
                   dead := by intro _ _ hx; cases hx }
  | write _ data hl hb hw ho =>
    exact { h with
      given := fun hf => by
        have := h.given hf
        rw [hw] at this
        simp only [Option.getD_none, List.append_nil] at this
        simp only [Option.getD_some, this]
      lost := fun hf => ⟨(h.lost hf).1.trans (List.prefix_append _ _), (h.lost hf).2⟩
      wBuilt := fun _ => hb }
  | writeBad _ hl hb hw ho => exact h
  | copy _ data hl hw hd hs ho hc =>
    have hpos := pos_unlocked hl
    have hnf : s.failed = false := by
      cases hf : s.failed with
      | false => rfl
      | true =>
        rcases (h.lost hf).2.1 with h1 | h1
        · rw [hs] at h1; cases h1
        · rw [ho] at h1; cases h1
    have hpos' : ∀ s' : State K, s'.tpc = s.tpc → s'.pos = 0 := by
      intro s' e; rw [← hpos]; simp [State.pos, e]
    exact { h with
      alive := fun hx => by
        have := h.alive hx
        rw [hpos] at this
        rw [hpos' { s with
          writing := some (data.drop (min data.length (cap - s.buf.length)))
          buf := s.buf ++ data.take (min data.length (cap - s.buf.length))
          accepted := s.accepted ++ data.take (min data.length (cap - s.buf.length)) } rfl]
        simp only [List.drop_zero] at this ⊢
        rw [← this]; simp only [List.append_assoc]
      prefx := h.prefx.trans (List.prefix_append _ _)
      posLe := by simp only [State.pos] at hpos ⊢; rw [hpos]; exact Nat.zero_le _
      given := fun _ => by
        have := h.given hnf
        rw [hw] at this
        simp only [Option.getD_some] at this ⊢
        rw [List.append_assoc, List.take_append_drop, this]
      lost := fun hf => by simp only [hnf] at hf; cases hf
      wBuilt := fun _ => h.wBuilt (by rw [hw]; simp)
      bufLe := by simp only [List.length_append, List.length_take]; omega
      finN := fun n hn => by have := h.finN n hn; simp only [List.length_append]; omega
      quiet := fun h1 h2 h3 h4 => by
        have e : State.pos { s with
          writing := some (data.drop (min data.length (cap - s.buf.length)))
          buf := s.buf ++ data.take (min data.length (cap - s.buf.length))
          accepted := s.accepted ++ data.take (min data.length (cap - s.buf.length)) } = 0 :=
          hpos' _ rfl
        rw [e] at h2
        simp only [List.drop_zero, List.append_eq_nil_iff] at h2
        exact h.quiet h1 (by rw [hpos]; exact h2.1) h3 h4 }
  | copyBad _ data hl hw hd hs =>
    refine { h with given := by intro hf; cases hf
                    lost := fun _ => ⟨?_, hs, h.wBuilt (by rw [hw]; simp)⟩
                    wBuilt := by intro hx; exact (hx rfl).elim }
    cases hf : s.failed with
    | false =>
      have := h.given hf
      simp only
      rw [this]; exact List.prefix_append _ _
    | true => exact (h.lost hf).1
  | written _ hl hw =>
    exact { h with
      given := fun hf => by have := h.given hf; rw [hw] at this; exact this
      wBuilt := by intro hx; exact (hx rfl).elim }
  | finish _ hl hb hf ho =>
    have hmode : ∀ m p, s.tpc ≠ .compress m p := by
      intro m p e; rcases unlocked hl with h | h <;> rw [h] at e <;> cases e
    exact { h with
      mode := fun m p hm => (hmode m p hm).elim
      finN := fun n hn => by injection hn with e; subst e; exact Nat.le_refl _
      finSent := by intro n _ hx; cases hx
      finLast := fun _ _ _ => rfl
      sentLast := by intro hx; cases hx
      nframes := by have := h.nframes; simp only; split at this <;> simp <;> omega
      sentFrames := by intro hx; cases hx
      unbuilt := fun h0 => by simp only [hb] at h0; cases h0
      dead := fun _ _ _ => rfl
      quiet := by intro _ _ hx; cases hx }
  | finishBad _ hl hb hf ho => exact h
  | finished _ n hl hf hs hx =>
    exact { h with
      finN := by intro n hn; cases hn
      finSent := by intro n hn; cases hn
      finLast := by intro n hn; cases hn }
  | finishedShutdown _ n hl hf hs =>
    exact { h with
      finN := by intro n hn; cases hn
      finSent := by intro n hn; cases hn
      finLast := by intro n hn; cases hn }

theorem inv {cap : Nat} {s : State K} (h : Reach K cap s) : Inv cap s := by
  induction h with
  | init => exact inv_init K cap
  | step _ st ih =>
    cases st with
    | t st => exact inv_tstep ih st
    | c st => exact inv_cstep ih st

/-! ### Safety -/

/-- **C49.**  In every schedule, for every buffer size and every way the compressor splits its
input: what the compressor has been given (the data of the finished frames followed by that of the
current one) is a prefix of what the calls of `Write` were given; and as long as the thread is
running and no `Write` failed, nothing is lost or reordered on the way: the compressor's data,
the buffered rest, and what the running `Write` still has to copy make up exactly the data
given. -/
theorem C49_in_order {cap : Nat} {s : State K} (h : Reach K cap s) :
    frameData s.frames ++ s.cur <+: s.given ∧
    (s.tpc ≠ .dead → s.failed = false →
      frameData s.frames ++ s.cur ++ s.buf.drop s.pos ++ s.writing.getD [] = s.given) := by
  have hi := inv h
  refine ⟨?_, fun hd hf => by rw [hi.alive hd, hi.given hf]⟩
  refine hi.prefx.trans ?_
  cases hf : s.failed with
  | false => rw [hi.given hf]; exact List.prefix_append _ _
  | true => exact (hi.lost hf).1

/-- What an OK of `Finish` means for the state. -/
theorem finishOk_facts {cap : Nat} {s s' : State K} (st : CStep cap .finishOk s s') :
    s.locked = false ∧ (∃ n, s.finishing = some n) ∧ s.ok = true ∧ s.lastSent = true ∧
      s.shutdown = false := by
  generalize hr : Ret.finishOk = r at st
  cases st with
  | finished _ n hl hf hs hx =>
    have hok : s.ok = true := by
      cases ho : s.ok with
      | true => rfl
      | false => rw [ho] at hr; simp at hr
    refine ⟨hl, ⟨n, hf⟩, hok, ?_, hs⟩
    rcases hx with hx | hx
    · exact hx
    · rw [hok] at hx; cases hx
  | _ => cases hr

/-- **C49.**  When `Finish` returns OK, all data copied into the stream before `Finish` was called
is in complete frames, and these frames have been handed to the socket in full, in order. -/
theorem C49_finish {cap : Nat} {s s' : State K} (h : Reach K cap s)
    (st : CStep cap .finishOk s s') :
    ∃ n, s.finishing = some n ∧ n ≤ (frameData s.frames).length ∧
      frameData s.frames <+: s.accepted ∧ frameOut s.frames <+: s.sent ∧
      ∀ f ∈ s.frames, K.frame f.1 f.2 := by
  have hi := inv h
  obtain ⟨hl, ⟨n, hf⟩, hok, hls, _⟩ := finishOk_facts st
  exact ⟨n, hf, hi.finSent n hf hls, (List.prefix_append _ _).trans hi.prefx,
    by rw [hi.sentEq]; exact List.prefix_append _ _, hi.frames⟩

/-- **C49.**  If no `Write` ran concurrently and none failed, then when `Finish` returns OK the
socket has been given exactly the complete frames, whose data is exactly the data written. -/
theorem C49_finish_all {cap : Nat} {s s' : State K} (h : Reach K cap s)
    (st : CStep cap .finishOk s s') (hw : s.writing = none)
    (hf : s.failed = false) (hn : s.finishing = some s.accepted.length) :
    frameData s.frames = s.given ∧ s.sent = frameOut s.frames ∧ s.buf = [] := by
  have hi := inv h
  obtain ⟨n, hfn, hle, hpre, _, _⟩ := C49_finish h st
  obtain ⟨hl, _, hok, hls, hsh⟩ := finishOk_facts st
  have hlive : s.tpc ≠ .dead := fun hd => by
    have := hi.dead hd hok hsh; rw [hls] at this; cases this
  rw [hn] at hfn
  injection hfn with e
  subst e
  have hg := hi.given hf
  rw [hw] at hg
  simp only [Option.getD_none, List.append_nil] at hg
  have hfd : frameData s.frames = s.accepted := hpre.eq_of_length (by have := hpre.length_le; omega)
  have ha := hi.alive hlive
  rw [hfd, pos_unlocked hl, List.append_assoc] at ha
  have ha' : s.cur ++ s.buf.drop 0 = [] := by
    have := congrArg List.length ha
    simp only [List.length_append] at this
    exact List.eq_nil_of_length_eq_zero (by simp only [List.length_append]; omega)
  simp only [List.drop_zero, List.append_eq_nil_iff] at ha'
  refine ⟨hfd.trans hg.symm, ?_, ha'.2⟩
  rw [hi.sentEq, hi.quiet ha'.1 (by rw [ha'.2]; simp) (hi.sentLast hls) hlive, List.append_nil]

/-! ### Progress -/

/-- `Finish` can return now. -/
def FinishEnabled (s : State K) : Prop :=
  s.locked = false ∧ (s.shutdown = true ∨ s.lastSent = true ∨ s.ok = false)

/-- A running `Write` with data left can go on now (or fail). -/
def WriteEnabled (cap : Nat) (s : State K) : Prop :=
  s.locked = false ∧ (s.shutdown = true ∨ s.buf.length < cap ∨ s.ok = false)

/-- Rank for waiting for `Finish`. -/
def finRank (s : State K) : Nat × Nat := match s.tpc with
  | .compress m p => (if m = .fin then 0 else 2, K.fuel s.c m (s.buf.drop p))
  | .top => (1, 0)
  | .dead => (0, 0)

/-- Rank for waiting for space. -/
def wrRank (s : State K) : Nat × Nat := match s.tpc with
  | .compress m p => (0, K.fuel s.c m (s.buf.drop p))
  | .top => (1, 0)
  | .dead => (0, 0)

/-- A thread step before `Finish` can return. -/
def FinWait (cap : Nat) (s' s : State K) : Prop :=
  TStep cap s s' ∧ ¬ FinishEnabled s ∧ ¬ FinishEnabled s' ∧ (s.last = true ∨ s.lastSent = true)

theorem not_finished {m : Mode} {b : Bytes} {pos k r : Nat}
    (hp : pos ≤ b.length) (h : ¬ finished m b.length (pos + k) r) :
    ¬(if m = .cont then k = (b.drop pos).length else r = 0) := by
  intro h2
  apply h
  unfold finished
  rw [List.length_drop] at h2
  split <;> rename_i hm
  · rw [if_pos hm] at h2; omega
  · rw [if_neg hm] at h2; exact h2

theorem finRank_decreases {cap : Nat} {s s' : State K} (hi : Inv cap s)
    (h : FinWait cap s' s) : Prod.Lex (· < ·) (· < ·) (finRank s') (finRank s) := by
  obtain ⟨st, hne0, hne, hl⟩ := h
  cases st with
  | stop ht hs => exact (hne ⟨rfl, .inl hs⟩).elim
  | wake ht hs =>
    have hl : s.last = true := by
      rcases hl with hl | hl
      · exact hl
      · exact (hne0 ⟨by simp [State.locked, ht], .inr (.inl hl)⟩).elim
    have : mode cap s = .fin := by simp [mode, hl]
    simp only [finRank, ht, this]
    exact Prod.Lex.left _ _ (by decide)
  | more m pos c' k out r ht hc hf =>
    have hp := hi.posLe
    rw [pos_compress ht] at hp
    have := K.progress hc (not_finished hp hf)
    simp only [finRank, ht]
    rw [List.drop_drop] at this
    exact Prod.Lex.right _ this
  | endIter m pos c' k out r ht hc hf hl' =>
    rcases hl with hl | hl
    · rw [hl] at hl'; cases hl'
    · exact (hne ⟨rfl, .inr (.inl hl)⟩).elim
  | endLast m pos c' k out r ht hc hf hl' => exact (hne ⟨rfl, .inr (.inl rfl)⟩).elim
  | compressError m pos ht => exact (hne ⟨rfl, .inr (.inr rfl)⟩).elim
  | sendError m pos c' k out r n ht hc ho => exact (hne ⟨rfl, .inr (.inr rfl)⟩).elim

theorem lex_wf : WellFounded (Prod.Lex (α := Nat) (β := Nat) (· < ·) (· < ·)) :=
  (Prod.lex ⟨_, Nat.lt_wfRel.wf⟩ ⟨_, Nat.lt_wfRel.wf⟩).wf

/-- No infinite descent. -/
theorem no_descent (f : Nat → Nat × Nat)
    (h : ∀ i, Prod.Lex (· < ·) (· < ·) (f (i + 1)) (f i)) : False := by
  have : ∀ x : Nat × Nat, ∀ i, f i = x → False := by
    intro x
    induction x using lex_wf.induction with
    | _ x ih => intro i e; exact ih (f (i + 1)) (e ▸ h i) (i + 1) rfl
  exact this _ 0 rfl

theorem reach_seq {cap : Nat} {f : Nat → State K} (h : Reach K cap (f 0))
    (hf : ∀ i, TStep cap (f i) (f (i + 1))) (i : Nat) : Reach K cap (f i) := by
  induction i with
  | zero => exact h
  | succ i ih => exact .step ih (.t (hf i))

/-- What thread steps keep. -/
theorem tstep_keeps {cap : Nat} {s s' : State K} (st : TStep cap s s') :
    s'.finishing = s.finishing ∧ s'.writing = s.writing ∧ s'.shutdown = s.shutdown ∧
    (s.last = true ∨ s.lastSent = true → s'.last = true ∨ s'.lastSent = true) := by
  cases st with
  | endLast m pos c' k out r ht hc hf hl =>
    exact ⟨rfl, rfl, rfl, fun _ => .inr rfl⟩
  | _ => exact ⟨rfl, rfl, rfl, fun h => h⟩

/-- The thread can move unless it has ended. -/
theorem thread_moves {cap : Nat} {s : State K} (h : s.tpc ≠ .dead) : ∃ s', TStep cap s s' := by
  cases ht : s.tpc with
  | dead => exact (h ht).elim
  | compress m p => exact ⟨_, .compressError s m p ht⟩
  | top =>
    cases hs : s.shutdown with
    | true => exact ⟨_, .stop s ht hs⟩
    | false => exact ⟨_, .wake s ht hs⟩

/-- **C49.**  `Finish` returns: in every infinite sequence of steps of the compressor thread that
starts while `Finish` is waiting, it becomes able to return; the thread only stops moving when it
has ended, and then, unless it ended before the constructor did (see the violation below), `Finish`
can return as well. -/
theorem C49_finish_returns {cap : Nat} {s : State K} {n : Nat} (h : Reach K cap s)
    (hf : s.finishing = some n) :
    (∀ f : Nat → State K, f 0 = s → (∀ i, TStep cap (f i) (f (i + 1))) →
      ∃ i, FinishEnabled (f i)) ∧
    ((∀ s', ¬ TStep cap s s') → s.tpc = .dead) ∧
    (FinishEnabled s → ∃ r s', CStep cap r s s' ∧ s'.finishing = none) := by
  refine ⟨?_, ?_, ?_⟩
  · intro f h0 hst
    apply Classical.byContradiction
    intro hno
    have hno : ∀ i, ¬ FinishEnabled (f i) := fun i hi => hno ⟨i, hi⟩
    have hr := fun i => reach_seq (f := f) (h0 ▸ h) hst i
    have hfin : ∀ i, (f i).finishing = some n := by
      intro i
      induction i with
      | zero => rw [h0]; exact hf
      | succ i ih => rw [(tstep_keeps (hst i)).1]; exact ih
    have hlast : ∀ i, (f i).last = true ∨ (f i).lastSent = true := by
      intro i
      induction i with
      | zero =>
        cases hls : (f 0).lastSent with
        | false => exact .inl ((inv (hr 0)).finLast n (hfin 0) hls)
        | true => exact .inr rfl
      | succ i ih => exact (tstep_keeps (hst i)).2.2.2 ih
    exact no_descent (fun i => finRank (f i)) fun i =>
      finRank_decreases (inv (hr i)) ⟨hst i, hno i, hno (i + 1), hlast i⟩
  · intro hst
    cases ht : s.tpc with
    | dead => rfl
    | _ =>
      obtain ⟨s', h'⟩ := thread_moves (cap := cap) (s := s) (by rw [ht]; simp)
      exact (hst s' h').elim
  · rintro ⟨hl, he⟩
    cases hs : s.shutdown with
    | true => exact ⟨_, _, .finishedShutdown s n hl hf hs, rfl⟩
    | false =>
      refine ⟨_, _, .finished s n hl hf hs ?_, rfl⟩
      rcases he with he | he
      · rw [hs] at he; cases he
      · exact he

theorem wrRank_decreases {cap : Nat} {s s' : State K} (hcap : 0 < cap) (hi : Inv cap s)
    (st : TStep cap s s') (hne : ¬ WriteEnabled cap s') :
    Prod.Lex (· < ·) (· < ·) (wrRank s') (wrRank s) := by
  cases st with
  | stop ht hs => exact (hne ⟨rfl, .inl hs⟩).elim
  | wake ht hs =>
    simp only [wrRank, ht]
    exact Prod.Lex.left _ _ (by decide)
  | more m pos c' k out r ht hc hf =>
    have hp := hi.posLe
    rw [pos_compress ht] at hp
    have := K.progress hc (not_finished hp hf)
    simp only [wrRank, ht]
    rw [List.drop_drop] at this
    exact Prod.Lex.right _ this
  | endIter m pos c' k out r ht hc hf hl => exact (hne ⟨rfl, .inr (.inl hcap)⟩).elim
  | endLast m pos c' k out r ht hc hf hl => exact (hne ⟨rfl, .inr (.inl hcap)⟩).elim
  | compressError m pos ht => exact (hne ⟨rfl, .inr (.inr rfl)⟩).elim
  | sendError m pos c' k out r n ht hc ho => exact (hne ⟨rfl, .inr (.inr rfl)⟩).elim

/-- **C49.**  A `Write` that waits for space gets on: in every infinite sequence of steps of the
compressor thread it becomes able to continue, and then one more step of `Write` copies data or
returns an error. -/
theorem C49_write_returns {cap : Nat} {s : State K} {data : Bytes} (hcap : 0 < cap)
    (h : Reach K cap s) (hw : s.writing = some data) (hd : data ≠ []) :
    (∀ f : Nat → State K, f 0 = s → (∀ i, TStep cap (f i) (f (i + 1))) →
      ∃ i, WriteEnabled cap (f i)) ∧
    (WriteEnabled cap s → ∃ r s', CStep cap r s s' ∧
      (s'.writing = none ∨ ∃ rest, s'.writing = some rest ∧ rest.length < data.length)) := by
  constructor
  · intro f h0 hst
    apply Classical.byContradiction
    intro hno
    have hno : ∀ i, ¬ WriteEnabled cap (f i) := fun i hi => hno ⟨i, hi⟩
    have hr := fun i => reach_seq (f := f) (h0 ▸ h) hst i
    exact no_descent (fun i => wrRank (f i)) fun i =>
      wrRank_decreases hcap (inv (hr i)) (hst i) (hno (i + 1))
  · rintro ⟨hl, he⟩
    by_cases hbad : s.shutdown = true ∨ s.ok = false
    · exact ⟨_, _, .copyBad s data hl hw hd hbad, .inl rfl⟩
    · have hs : s.shutdown = false := by
        cases hs : s.shutdown with
        | false => rfl
        | true => exact (hbad (.inl hs)).elim
      have ho : s.ok = true := by
        cases ho : s.ok with
        | true => rfl
        | false => exact (hbad (.inr ho)).elim
      have hc : s.buf.length < cap := by
        rcases he with h | h | h
        · rw [hs] at h; cases h
        · exact h
        · rw [ho] at h; cases h
      refine ⟨_, _, .copy s data hl hw hd hs ho hc, .inr ⟨_, rfl, ?_⟩⟩
      have : 0 < data.length := List.length_pos_iff.mpr hd
      simp only [List.length_drop]; omega

/-! ### An error before the constructor's assignment is lost -/

/-- Steps of anybody except the destructor. -/
inductive Run (cap : Nat) : State K → State K → Prop where
  | refl (s : State K) : Run cap s s
  | step {s s' s'' : State K} : Run cap s s' → Step cap s' s'' → s''.shutdown = false →
      Run cap s s''

/-- **C97, violated.**  The compressor thread starts before the constructor assigns `status_`
(line 38, without the mutex).  If the thread fails before that, its error is overwritten with OK
and `Finish`, called later, can never return, whatever happens short of destroying the stream. -/
theorem C97_startup_error_lost_violated (K : Codec) (cap : Nat) :
    ∃ s : State K, Reach K cap s ∧ s.finishing = some 0 ∧ s.shutdown = false ∧
      ∀ s', Run cap s s' → s'.finishing = some 0 ∧ ¬ FinishEnabled s' := by
  refine ⟨_, .step (.step (.step (.step .init
    (.t (.wake _ rfl rfl))) (.t (.compressError _ (mode cap (init K)) 0 rfl)))
    (.c (.built _ rfl))) (.c (.finish _ rfl rfl rfl rfl)), rfl, rfl, ?_⟩
  intro s' hr
  have key : s'.tpc = .dead ∧ s'.ok = true ∧ s'.lastSent = false ∧ s'.shutdown = false ∧
      s'.finishing = some 0 ∧ s'.built = true := by
    induction hr with
    | refl => exact ⟨rfl, rfl, rfl, rfl, rfl, rfl⟩
    | step _ st hs ih =>
      obtain ⟨h1, h2, h3, h4, h5, h6⟩ := ih
      cases st with
      | t st =>
        cases st with
        | stop ht => rw [h1] at ht; cases ht
        | wake ht => rw [h1] at ht; cases ht
        | more _ _ _ _ _ _ ht => rw [h1] at ht; cases ht
        | endIter _ _ _ _ _ _ ht => rw [h1] at ht; cases ht
        | endLast _ _ _ _ _ _ ht => rw [h1] at ht; cases ht
        | compressError _ _ ht => rw [h1] at ht; cases ht
        | sendError _ _ _ _ _ _ _ ht => rw [h1] at ht; cases ht
      | c st =>
        cases st with
        | built _ hb => rw [h6] at hb; cases hb
        | finish _ _ _ hf => rw [h5] at hf; cases hf
        | finished _ n _ _ _ hx =>
          rcases hx with hx | hx
          · rw [h3] at hx; cases hx
          · rw [h2] at hx; cases hx
        | finishedShutdown _ n _ _ hx => rw [h4] at hx; cases hx
        | shutdown => cases hs
        | _ => exact ⟨h1, h2, h3, h4, h5, h6⟩
  obtain ⟨h1, h2, h3, h4, h5, h6⟩ := key
  refine ⟨h5, ?_⟩
  rintro ⟨_, h | h | h⟩
  · rw [h4] at h; cases h
  · rw [h3] at h; cases h
  · rw [h2] at h; cases h

/-- Except for that, a thread that ended lets `Finish` return: if the constructor had returned
before the thread did anything wrong, a dead thread means an error or shutdown. -/
theorem C97_dead_thread_reported_partial {cap : Nat} {s : State K} (h : ReachB K cap s)
    (hd : s.tpc = .dead) : FinishEnabled s := by
  have key : s.built = true ∧ (s.tpc = .dead → s.shutdown = true ∨ s.ok = false) := by
    clear hd
    induction h with
    | init => exact ⟨rfl, fun h => by cases h⟩
    | step _ st ih =>
      cases st with
      | t st =>
        refine ⟨?_, ?_⟩
        · cases st <;> exact ih.1
        · cases st with
          | stop ht hs => exact fun _ => .inl hs
          | compressError => exact fun _ => .inr rfl
          | sendError => exact fun _ => .inr rfl
          | _ => intro h; cases h
      | c st =>
        cases st with
        | built _ hb => rw [ih.1] at hb; cases hb
        | shutdown => exact ⟨ih.1, fun _ => .inl rfl⟩
        | _ => exact ih
  refine ⟨by simp [State.locked, hd], ?_⟩
  rcases key.2 hd with h | h
  · exact .inl h
  · exact .inr (.inr h)

end Verif.Threads.Zstd
