import Verif.Threads.Zstd
/-
Model of the decompression stream (cdc_rsync_server/unzstd_stream.cc:34-75) and the end-to-end
statement: what the server reads is what the client wrote.
-/
namespace Verif.Threads.Zstd

/-- What zstd's documentation promises about `ZSTD_decompressStream`, for frames of codec `K`.
`call x inp cap x' k out r`: on unread input `inp` with `cap` bytes of room it consumes `k` bytes,
writes `out` and returns `r` (0: frame complete and fully written).  `fails`: returns an error.
`inside x o d`: inside a frame of which the compressed bytes `o` have not been consumed and the data
`d` has not been written yet. -/
structure Decoder (K : Codec) where
  D : Type
  init : D
  call : D → Bytes → Nat → D → Nat → Bytes → Nat → Prop
  fails : D → Bytes → Nat → Prop
  inside : D → Bytes → Bytes → Prop
  inside_init : ∀ {d o}, K.frame d o → inside init o d
  /-- no error on a prefix of a valid frame, and the call returns -/
  no_fail : ∀ {x o d inp cap}, inside x o d → inp <+: o → 0 < cap →
    ¬ fails x inp cap ∧ ∃ x' k out r, call x inp cap x' k out r
  bounds : ∀ {x o d inp cap x' k out r}, inside x o d → inp <+: o → 0 < cap →
    call x inp cap x' k out r → k ≤ inp.length ∧ out.length ≤ cap ∧ out <+: d
  done : ∀ {x o d inp cap x' k out}, inside x o d → inp <+: o → 0 < cap →
    call x inp cap x' k out 0 → k = o.length ∧ out = d
  goes_on : ∀ {x o d inp cap x' k out r}, inside x o d → inp <+: o → 0 < cap →
    call x inp cap x' k out r → r ≠ 0 → inside x' (o.drop k) (d.drop out.length)
  /-- stops only for lack of input or of room -/
  greedy : ∀ {x o d inp cap x' k out r}, inside x o d → inp <+: o → 0 < cap →
    call x inp cap x' k out r → r ≠ 0 → k = inp.length ∨ out.length = cap
  /-- with all of the frame and room left it completes -/
  complete : ∀ {x o d inp cap x' k out r}, inside x o d → inp <+: o → 0 < cap →
    call x inp cap x' k out r → k = o.length → out.length < cap → r = 0

/-- The stream object: `dctx_`, the unread part of `input_`, and what the socket will deliver, one
element per `Receive` (arbitrary partial reads). -/
structure RState {K : Codec} (U : Decoder K) where
  x : U.D
  inp : Bytes
  net : List Bytes

/-- Result of `Read`. -/
inductive RRes {K : Codec} (U : Decoder K) where
  /-- OK with `*bytes_read` bytes in the buffer and `*eof` -/
  | ok (s : RState U) (out : Bytes) (eof : Bool)
  /-- line 47 -/
  | badData
  /-- line 53 -/
  | trailing
  /-- line 65: nothing more arrives (connection closed) -/
  | socketError

/-- The loop of `Read` (lines 43-74) with `acc` already in the output buffer of size `cap`. -/
inductive ReadLoop {K : Codec} (U : Decoder K) (cap : Nat) :
    RState U → Bytes → RRes U → Prop where
  /-- output buffer full (lines 43, 73) -/
  | full (s : RState U) (acc : Bytes) (h : ¬ acc.length < cap) : ReadLoop U cap s acc (.ok s acc false)
  /-- lines 46-49 -/
  | bad (s : RState U) (acc : Bytes) (h : acc.length < cap)
      (hf : U.fails s.x s.inp (cap - acc.length)) : ReadLoop U cap s acc .badData
  /-- end of frame (lines 51, 73) -/
  | eof (s : RState U) (acc : Bytes) (x' : U.D) (k : Nat) (out : Bytes) (h : acc.length < cap)
      (hc : U.call s.x s.inp (cap - acc.length) x' k out 0) (hk : ¬ k < s.inp.length) :
      ReadLoop U cap s acc (.ok { s with x := x', inp := s.inp.drop k } (acc ++ out) true)
  /-- lines 52-55 -/
  | trail (s : RState U) (acc : Bytes) (x' : U.D) (k : Nat) (out : Bytes) (h : acc.length < cap)
      (hc : U.call s.x s.inp (cap - acc.length) x' k out 0) (hk : k < s.inp.length) :
      ReadLoop U cap s acc .trailing
  /-- lines 57-69: get more input -/
  | receive (s : RState U) (acc : Bytes) (x' : U.D) (k : Nat) (out : Bytes) (r : Nat) (b : Bytes)
      (net : List Bytes) (res : RRes U) (h : acc.length < cap)
      (hc : U.call s.x s.inp (cap - acc.length) x' k out r) (hr : r ≠ 0)
      (hk : k = s.inp.length ∧ (acc ++ out).length < cap) (hn : s.net = b :: net)
      (next : ReadLoop U cap { x := x', inp := b, net := net } (acc ++ out) res) :
      ReadLoop U cap s acc res
  /-- lines 64-66 -/
  | closed (s : RState U) (acc : Bytes) (x' : U.D) (k : Nat) (out : Bytes) (r : Nat)
      (h : acc.length < cap)
      (hc : U.call s.x s.inp (cap - acc.length) x' k out r) (hr : r ≠ 0)
      (hk : k = s.inp.length ∧ (acc ++ out).length < cap) (hn : s.net = []) :
      ReadLoop U cap s acc .socketError
  /-- next pass without receiving (lines 43, 57) -/
  | again (s : RState U) (acc : Bytes) (x' : U.D) (k : Nat) (out : Bytes) (r : Nat) (res : RRes U)
      (h : acc.length < cap)
      (hc : U.call s.x s.inp (cap - acc.length) x' k out r) (hr : r ≠ 0)
      (hk : ¬(k = s.inp.length ∧ (acc ++ out).length < cap))
      (next : ReadLoop U cap { s with x := x', inp := s.inp.drop k } (acc ++ out) res) :
      ReadLoop U cap s acc res

/-- `Read` with a buffer of `cap` bytes (lines 34-42). -/
def Read {K : Codec} (U : Decoder K) (cap : Nat) (s : RState U) (res : RRes U) : Prop :=
  ReadLoop U cap s [] res

variable {K : Codec} {U : Decoder K}

/-- All the compressed bytes still to come. -/
def RState.rest (s : RState U) : Bytes := s.inp ++ s.net.flatten

/-- What a good result looks like when `d` was still to be read. -/
def Good (cap : Nat) (acc d : Bytes) : RRes U → Prop
  | .ok s' out eof => ∃ got, out = acc ++ got ∧
      (if eof then got = d ∧ s'.rest = []
       else out.length = cap ∧ got <+: d ∧ U.inside s'.x s'.rest (d.drop got.length))
  | _ => False

theorem inp_prefix (s : RState U) : s.inp <+: s.rest := List.prefix_append _ _

theorem readLoop_good {cap : Nat} {s : RState U} {acc : Bytes} {res : RRes U}
    (h : ReadLoop U cap s acc res) : ∀ {d : Bytes}, acc.length ≤ cap → U.inside s.x s.rest d →
    Good cap acc d res := by
  induction h with
  | full s acc h =>
    intro d ha hi
    exact ⟨[], by simp, by simp; exact ⟨by omega, hi⟩⟩
  | bad s acc h hf =>
    intro d ha hi
    exact ((U.no_fail hi (inp_prefix s) (by omega)).1 hf).elim
  | eof s acc x' k out h hc hk =>
    intro d ha hi
    have hp : 0 < cap - acc.length := by omega
    obtain ⟨h1, h2⟩ := U.done hi (inp_prefix s) hp hc
    have h3 := (U.bounds hi (inp_prefix s) hp hc).1
    refine ⟨out, rfl, ?_⟩
    simp only [if_true]
    refine ⟨h2, ?_⟩
    simp only [RState.rest, List.length_append] at h1 ⊢
    have : s.net.flatten = [] := List.eq_nil_of_length_eq_zero (by omega)
    rw [this, List.append_nil]
    exact List.drop_eq_nil_of_le (by omega)
  | trail s acc x' k out h hc hk =>
    intro d ha hi
    have hp : 0 < cap - acc.length := by omega
    obtain ⟨h1, h2⟩ := U.done hi (inp_prefix s) hp hc
    simp only [RState.rest, List.length_append] at h1
    omega
  | receive s acc x' k out r b net res h hc hr hk hn next ih =>
    intro d ha hi
    have hp : 0 < cap - acc.length := by omega
    have hg := U.goes_on hi (inp_prefix s) hp hc hr
    obtain ⟨_, _, hpre⟩ := U.bounds hi (inp_prefix s) hp hc
    have hrest : s.rest.drop k = b ++ net.flatten := by
      rw [RState.rest, hk.1, List.drop_left, hn, List.flatten_cons]
    rw [hrest] at hg
    have := ih (d := d.drop out.length) (by omega) hg
    cases res with
    | ok s' o e =>
      obtain ⟨got, h1, h2⟩ := this
      refine ⟨out ++ got, by rw [h1, List.append_assoc], ?_⟩
      cases e with
      | true =>
        simp only [if_true] at h2 ⊢
        refine ⟨?_, h2.2⟩
        rw [h2.1]
        obtain ⟨t, rfl⟩ := hpre
        rw [List.drop_left]
      | false =>
        simp only [Bool.false_eq_true, if_false] at h2 ⊢
        refine ⟨h2.1, ?_, ?_⟩
        · obtain ⟨t, rfl⟩ := hpre
          rw [List.drop_left] at h2
          exact (List.prefix_append_right_inj out).mpr h2.2.1
        · rw [List.length_append, ← List.drop_drop]; exact h2.2.2
    | _ => exact this
  | closed s acc x' k out r h hc hr hk hn =>
    intro d ha hi
    have hp : 0 < cap - acc.length := by omega
    have hlen := hk.2
    rw [List.length_append] at hlen
    refine hr (U.complete hi (inp_prefix s) hp hc ?_ (by omega))
    simp only [RState.rest, hn, List.flatten_nil, List.append_nil]
    exact hk.1
  | again s acc x' k out r res h hc hr hk next ih =>
    intro d ha hi
    have hp : 0 < cap - acc.length := by omega
    have hg := U.goes_on hi (inp_prefix s) hp hc hr
    obtain ⟨hkl, hol, hpre⟩ := U.bounds hi (inp_prefix s) hp hc
    have hrest : s.rest.drop k = s.inp.drop k ++ s.net.flatten := by
      rw [RState.rest, List.drop_append_of_le_length hkl]
    rw [hrest] at hg
    have := ih (d := d.drop out.length) (by simp only [List.length_append]; omega) hg
    cases res with
    | ok s' o e =>
      obtain ⟨got, h1, h2⟩ := this
      refine ⟨out ++ got, by rw [h1, List.append_assoc], ?_⟩
      cases e with
      | true =>
        simp only [if_true] at h2 ⊢
        refine ⟨?_, h2.2⟩
        rw [h2.1]
        obtain ⟨t, rfl⟩ := hpre
        rw [List.drop_left]
      | false =>
        simp only [Bool.false_eq_true, if_false] at h2 ⊢
        refine ⟨h2.1, ?_, ?_⟩
        · obtain ⟨t, rfl⟩ := hpre
          rw [List.drop_left] at h2
          exact (List.prefix_append_right_inj out).mpr h2.2.1
        · rw [List.length_append, ← List.drop_drop]; exact h2.2.2
    | _ => exact this

/-- `Read` returns: the loop cannot go on forever. -/
theorem readLoop_exists {cap : Nat} : ∀ (net : List Bytes) (s : RState U) (acc d : Bytes),
    s.net = net → U.inside s.x s.rest d → acc.length ≤ cap → ∃ res, ReadLoop U cap s acc res := by
  intro net
  induction net with
  | nil =>
    intro s acc d hn hi ha
    by_cases h : acc.length < cap
    · have hp : 0 < cap - acc.length := by omega
      obtain ⟨_, x', k, out, r, hc⟩ := U.no_fail hi (inp_prefix s) hp
      by_cases hr : r = 0
      · subst hr
        by_cases hk : k < s.inp.length
        · exact ⟨_, .trail s acc x' k out h hc hk⟩
        · exact ⟨_, .eof s acc x' k out h hc hk⟩
      · by_cases hk : k = s.inp.length ∧ (acc ++ out).length < cap
        · exact ⟨_, .closed s acc x' k out r h hc hr hk hn⟩
        · have hb := U.bounds hi (inp_prefix s) hp hc
          have hfull : ¬ (acc ++ out).length < cap := by
            intro hlt
            rw [List.length_append] at hlt
            rcases U.greedy hi (inp_prefix s) hp hc hr with e | e
            · exact hk ⟨e, by rw [List.length_append]; exact hlt⟩
            · omega
          exact ⟨_, .again s acc x' k out r _ h hc hr hk (.full _ _ hfull)⟩
    · exact ⟨_, .full s acc h⟩
  | cons b net ih =>
    intro s acc d hn hi ha
    by_cases h : acc.length < cap
    · have hp : 0 < cap - acc.length := by omega
      obtain ⟨_, x', k, out, r, hc⟩ := U.no_fail hi (inp_prefix s) hp
      by_cases hr : r = 0
      · subst hr
        by_cases hk : k < s.inp.length
        · exact ⟨_, .trail s acc x' k out h hc hk⟩
        · exact ⟨_, .eof s acc x' k out h hc hk⟩
      · have hb := U.bounds hi (inp_prefix s) hp hc
        by_cases hk : k = s.inp.length ∧ (acc ++ out).length < cap
        · have hg := U.goes_on hi (inp_prefix s) hp hc hr
          have hrest : s.rest.drop k = b ++ net.flatten := by
            rw [RState.rest, hk.1, List.drop_left, hn, List.flatten_cons]
          rw [hrest] at hg
          obtain ⟨res, hres⟩ := ih { x := x', inp := b, net := net } (acc ++ out) _ rfl hg (by omega)
          exact ⟨res, .receive s acc x' k out r b net res h hc hr hk hn hres⟩
        · have hfull : ¬ (acc ++ out).length < cap := by
            intro hlt
            rw [List.length_append] at hlt
            rcases U.greedy hi (inp_prefix s) hp hc hr with e | e
            · exact hk ⟨e, by rw [List.length_append]; exact hlt⟩
            · omega
          exact ⟨_, .again s acc x' k out r _ h hc hr hk (.full _ _ hfull)⟩
    · exact ⟨_, .full s acc h⟩

/-- A sequence of calls of `Read` with the given buffer sizes, stopping at the first end-of-frame or
error: the bytes they delivered and how it ended (`some true`: eof, `some false`: all calls done
without eof, `none`: an error). -/
inductive Reads (U : Decoder K) : RState U → List Nat → Bytes → Option Bool → Prop where
  | nil (s : RState U) : Reads U s [] [] (some false)
  | eof (s s' : RState U) (cap : Nat) (caps : List Nat) (out : Bytes)
      (h : Read U cap s (.ok s' out true)) : Reads U s (cap :: caps) out (some true)
  | more (s s' : RState U) (cap : Nat) (caps : List Nat) (out rest : Bytes) (e : Option Bool)
      (h : Read U cap s (.ok s' out false)) (next : Reads U s' caps rest e) :
      Reads U s (cap :: caps) (out ++ rest) e
  | error (s : RState U) (cap : Nat) (caps : List Nat) (res : RRes U)
      (h : Read U cap s res) (hr : ∀ s' out e, res ≠ .ok s' out e) : Reads U s (cap :: caps) [] none

theorem reads_good {s : RState U} {caps : List Nat} {out : Bytes} {e : Option Bool}
    (h : Reads U s caps out e) : ∀ {d : Bytes}, U.inside s.x s.rest d → (∀ c ∈ caps, 0 < c) →
    (e = some true ∧ out = d) ∨ (e = some false ∧ out <+: d ∧ caps.length ≤ out.length) := by
  induction h with
  | nil s => intro d hi hc; exact .inr ⟨rfl, by simp, by simp⟩
  | eof s s' cap caps out h =>
    intro d hi hc
    obtain ⟨got, h1, h2⟩ := readLoop_good h (by simp) hi
    simp only [if_true] at h2
    exact .inl ⟨rfl, by rw [h1, List.nil_append]; exact h2.1⟩
  | more s s' cap caps out rest e h next ih =>
    intro d hi hc
    obtain ⟨got, h1, h2⟩ := readLoop_good h (by simp) hi
    simp only [Bool.false_eq_true, if_false, List.nil_append] at h1 h2
    subst h1
    have hcap := hc cap (by simp)
    obtain ⟨t, ht⟩ := h2.2.1
    have hd : d.drop out.length = t := by rw [← ht, List.drop_left]
    rcases ih h2.2.2 (fun c h => hc c (by simp [h])) with ⟨e1, e2⟩ | ⟨e1, e2, e3⟩
    · refine .inl ⟨e1, ?_⟩
      rw [e2, hd, ht]
    · refine .inr ⟨e1, ?_, ?_⟩
      · rw [← ht]; rw [hd] at e2
        exact (List.prefix_append_right_inj out).mpr e2
      · simp only [List.length_cons, List.length_append]; omega
  | error s cap caps res h hr =>
    intro d hi hc
    have := readLoop_good h (by simp) hi
    cases res with
    | ok s' o e => exact (hr s' o e rfl).elim
    | _ => exact this.elim

theorem reads_exists (caps : List Nat) : ∀ (s : RState U) (d : Bytes), U.inside s.x s.rest d →
    ∃ out e, Reads U s caps out e := by
  induction caps with
  | nil => intro s d _; exact ⟨_, _, .nil s⟩
  | cons cap caps ih =>
    intro s d hi
    obtain ⟨res, hres⟩ := readLoop_exists s.net s [] d rfl hi (Nat.zero_le cap)
    have hg := readLoop_good hres (by simp) hi
    cases res with
    | ok s' o e =>
      cases e with
      | true => exact ⟨_, _, .eof s s' cap caps o hres⟩
      | false =>
        obtain ⟨got, h1, h2⟩ := hg
        simp only [Bool.false_eq_true, if_false] at h2
        obtain ⟨rest, e, hr⟩ := ih s' _ h2.2.2
        exact ⟨_, _, .more s s' cap caps o rest e hres hr⟩
    | _ => exact hg.elim

/-- **C49.**  The receiving side: if the socket delivers a complete frame, cut into pieces in any
way, then reading with buffers of any positive sizes never fails and never waits for bytes that are
not coming, delivers the frame's data in order, reports the end exactly when all of it was delivered,
and does so after at most one more call than there are bytes. -/
theorem C49_read_back {d o : Bytes} (hf : K.frame d o) (net : List Bytes) (hn : net.flatten = o)
    (caps : List Nat) (hc : ∀ c ∈ caps, 0 < c) :
    (∃ out e, Reads U { x := U.init, inp := [], net := net } caps out e) ∧
    ∀ out e, Reads U { x := U.init, inp := [], net := net } caps out e →
      (e = some true ∧ out = d) ∨
      (e = some false ∧ out <+: d ∧ caps.length ≤ d.length) := by
  have hi : U.inside U.init (RState.rest (U := U) { x := U.init, inp := [], net := net }) d := by
    simp only [RState.rest, List.nil_append, hn]
    exact U.inside_init hf
  refine ⟨reads_exists caps _ d hi, fun out e h => ?_⟩
  rcases reads_good h hi hc with h | ⟨h1, h2, h3⟩
  · exact .inl h
  · exact .inr ⟨h1, h2, by have := h2.length_le; omega⟩

/-- **C49.**  End to end: a stream on which all writes were done, none failed, and the one `Finish`
returned OK.  Whatever way the socket cuts the bytes it was given, and whatever buffer sizes the
receiver reads with, the receiver gets exactly the data written, then the end. -/
theorem C49_end_to_end {cap : Nat} {s s' : State K} (h : Reach K cap s)
    (st : CStep cap .finishOk s s') (hw : s.writing = none) (hf : s.failed = false)
    (hn : s.finishing = some s.accepted.length) (h1 : s.finishes = 1)
    (net : List Bytes) (hnet : net.flatten = s.sent) (caps : List Nat) (hc : ∀ c ∈ caps, 0 < c)
    (hlen : s.given.length < caps.length) :
    (∃ out e, Reads U { x := U.init, inp := [], net := net } caps out e) ∧
    ∀ out e, Reads U { x := U.init, inp := [], net := net } caps out e →
      e = some true ∧ out = s.given := by
  have hi := inv h
  obtain ⟨hd, hs, _⟩ := C49_finish_all h st hw hf hn
  obtain ⟨_, _, _, hls, _⟩ := finishOk_facts st
  have hne := hi.sentFrames hls
  have hnf := hi.nframes
  rw [h1] at hnf
  cases hfr : s.frames with
  | nil => exact (hne hfr).elim
  | cons f l =>
    have hl : l = [] := by
      rw [hfr] at hnf
      exact List.eq_nil_of_length_eq_zero (by simp only [List.length_cons] at hnf; omega)
    subst hl
    have hfm := hi.frames f (by rw [hfr]; simp)
    rw [hfr] at hd hs
    simp only [frameData, frameOut, List.append_nil] at hd hs
    rw [hs] at hnet
    obtain ⟨e1, e2⟩ := C49_read_back (U := U) hfm net hnet caps hc
    refine ⟨e1, fun out e hr => ?_⟩
    rcases e2 out e hr with ⟨a, b⟩ | ⟨a, b, c⟩
    · exact ⟨a, by rw [b, hd]⟩
    · rw [hd] at c; omega

/-! ### The promises can be kept: a toy codec -/

/-- Each byte becomes two, the frame ends with a zero. -/
def enc : Bytes → Bytes
  | [] => []
  | b :: l => 1 :: b :: enc l

theorem enc_append (a b : Bytes) : enc (a ++ b) = enc a ++ enc b := by
  induction a with
  | nil => rfl
  | cons x a ih => simp [enc, ih]

def toy : Codec where
  C := Unit
  init := ()
  call := fun _ m inp _ k out r => k = inp.length ∧ r = 0 ∧
    out = enc inp ++ (if m = .fin then [0] else [])
  frame := fun d o => o = enc d ++ [0]
  opened := fun _ d o => o = enc d
  fuel := fun _ _ _ => 0
  opened_init := rfl
  consumed_le := by rintro _ _ _ _ _ _ _ ⟨rfl, _⟩; exact Nat.le_refl _
  all_consumed := by rintro _ _ _ _ _ _ ⟨h, _⟩ _; exact h
  ended := by
    rintro _ inp _ k out d o ho ⟨_, _, rfl⟩
    subst ho
    simp [enc_append, enc]
  goes_on := by
    rintro _ m inp _ k out r d o ho ⟨rfl, rfl, rfl⟩ hn
    have hm : m ≠ .fin := fun e => hn ⟨e, rfl⟩
    subst ho
    simp [hm, enc_append]
  flush_nothing := by
    rintro _ m _ k out r _ ⟨_, _, rfl⟩ hm
    simp [hm, enc]
  progress := by
    rintro _ m inp _ k out r ⟨rfl, rfl, rfl⟩ hn
    exfalso; apply hn; split <;> rfl

theorem finish_ok {cap : Nat} (s : State K) (n : Nat) (hl : s.locked = false)
    (hf : s.finishing = some n) (hs : s.shutdown = false) (ho : s.ok = true)
    (h : s.lastSent = true) : CStep cap .finishOk s { s with finishing := none } := by
  have := CStep.finished (cap := cap) s n hl hf hs (.inl h)
  rw [if_pos ho] at this
  exact this

/-- A schedule with the toy codec: a buffer of two bytes, three bytes written, an automatic flush in
between, `Finish` returns OK. -/
theorem example_reach : ∃ s s' : State toy, Reach toy 2 s ∧ CStep 2 .finishOk s s' ∧
    s.given = [7, 8, 9] ∧ s.sent = [1, 7, 1, 8, 1, 9, 0] ∧ s.writing = none ∧ s.failed = false ∧
    s.finishing = some s.accepted.length ∧ s.finishes = 1 := by
  have h : Reach toy 2 _ := .step (.step (.step (.step (.step (.step (.step (.step (.step (.step
    (.step (.step .init (.c (.built _ rfl)))
    (.t (.wake _ rfl rfl)))
    (.t (.endIter _ .flush 0 () 0 [] 0 rfl ⟨rfl, rfl, rfl⟩ rfl rfl)))
    (.c (.write _ [7, 8, 9] rfl rfl rfl rfl)))
    (.c (.copy _ [7, 8, 9] rfl rfl (by simp) rfl rfl (by decide))))
    (.t (.wake _ rfl rfl)))
    (.t (.endIter _ .cont 0 () 2 [1, 7, 1, 8] 0 rfl ⟨rfl, rfl, rfl⟩ rfl rfl)))
    (.c (.copy _ [9] rfl rfl (by simp) rfl rfl (by decide))))
    (.c (.written _ rfl rfl)))
    (.c (.finish _ rfl rfl rfl rfl)))
    (.t (.wake _ rfl rfl)))
    (.t (.endLast _ .fin 0 () 1 [1, 9, 0] 0 rfl ⟨rfl, rfl, rfl⟩ rfl rfl))
  exact ⟨_, _, h, finish_ok _ 3 rfl rfl rfl rfl rfl, rfl, rfl, rfl, rfl, rfl, rfl⟩

/-- Decodes at most `n` bytes: (data, undecoded rest, end seen). -/
def dec : Nat → Bytes → Bytes × Bytes × Bool
  | 0, b => ([], b, false)
  | _ + 1, [] => ([], [], false)
  | n + 1, x :: b =>
    if x = 0 then ([], b, true) else
    match b with
    | [] => ([], [x], false)
    | y :: b => (y :: (dec n b).1, (dec n b).2.1, (dec n b).2.2)

/-- What `dec` does on a prefix of a frame: either it sees the end and then it got everything, or it
leaves a rest such that the frame goes on there, and it stops only for lack of input or room. -/
theorem dec_spec (n : Nat) : ∀ (b o d : Bytes), b ++ o = enc d ++ [0] →
    (dec n b).1.length ≤ n ∧ (dec n b).1 <+: d ∧
    ((dec n b).2.2 = true → o = [] ∧ (dec n b).1 = d) ∧
    ((dec n b).2.2 = false → (dec n b).2.1 ++ o = enc (d.drop (dec n b).1.length) ++ [0]) ∧
    (o = [] → (dec n b).1.length < n → (dec n b).2.2 = true) := by
  induction n with
  | zero => intro b o d h; simp [dec, h]
  | succ n ih =>
    intro b o d h
    cases b with
    | nil =>
      simp only [dec]
      refine ⟨by simp, by simp, by simp, fun _ => by simpa using h, ?_⟩
      intro ho; subst ho
      have := congrArg List.length h
      simp at this
    | cons x b =>
      cases d with
      | nil =>
        simp only [enc, List.nil_append, List.cons_append, List.cons.injEq,
          List.append_eq_nil_iff] at h
        obtain ⟨rfl, rfl, rfl⟩ := h
        simp [dec]
      | cons y d =>
        simp only [enc, List.cons_append, List.cons.injEq] at h
        obtain ⟨rfl, h⟩ := h
        cases b with
        | nil =>
          have e : dec (n + 1) [1] = ([], [1], false) := by simp [dec]
          rw [e]
          refine ⟨by simp, by simp, by simp, fun _ => by simpa [enc] using h, ?_⟩
          intro ho; subst ho; simp at h
        | cons z b =>
          simp only [List.cons_append, List.cons.injEq] at h
          obtain ⟨rfl, h⟩ := h
          obtain ⟨h1, h2, h3, h4, h5⟩ := ih b o d h
          have e : dec (n + 1) (1 :: z :: b) = (z :: (dec n b).1, (dec n b).2.1, (dec n b).2.2) := by
            simp [dec]
          rw [e]
          refine ⟨by simp; omega, ?_, ?_, ?_, ?_⟩
          · simpa using h2
          · intro ht; simpa using h3 ht
          · intro hf; simpa using h4 hf
          · intro ho hl; exact h5 ho (by simp at hl; omega)

/-- The decoder for the toy codec: it keeps undecoded bytes. -/
def toyDec : Decoder toy where
  D := Bytes
  init := []
  call := fun x inp cap x' k out r => k = inp.length ∧ out = (dec cap (x ++ inp)).1 ∧
    x' = (dec cap (x ++ inp)).2.1 ∧ r = if (dec cap (x ++ inp)).2.2 then 0 else 1
  fails := fun _ _ _ => False
  inside := fun x o d => x ++ o = enc d ++ [0]
  inside_init := by rintro d o rfl; rfl
  no_fail := by
    intro x o d inp cap _ _ _
    exact ⟨fun h => h, _, _, _, _, rfl, rfl, rfl, rfl⟩
  bounds := by
    rintro x o d inp cap x' k out r hi ⟨t, rfl⟩ hc ⟨rfl, rfl, rfl, rfl⟩
    have := dec_spec cap (x ++ inp) t d (by rw [List.append_assoc]; exact hi)
    exact ⟨Nat.le_refl _, this.1, this.2.1⟩
  done := by
    rintro x o d inp cap x' k out hi ⟨t, rfl⟩ hc ⟨rfl, rfl, rfl, hr⟩
    obtain ⟨h1, h2, h3, h4, h5⟩ := dec_spec cap (x ++ inp) t d (by rw [List.append_assoc]; exact hi)
    have : (dec cap (x ++ inp)).2.2 = true := by
      cases h : (dec cap (x ++ inp)).2.2 with
      | true => rfl
      | false => rw [h] at hr; simp at hr
    obtain ⟨rfl, h⟩ := h3 this
    exact ⟨by simp, h⟩
  goes_on := by
    rintro x o d inp cap x' k out r hi ⟨t, rfl⟩ hc ⟨rfl, rfl, rfl, rfl⟩ hr
    obtain ⟨h1, h2, h3, h4, h5⟩ := dec_spec cap (x ++ inp) t d (by rw [List.append_assoc]; exact hi)
    have : (dec cap (x ++ inp)).2.2 = false := by
      cases h : (dec cap (x ++ inp)).2.2 with
      | false => rfl
      | true => rw [h] at hr; simp at hr
    rw [List.drop_left]
    exact h4 this
  greedy := by
    rintro x o d inp cap x' k out r hi _ hc ⟨rfl, _⟩ hr
    exact .inl rfl
  complete := by
    rintro x o d inp cap x' k out r hi ⟨t, rfl⟩ hc ⟨rfl, rfl, rfl, rfl⟩ hk hl
    obtain ⟨h1, h2, h3, h4, h5⟩ := dec_spec cap (x ++ inp) t d (by rw [List.append_assoc]; exact hi)
    have : t = [] := List.eq_nil_of_length_eq_zero (by rw [List.length_append] at hk; omega)
    rw [h5 this hl]; rfl

/-- The end-to-end theorem applies to the schedule above and the toy decoder, with the bytes arriving
in three pieces and a read buffer of two bytes. -/
theorem example_end_to_end : ∃ out e, Reads toyDec
    { x := toyDec.init, inp := [], net := [[1], [7, 1, 8, 1], [9, 0]] } [2, 2, 2, 2] out e ∧
    e = some true ∧ out = [7, 8, 9] := by
  obtain ⟨s, s', h, st, hg, hs, hw, hf, hn, h1⟩ := example_reach
  have := C49_end_to_end (U := toyDec) h st hw hf hn h1 [[1], [7, 1, 8, 1], [9, 0]] (by rw [hs]; rfl)
    [2, 2, 2, 2] (by decide) (by rw [hg]; decide)
  obtain ⟨⟨out, e, hr⟩, h2⟩ := this
  exact ⟨out, e, hr, (h2 out e hr).1, by rw [(h2 out e hr).2, hg]⟩

end Verif.Threads.Zstd
