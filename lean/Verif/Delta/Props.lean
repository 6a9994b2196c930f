import Verif.Delta.Lemmas
import Verif.FastCdc.Props

/-!
# Properties C07-C10 and C53: delta sync of one file

`syncFile` (Model.lean) is the complete exchange for one changed file. The theorems quantify over
the two files, the way they are read in blocks, the gear table, hash width and chunk size limits,
the batching constants, the timing of the hash worker (`tasks`) and of the arrival of signatures
(`avail`), and over whatever follows in the message streams.
-/
namespace Verif.Delta
open FastCdc (Config chunkBlocks)

/-- The properties a configuration of the pipeline must have; the shipped constants do
(`shipped_ok`). -/
structure PipelineOk (w : Nat) (c : Config) (P : Params) : Prop where
  width : 0 < w
  valid : c.Valid
  batch : 0 < P.sigBatch
  meta_pos : 0 < P.metaSize
  fits : P.combine + P.request + c.maxSize < 2 ^ 32

/-- The shipped constants, cdc_interface.cc:45-58 and fastcdc.h (64-bit hash). -/
theorem shipped_ok : PipelineOk 64 ⟨4096, 8192, 32768⟩ {} := by
  constructor <;> decide

/-- No chunk of the old file collides with a different chunk of the new file. -/
def NoCollision {α : Type} {w : Nat} (gear : UInt8 → BitVec w) (c : Config) (hash : Bytes → α)
    (oldBlocks newBlocks : List Bytes) : Prop :=
  ∀ S cs, chunkBlocks gear c oldBlocks = some S → chunkBlocks gear c newBlocks = some cs →
    ∀ x ∈ S, ∀ y ∈ cs, hash x = hash y → x = y

/-- The documented notion of an executable file: at least four bytes, starting with the ELF magic,
`#!/` or `MZ`. -/
def LooksExecutable (d : Bytes) : Prop :=
  4 ≤ d.length ∧ ([0x7f, 0x45, 0x4c, 0x46] <+: d ∨ [0x23, 0x21, 0x2f] <+: d ∨ [0x4d, 0x5a] <+: d)

theorem isExecutable_iff (d : Bytes) : isExecutable d = true ↔ LooksExecutable d := by
  unfold isExecutable LooksExecutable
  by_cases h : d.length < 4
  · rw [if_pos h]; constructor
    · intro h; simp at h
    · intro h'; omega
  · rw [if_neg h]
    rw [List.prefix_iff_eq_take, List.prefix_iff_eq_take, List.prefix_iff_eq_take]
    simp only [List.length_cons, List.length_nil, Bool.or_eq_true, beq_iff_eq]
    constructor
    · rintro ((h1 | h1) | h1)
      · exact ⟨by omega, Or.inl h1.symm⟩
      · exact ⟨by omega, Or.inr (Or.inl h1.symm)⟩
      · exact ⟨by omega, Or.inr (Or.inr h1.symm)⟩
    · rintro ⟨_, h1 | h1 | h1⟩
      · exact Or.inl (Or.inl h1.symm)
      · exact Or.inl (Or.inr h1.symm)
      · exact Or.inr h1.symm

/-- Everything that is known about one delta sync, from which the properties are read off. -/
theorem sync_facts {α : Type} [DecidableEq α] {w : Nat} (gear : UInt8 → BitVec w) (c : Config)
    (P : Params) (ok : PipelineOk w c P) (hash : Bytes → α) (oldBlocks newBlocks : List Bytes)
    (hn : ∀ b ∈ newBlocks, b ≠ [])
    (hlo : oldBlocks.flatten.length < 2 ^ 63) (hln : newBlocks.flatten.length < 2 ^ 63)
    (hcoll : NoCollision gear c hash oldBlocks newBlocks) (tasks : Nat → Nat) (avail : Nat → Bool)
    (restSig : List (SigMsg α)) :
    ∃ S cs evS lastS evC lastC body reqs,
      chunkBlocks gear c oldBlocks = some S ∧ chunkBlocks gear c newBlocks = some cs ∧
      chunkEvents gear c [] oldBlocks = some (evS, lastS) ∧ evS.flatten ++ lastS = S ∧
      chunkEvents gear c [] newBlocks = some (evC, lastC) ∧ evC.flatten ++ lastC = cs ∧
      createSignature P hash (withSched evS tasks) lastS = body ++ [[]] ∧
      (∀ m ∈ body, m ≠ []) ∧ body.flatten = S.map (sigOf hash) ∧
      createDiff P hash newBlocks.flatten (withSched evC avail) lastC (body ++ [[]] ++ restSig) =
        some (reqs ++ [Req.mk [] []], restSig) ∧
      (∀ r ∈ reqs, r.cmds ≠ []) ∧
      (reqs.map Req.data).flatten = (newChunks hash S cs).flatten ∧
      ∃ bs : List Bytes, bs.flatten = newBlocks.flatten ∧
        (∀ b, bs.head? = some b → c.minSize ≤ b.length ∨ b = newBlocks.flatten) ∧
        (∀ b, bs.head? = some b → b ≠ []) ∧
        ∀ restPatch, receiveDiff oldBlocks.flatten {}
          ((reqs ++ [Req.mk [] []]).map Req.toWire ++ restPatch) =
          .ok (bs.foldl Patched.absorb {}, restPatch) := by
  obtain ⟨S, hS, hSf⟩ := FastCdc.C01_chunking_lossless gear ok.width c ok.valid oldBlocks
  obtain ⟨cs, hcs, hcsf⟩ := FastCdc.C01_chunking_lossless gear ok.width c ok.valid newBlocks
  obtain ⟨evS, lastS, e1, e2⟩ := chunkEvents_eq gear ok.width c ok.valid oldBlocks [] S hS
  obtain ⟨evC, lastC, e3, e4⟩ := chunkEvents_eq gear ok.width c ok.valid newBlocks [] cs hcs
  obtain ⟨body, e5, e6, e7⟩ := createSignature_spec P ok.batch hash (withSched evS tasks) lastS
  rw [withSched_fst, e2] at e7
  have hsizes := FastCdc.C02_chunk_sizes gear ok.width c ok.valid newBlocks hn cs hcs
  have hB : P.combine + P.request + c.maxSize < 2 ^ 32 := ok.fits
  have hne : ∀ x ∈ cs, x ≠ [] := fun x hx => List.length_pos_iff.mp (hsizes.1 x hx).1
  have hc : ∀ x ∈ cs, ChunkOk P hash S (P.combine + P.request + c.maxSize) x := by
    intro x hx
    have := (hsizes.1 x hx).2
    exact ⟨fun s hs he => hcoll S cs hS hcs s hs x hx he, by omega, by omega⟩
  -- lower bound for the first command
  have hfirst : ∃ lo, HeadOk lo cs ∧ (lo = c.minSize ∨ lo = newBlocks.flatten.length) ∧
      (cs ≠ [] → lo = c.minSize ∨ 0 < lo) := by
    match hh : cs with
    | [] => exact ⟨c.minSize, ⟨by simp, by simp⟩, Or.inl rfl, by simp⟩
    | [x] =>
      refine ⟨newBlocks.flatten.length, ⟨hne, ?_⟩, Or.inr rfl, ?_⟩
      · rw [← hcsf]; simp
      · intro _; right
        rw [← hcsf]
        have := List.length_pos_iff.mpr (hne x (by simp))
        simpa using this
    | x :: y :: l =>
      refine ⟨c.minSize, ⟨hne, ?_⟩, Or.inl rfl, fun _ => Or.inl rfl⟩
      intro z hz
      simp at hz; subst hz
      exact hsizes.2 x (by simp [List.dropLast])
  obtain ⟨lo, hhead, hlo', _⟩ := hfirst
  -- a second bound, only to know that the first command is not empty
  have hhead1 : HeadOk (min 1 newBlocks.flatten.length) cs := by
    refine ⟨hne, fun x hx => ?_⟩
    have hx' : x ∈ cs := List.mem_of_mem_head? (by simpa using hx)
    have := (hsizes.1 x hx').1
    omega
  have run := fun (l : Nat) (hl : HeadOk l cs) => createDiff_ok ok.meta_pos (S := S)
    (lo := l) (withSched evC avail) lastC body restSig e6 e7 cs (by rw [withSched_fst, e4]) hc hl
  obtain ⟨reqs, d1, d2, d3, d4, d5, d6⟩ := run lo hhead
  obtain ⟨reqs', d1', _, _, _, _, d6'⟩ := run _ hhead1
  have hrr : reqs' = reqs := by
    rw [d1'] at d1
    simp only [Option.some.injEq, Prod.mk.injEq, and_true] at d1
    exact List.append_cancel_right d1
  subst hrr
  have hbsf : (reqs'.map fun r => r.cmds.map (cmdBytes S.flatten r.data)).flatten.flatten =
      newBlocks.flatten := by
    rw [← hcsf, ← d4, List.flatten_flatten]
    simp only [List.map_map]; rfl
  refine ⟨S, cs, evS, lastS, evC, lastC, body, reqs', hS, hcs, e1, e2, e3, e4, e5, e6, e7, ?_, d2, d5,
    (reqs'.map fun r => r.cmds.map (cmdBytes S.flatten r.data)).flatten, hbsf, ?_, ?_, ?_⟩
  · rw [← hcsf]; simpa using d1
  · intro b hb
    cases reqs' with
    | nil => simp at hb
    | cons r rs =>
      have hrne := d2 r (by simp)
      cases hrc : r.cmds with
      | nil => exact absurd hrc hrne
      | cons q qs =>
        simp [hrc] at hb; subst hb
        have hq := d6 q (by simp [hrc])
        have hl := cmdBytes_length (d3 r (by simp) q (by simp [hrc]))
        rcases hlo' with hlo' | hlo'
        · left; rw [hl]; omega
        · right
          simp [hrc] at hbsf
          have hlen : (cmdBytes S.flatten r.data q).length = newBlocks.flatten.length := by
            have := congrArg List.length hbsf
            simp only [List.length_append] at this
            omega
          have := congrArg List.length hbsf
          simp only [List.length_append] at this
          have hz : (List.map (cmdBytes S.flatten r.data) qs).flatten ++
            (List.map (fun r => List.map (cmdBytes S.flatten r.data) r.cmds) rs).flatten.flatten = [] := by
            apply List.length_eq_zero_iff.mp
            rw [List.length_append]; omega
          rw [hz, List.append_nil] at hbsf
          exact hbsf
  · intro b hb h0
    cases reqs' with
    | nil => simp at hb
    | cons r rs =>
      have hrne := d2 r (by simp)
      cases hrc : r.cmds with
      | nil => exact absurd hrc hrne
      | cons q qs =>
        simp [hrc] at hb; subst hb
        have hq := d6' q (by simp [hrc])
        have hl := cmdBytes_length (d3 r (by simp) q (by simp [hrc]))
        rw [h0] at hl
        simp at hl
        have hnl : newBlocks.flatten.length = 0 := by omega
        have hcs0 : cs = [] := by
          cases cs with
          | nil => rfl
          | cons x xs =>
            have h1 := (hsizes.1 x (by simp)).1
            rw [← hcsf] at hnl
            simp at hnl
            simp [hnl.1] at h1
        -- without chunks there are no commands
        subst hcs0
        have h2 := run 1 ⟨by simp, by simp⟩
        obtain ⟨reqs2, x1, _, _, _, _, x6⟩ := h2
        have : reqs2 = r :: rs := by
          rw [x1] at d1
          simp only [Option.some.injEq, Prod.mk.injEq, and_true] at d1
          exact List.append_cancel_right d1
        subst this
        have := x6 q (by simp [hrc])
        omega
  · intro restPatch
    rw [← hSf]
    apply receiveDiff_ok hB (by rw [hSf]; exact hlo) restPatch reqs' {} d3 d2
    intro r hr
    have h1 : r.data.length ≤ (reqs'.map Req.data).flatten.length := by
      obtain ⟨a, b, hab⟩ := List.append_of_mem hr
      rw [hab]; simp; omega
    have h2 : ((newChunks hash S cs).flatten).length ≤ cs.flatten.length := by
      unfold newChunks
      have : ∀ (l : List Bytes) (f : Bytes → Bool),
          (l.filter f).flatten.length ≤ l.flatten.length := by
        intro l f
        induction l with
        | nil => simp
        | cons a l ih =>
          by_cases ha : f a
          · rw [List.filter_cons_of_pos ha, List.flatten_cons, List.flatten_cons,
              List.length_append, List.length_append]; omega
          · rw [List.filter_cons_of_neg ha, List.flatten_cons, List.length_append]; omega
      exact this _ _
    rw [d5] at h1
    rw [hcsf] at h2
    omega

/-- **C07.** Delta sync reconstructs the client's file: the exchange succeeds, the server's new file
is byte for byte the client's file, and both sides consumed exactly the messages of this file. -/
theorem C07_delta_sync_exact {α : Type} [DecidableEq α] {w : Nat} (gear : UInt8 → BitVec w)
    (c : Config) (P : Params) (ok : PipelineOk w c P) (hash : Bytes → α)
    (oldBlocks newBlocks : List Bytes)
    (hn : ∀ b ∈ newBlocks, b ≠ [])
    (hlo : oldBlocks.flatten.length < 2 ^ 63) (hln : newBlocks.flatten.length < 2 ^ 63)
    (hcoll : NoCollision gear c hash oldBlocks newBlocks) (tasks : Nat → Nat) (avail : Nat → Bool)
    (restSig : List (SigMsg α)) (restPatch : List WireReq) :
    ∃ p, syncFile gear c P hash oldBlocks newBlocks tasks avail restSig restPatch =
        some (restSig, .ok (p, restPatch)) ∧ p.out = newBlocks.flatten := by
  obtain ⟨S, cs, evS, lastS, evC, lastC, body, reqs, _, _, e1, _, e3, _, e5, _, _, e8, _, _, bs, hbs,
    _, _, e9⟩ := sync_facts gear c P ok hash oldBlocks newBlocks hn hlo hln hcoll tasks avail restSig
  refine ⟨bs.foldl Patched.absorb {}, ?_, by rw [absorb_out, hbs]; rfl⟩
  unfold syncFile
  rw [e1, e3]
  simp only [e5, e8, e9]

/-- **C10 (delta sync).** With the shipped minimum chunk size (any of at least 4) the executable bit
is set iff the whole new file looks executable. -/
theorem C10_executable_bit_delta {α : Type} [DecidableEq α] {w : Nat} (gear : UInt8 → BitVec w)
    (c : Config) (P : Params) (ok : PipelineOk w c P) (h4 : 4 ≤ c.minSize) (hash : Bytes → α)
    (oldBlocks newBlocks : List Bytes)
    (hn : ∀ b ∈ newBlocks, b ≠ [])
    (hlo : oldBlocks.flatten.length < 2 ^ 63) (hln : newBlocks.flatten.length < 2 ^ 63)
    (hcoll : NoCollision gear c hash oldBlocks newBlocks) (tasks : Nat → Nat) (avail : Nat → Bool)
    (restSig : List (SigMsg α)) (restPatch : List WireReq) (p : Patched) (inbox : List (SigMsg α))
    (rest : List WireReq)
    (h : syncFile gear c P hash oldBlocks newBlocks tasks avail restSig restPatch =
      some (inbox, .ok (p, rest))) :
    p.exec = true ↔ LooksExecutable newBlocks.flatten := by
  obtain ⟨S, cs, evS, lastS, evC, lastC, body, reqs, _, _, e1, _, e3, _, e5, _, _, e8, _, _, bs, hbs,
    hb1, hb2, e9⟩ := sync_facts gear c P ok hash oldBlocks newBlocks hn hlo hln hcoll tasks avail restSig
  unfold syncFile at h
  rw [e1, e3] at h
  simp only [e5, e8, e9, Option.some.injEq, Prod.mk.injEq, Outcome.ok.injEq] at h
  rw [← h.2.1, ← isExecutable_iff]
  cases bs with
  | nil => rw [← hbs]; simp [isExecutable]
  | cons b bs =>
    rw [absorb_exec b bs (hb2 b rfl)]
    rcases hb1 b rfl with h5 | h5
    · rw [← hbs, List.flatten_cons, isExecutable_prefix b bs.flatten (by omega)]
    · rw [h5]

/-- **C10 (copy).** The same for a file that is copied as a whole in blocks of any size of at least
4 bytes (the client uses 128 KiB, cdc_rsync_client.cc:650); the copy is also exact. -/
theorem C10_executable_bit_copy (n : Nat) (hn : 4 ≤ n) (file : Bytes) (rest : List Bytes) :
    ∃ p, receiveCopy {} (readBlocks n file ++ [] :: rest) = .ok (p, rest) ∧ p.out = file ∧
      (p.exec = true ↔ LooksExecutable file) := by
  obtain ⟨h1, h2, h3, h4⟩ := readBlocks_spec n (by omega) file
  refine ⟨_, receiveCopy_ok rest _ _ (fun b hb => (h2 b hb).1), by rw [absorb_out, h1]; rfl, ?_⟩
  rw [← isExecutable_iff]
  cases hr : readBlocks n file with
  | nil => rw [h4 hr]; simp [isExecutable]
  | cons b bs =>
    rw [absorb_exec b bs (h2 b (by simp [hr])).1]
    have hb := h3 b (by simp [hr])
    have : file = b ++ file.drop n := by rw [hb]; simp
    conv => rhs; rw [this]
    rw [isExecutable_prefix b (file.drop n) (by rw [← this, hb]; simp; omega)]

/-- **C09 (signature stream).** Non-empty batches followed by one empty message; the batches hold
the size and hash of every chunk in order. -/
theorem C09_signature_stream {α : Type} (P : Params) (hb : 0 < P.sigBatch) (hash : Bytes → α)
    (evs : List (List Bytes × Nat)) (last : List Bytes) :
    ∃ body, createSignature P hash evs last = body ++ [[]] ∧ (∀ m ∈ body, m ≠ []) ∧
      body.flatten = ((evs.map Prod.fst).flatten ++ last).map fun x => (x.length, hash x) :=
  createSignature_spec P hb hash evs last

/-- **C09 (patch stream).** Non-empty command batches followed by one empty message. The client has
then consumed exactly the signature messages of this file, and (C07) the server consumes exactly
these patch messages. -/
theorem C09_patch_stream {α : Type} [DecidableEq α] {w : Nat} (gear : UInt8 → BitVec w)
    (c : Config) (P : Params) (ok : PipelineOk w c P) (hash : Bytes → α)
    (oldBlocks newBlocks : List Bytes)
    (hn : ∀ b ∈ newBlocks, b ≠ [])
    (hlo : oldBlocks.flatten.length < 2 ^ 63) (hln : newBlocks.flatten.length < 2 ^ 63)
    (hcoll : NoCollision gear c hash oldBlocks newBlocks) (tasks : Nat → Nat) (avail : Nat → Bool)
    (restSig : List (SigMsg α)) :
    ∃ evS lastS evC lastC reqs, chunkEvents gear c [] oldBlocks = some (evS, lastS) ∧
      chunkEvents gear c [] newBlocks = some (evC, lastC) ∧
      createDiff P hash newBlocks.flatten (withSched evC avail) lastC
        (createSignature P hash (withSched evS tasks) lastS ++ restSig) =
        some (reqs ++ [Req.mk [] []], restSig) ∧ ∀ r ∈ reqs, r.cmds ≠ [] := by
  obtain ⟨S, cs, evS, lastS, evC, lastC, body, reqs, _, _, e1, _, e3, _, e5, _, _, e8, e10, _⟩ :=
    sync_facts gear c P ok hash oldBlocks newBlocks hn hlo hln hcoll tasks avail restSig
  exact ⟨evS, lastS, evC, lastC, reqs, e1, e3, by rw [e5]; exact e8, e10⟩

/-- **C53.** The literal data in the patch stream is exactly the concatenation of those chunks of the
new file that are not chunks of the old file: nothing the server already has is transferred,
whatever the timing. -/
theorem C53_only_missing_chunks_sent {α : Type} [DecidableEq α] {w : Nat} (gear : UInt8 → BitVec w)
    (c : Config) (P : Params) (ok : PipelineOk w c P) (hash : Bytes → α)
    (oldBlocks newBlocks : List Bytes)
    (hn : ∀ b ∈ newBlocks, b ≠ [])
    (hlo : oldBlocks.flatten.length < 2 ^ 63) (hln : newBlocks.flatten.length < 2 ^ 63)
    (hcoll : NoCollision gear c hash oldBlocks newBlocks) (tasks : Nat → Nat) (avail : Nat → Bool)
    (restSig : List (SigMsg α)) :
    ∃ S cs evS lastS evC lastC reqs,
      chunkBlocks gear c oldBlocks = some S ∧ chunkBlocks gear c newBlocks = some cs ∧
      chunkEvents gear c [] oldBlocks = some (evS, lastS) ∧
      chunkEvents gear c [] newBlocks = some (evC, lastC) ∧
      createDiff P hash newBlocks.flatten (withSched evC avail) lastC
        (createSignature P hash (withSched evS tasks) lastS ++ restSig) = some (reqs, restSig) ∧
      (reqs.map Req.data).flatten = (cs.filter fun x => decide (x ∉ S)).flatten := by
  obtain ⟨S, cs, evS, lastS, evC, lastC, body, reqs, hS, hcs, e1, _, e3, _, e5, _, _, e8, _, e11, _⟩ :=
    sync_facts gear c P ok hash oldBlocks newBlocks hn hlo hln hcoll tasks avail restSig
  refine ⟨S, cs, evS, lastS, evC, lastC, reqs ++ [Req.mk [] []], hS, hcs, e1, e3,
    by rw [e5]; exact e8, ?_⟩
  rw [List.map_append, List.flatten_append, e11]
  simp only [List.map_cons, List.map_nil, List.flatten_cons, List.flatten_nil, List.append_nil]
  congr 1
  unfold newChunks
  apply List.filter_congr
  intro x hx
  rw [decide_eq_decide]
  apply not_congr
  rw [List.mem_map]
  constructor
  · rintro ⟨s, hs, he⟩
    rw [← hcoll S cs hS hcs s hs x hx he]; exact hs
  · intro h; exact ⟨x, h, rfl⟩

/-! Non-vacuity: a two-file instance with reused and new chunks, hash = identity, several blocks. -/
def exOld : List Bytes := [[1, 2, 3, 4, 5, 6, 7], [8, 9, 10, 11, 12, 13, 14, 15, 16, 17, 18, 19, 20]]
def exNew : List Bytes := [[1, 2, 3, 4, 5, 6], [99, 98, 97, 8, 9, 10, 11, 12, 13, 14], [15, 16, 17, 18, 19, 20]]

example : PipelineOk 8 FastCdc.exCfg {} := by constructor <;> decide
example : NoCollision FastCdc.exGear FastCdc.exCfg id exOld exNew :=
  fun _ _ _ _ _ _ _ _ h => h
/-- In this instance both kinds of chunks occur. -/
example : ∃ S cs, chunkBlocks FastCdc.exGear FastCdc.exCfg exOld = some S ∧
    chunkBlocks FastCdc.exGear FastCdc.exCfg exNew = some cs ∧
    (∃ x ∈ cs, x ∈ S) ∧ (∃ x ∈ cs, x ∉ S) := by
  refine ⟨_, _, rfl, rfl, ?_⟩
  decide

/-- **C08, violated.** There is a patch message, for every old file and every non-empty or empty data
block, that passes all checks and makes the server read outside the received data: the bound check
adds offset and size modulo 2^64. -/
theorem C08_patch_bounds_violated (basis data : Bytes) (_hd : data.length < 2 ^ 63)
    (rest : List WireReq) :
    receiveDiff basis {} (⟨[.data], [0xFFFFFFFFFFFFFFFF], [1], data⟩ :: rest) = .outOfBounds := by
  have h1 : fetch basis data .data 0xFFFFFFFFFFFFFFFF 1 = .outOfBounds := by
    unfold fetch
    rw [if_neg (by simp)]
    have e : (0xFFFFFFFFFFFFFFFF : UInt64) + (1 : UInt32).toUInt64 = 0 := by decide
    rw [e, if_neg (by simp [UInt64.lt_iff_toNat_lt])]
    rw [if_neg]
    have : (0xFFFFFFFFFFFFFFFF : UInt64).toNat = 2 ^ 64 - 1 := by decide
    rw [this]; omega
  simp [receiveDiff, applyCmds, h1]

/-- **C08, partial.** No message is read out of bounds if the offsets and sizes of its commands do
not overflow 64 bits; then every byte written comes from the message or the old file. Missing for
the full claim: the overflowing commands, see above. -/
theorem C08_patch_bounds_partial (basis : Bytes) : ∀ (msgs : List WireReq) (p : Patched),
    (∀ m ∈ msgs, m.data.length < 2 ^ 64 ∧
      ∀ x ∈ m.offsets.zip m.sizes, x.1.toNat + x.2.toNat < 2 ^ 64) →
    receiveDiff basis p msgs ≠ .outOfBounds ∧
    ∀ q rest, receiveDiff basis p msgs = .ok (q, rest) →
      ∃ pieces : List Bytes, q.out = p.out ++ pieces.flatten ∧
        ∀ x ∈ pieces, x <:+: basis ∨ ∃ m ∈ msgs, x <:+: m.data := by
  have hfetch : ∀ (data : Bytes) src off size, data.length < 2 ^ 64 →
      off.toNat + size.toNat < 2 ^ 64 → fetch basis data src off size ≠ .outOfBounds ∧
      ∀ b, fetch basis data src off size = .bytes b → b <:+: basis ∨ b <:+: data := by
    intro data src off size hd hs
    unfold fetch
    have sub : ∀ (l : Bytes) a b, (l.drop a).take b <:+: l := fun l a b =>
      (List.take_prefix _ _).isInfix.trans (List.drop_suffix _ _).isInfix
    split
    · split
      · simp
      · simp only
        split
        · simp
        · simp only [ne_eq, reduceCtorEq, not_false_eq_true, Fetch.bytes.injEq, true_and]
          intro b hb; subst hb; exact Or.inl (sub _ _ _)
    · split
      · simp
      · rename_i hlt
        rw [if_pos]
        · simp only [ne_eq, reduceCtorEq, not_false_eq_true, Fetch.bytes.injEq, true_and]
          intro b hb; subst hb; exact Or.inr (sub _ _ _)
        · rw [UInt64.lt_iff_toNat_lt, UInt64.toNat_add, UInt32.toNat_toUInt64,
            UInt64.toNat_ofNat', Nat.mod_eq_of_lt (by omega), Nat.mod_eq_of_lt (by omega)] at hlt
          omega
  have happ : ∀ (data : Bytes), data.length < 2 ^ 64 → ∀ (l : List (Src × UInt64 × UInt32)) p,
      (∀ x ∈ l, x.2.1.toNat + x.2.2.toNat < 2 ^ 64) →
      applyCmds basis data p l ≠ .outOfBounds ∧
      ∀ q, applyCmds basis data p l = .ok q → ∃ pieces : List Bytes,
        q.out = p.out ++ pieces.flatten ∧ ∀ x ∈ pieces, x <:+: basis ∨ x <:+: data := by
    intro data hd l
    induction l with
    | nil =>
      intro p _
      refine ⟨by simp [applyCmds], ?_⟩
      intro q hq
      simp only [applyCmds, Outcome.ok.injEq] at hq; subst hq
      exact ⟨[], by simp, by simp⟩
    | cons x l ih =>
      intro p hl
      obtain ⟨src, off, size⟩ := x
      obtain ⟨f1, f2⟩ := hfetch data src off size hd (hl (src, off, size) (by simp))
      unfold applyCmds
      cases hf : fetch basis data src off size with
      | error => simp
      | outOfBounds => exact absurd hf f1
      | bytes b =>
        simp only
        have hob : ∀ p : Patched, (if p.first && decide (size.toNat > 0) then
            ({ p with first := false, exec := isExecutable b } : Patched) else p).out = p.out := by
          intro p; split <;> rfl
        obtain ⟨i1, i2⟩ := ih _ (fun x hx => hl x (by simp [hx]))
        refine ⟨i1, ?_⟩
        intro q hq
        obtain ⟨pieces, g1, g2⟩ := i2 q hq
        refine ⟨b :: pieces, ?_, ?_⟩
        · rw [g1]; simp only [hob, List.append_assoc, List.flatten_cons]
        · intro x hx
          rcases List.mem_cons.mp hx with hx | hx
          · subst hx; exact f2 _ hf
          · exact g2 x hx
  intro msgs
  induction msgs with
  | nil => intro p _; simp [receiveDiff]
  | cons m ms ih =>
    intro p hm
    unfold receiveDiff
    obtain ⟨hm1, hm2⟩ := hm m (by simp)
    split
    · simp
    · split
      · refine ⟨by simp, ?_⟩
        intro q rest hq
        simp only [Outcome.ok.injEq, Prod.mk.injEq] at hq
        exact ⟨[], by simp [hq.1], by simp⟩
      · obtain ⟨a1, a2⟩ := happ m.data hm1 (m.sources.zip (m.offsets.zip m.sizes)) p (by
          intro x hx
          exact hm2 x.2 (List.of_mem_zip hx).2)
        cases ha : applyCmds basis m.data p (m.sources.zip (m.offsets.zip m.sizes)) with
        | error => simp
        | starved => simp
        | outOfBounds => exact absurd ha a1
        | ok p' =>
          simp only
          obtain ⟨i1, i2⟩ := ih p' (fun x hx => hm x (by simp [hx]))
          refine ⟨i1, ?_⟩
          intro q rest hq
          obtain ⟨pieces, g1, g2⟩ := i2 q rest hq
          obtain ⟨pieces', g3, g4⟩ := a2 p' ha
          refine ⟨pieces' ++ pieces, by rw [g1, g3]; simp, ?_⟩
          intro x hx
          rcases List.mem_append.mp hx with hx | hx
          · rcases g4 x hx with h | h
            · exact Or.inl h
            · exact Or.inr ⟨m, by simp, h⟩
          · rcases g2 x hx with h | ⟨m', hm', h⟩
            · exact Or.inl h
            · exact Or.inr ⟨m', by simp [hm'], h⟩

/-- A well-formed message meets the hypotheses of the partial theorem and is applied. -/
example : receiveDiff [1, 2, 3, 4] {} [⟨[.basis, .data], [1, 0], [2, 3], [9, 8, 7]⟩, ⟨[], [], [], []⟩] =
    .ok (⟨[2, 3, 9, 8, 7], false, false⟩, []) := by decide

/-! ### C08, exactly -/

/-- The commands of a message. -/
def WireReq.commands (m : WireReq) : List (Src × UInt64 × UInt32) := m.sources.zip (m.offsets.zip m.sizes)

/-- A message with commands, and with as many sources as offsets and sizes. -/
def WireReq.Complete (m : WireReq) : Prop :=
  m.sources ≠ [] ∧ m.sources.length = m.offsets.length ∧ m.sources.length = m.sizes.length

/-- The command names a part of the old file, or of the data received with it. -/
def InBounds (basis data : Bytes) (x : Src × UInt64 × UInt32) : Prop :=
  (x.1 = .basis → x.2.1.toNat < 2 ^ 63 ∧ (x.2.2 = 0 ∨ x.2.1.toNat + x.2.2.toNat ≤ basis.length)) ∧
  (x.1 ≠ .basis → x.2.1.toNat + x.2.2.toNat ≤ data.length)

/-- The command names data beyond 2^64, and its end modulo 2^64 is within the received data. -/
def Wraps (data : Bytes) (x : Src × UInt64 × UInt32) : Prop :=
  x.1 ≠ .basis ∧ 2 ^ 64 ≤ x.2.1.toNat + x.2.2.toNat ∧ x.2.1.toNat + x.2.2.toNat - 2 ^ 64 ≤ data.length

theorem fetch_exactly (basis data : Bytes) (hd : data.length < 2 ^ 64) (x : Src × UInt64 × UInt32) :
    ((∃ b, fetch basis data x.1 x.2.1 x.2.2 = .bytes b) ↔ InBounds basis data x) ∧
    (fetch basis data x.1 x.2.1 x.2.2 = .outOfBounds ↔ Wraps data x) := by
  obtain ⟨src, off, size⟩ := x
  simp only [InBounds, Wraps]
  have ho := off.toNat_lt
  have hs := size.toNat_lt
  have hz : size = 0 ↔ size.toNat = 0 := by
    constructor
    · rintro rfl; rfl
    · intro h; exact UInt32.toNat_inj.1 (by simpa using h)
  by_cases hsrc : src = .basis
  · subst hsrc
    unfold fetch
    rw [if_pos rfl]
    by_cases h1 : off.toNat ≥ 2 ^ 63
    · rw [if_pos h1]
      simp
      omega
    · rw [if_neg h1]
      dsimp only
      have hl : ((basis.drop off.toNat).take size.toNat).length = min size.toNat (basis.length - off.toNat) := by simp
      by_cases h2 : ((basis.drop off.toNat).take size.toNat).length ≠ size.toNat
      · rw [if_pos h2]
        rw [hl] at h2
        simp [hz]
        omega
      · rw [if_neg h2]
        rw [hl] at h2
        simp [hz]
        omega
  · unfold fetch
    rw [if_neg hsrc]
    have hmod : (off + size.toUInt64).toNat = (off.toNat + size.toNat) % 2 ^ 64 := by
      rw [UInt64.toNat_add, UInt32.toNat_toUInt64]
    have hdl : (UInt64.ofNat data.length).toNat = data.length := by
      rw [UInt64.toNat_ofNat']; exact Nat.mod_eq_of_lt hd
    have hlt : UInt64.ofNat data.length < off + size.toUInt64 ↔
        data.length < (off.toNat + size.toNat) % 2 ^ 64 := by
      rw [UInt64.lt_iff_toNat_lt, hmod, hdl]
    simp only [hlt]
    by_cases hw : off.toNat + size.toNat < 2 ^ 64
    · rw [Nat.mod_eq_of_lt hw]
      by_cases h1 : data.length < off.toNat + size.toNat
      · rw [if_pos h1]; simp [hsrc]; omega
      · rw [if_neg h1, if_pos (by omega)]; simp [hsrc]; omega
    · have e : (off.toNat + size.toNat) % 2 ^ 64 = off.toNat + size.toNat - 2 ^ 64 := by omega
      rw [e]
      by_cases h1 : data.length < off.toNat + size.toNat - 2 ^ 64
      · rw [if_pos h1]; simp [hsrc]; omega
      · rw [if_neg h1, if_neg (by omega)]; simp [hsrc]; omega

theorem applyCmds_exactly (basis data : Bytes) (hd : data.length < 2 ^ 64) :
    ∀ (cs : List (Src × UInt64 × UInt32)) (p : Patched),
    ((∃ q, applyCmds basis data p cs = .ok q) ↔ ∀ x ∈ cs, InBounds basis data x) ∧
    (applyCmds basis data p cs = .outOfBounds ↔
      ∃ a x b, cs = a ++ x :: b ∧ (∀ y ∈ a, InBounds basis data y) ∧ Wraps data x) ∧
    applyCmds basis data p cs ≠ .starved := by
  intro cs
  induction cs with
  | nil => intro p; simp [applyCmds]
  | cons x cs ih =>
    intro p
    obtain ⟨src, off, size⟩ := x
    obtain ⟨f1, f2⟩ := fetch_exactly basis data hd (src, off, size)
    dsimp only at f1 f2
    rw [applyCmds]
    cases hf : fetch basis data src off size with
    | error =>
      have hni : ¬ InBounds basis data (src, off, size) := fun h => by
        obtain ⟨b, hb⟩ := f1.2 h; rw [hf] at hb; cases hb
      have hnw : ¬ Wraps data (src, off, size) := fun h => by
        have := f2.2 h; rw [hf] at this; cases this
      refine ⟨⟨(by rintro ⟨q, hq⟩; cases hq), fun h => absurd (h _ (by simp)) hni⟩, ⟨(by intro h; cases h), ?_⟩,
        (by intro h; cases h)⟩
      rintro ⟨a, x, b, he, ha, hw⟩
      cases a with
      | nil => cases he; exact absurd hw hnw
      | cons y a => cases he; exact absurd (ha _ (by simp)) hni
    | outOfBounds =>
      have hni : ¬ InBounds basis data (src, off, size) := fun h => by
        obtain ⟨b, hb⟩ := f1.2 h; rw [hf] at hb; cases hb
      refine ⟨⟨(by rintro ⟨q, hq⟩; cases hq), fun h => absurd (h _ (by simp)) hni⟩, ⟨fun _ => ?_, fun _ => rfl⟩,
        (by intro h; cases h)⟩
      exact ⟨[], _, cs, rfl, by simp, f2.1 hf⟩
    | bytes b =>
      have hi : InBounds basis data (src, off, size) := f1.1 ⟨b, hf⟩
      have hnw : ¬ Wraps data (src, off, size) := fun h => by
        have := f2.2 h; rw [hf] at this; cases this
      dsimp only
      obtain ⟨i1, i2, i3⟩ := ih { (if p.first && decide (size.toNat > 0)
        then { p with first := false, exec := isExecutable b } else p) with
          out := (if p.first && decide (size.toNat > 0)
            then { p with first := false, exec := isExecutable b } else p).out ++ b }
      refine ⟨i1.trans ⟨fun h => ?_, fun h x hx => h x (by simp [hx])⟩, i2.trans ⟨?_, ?_⟩, i3⟩
      · intro x hx
        rcases List.mem_cons.1 hx with rfl | hx
        · exact hi
        · exact h x hx
      · rintro ⟨a, x, c, he, ha, hw⟩
        refine ⟨(src, off, size) :: a, x, c, by rw [he]; rfl, ?_, hw⟩
        intro y hy
        rcases List.mem_cons.1 hy with rfl | hy
        · exact hi
        · exact ha y hy
      · rintro ⟨a, x, c, he, ha, hw⟩
        cases a with
        | nil => cases he; exact absurd hw hnw
        | cons y a =>
          cases he
          exact ⟨a, x, c, rfl, fun z hz => ha z (by simp [hz]), hw⟩

/-- **C08, exactly.** The server reads outside of the received data if and only if it comes to a data command whose offset
and size add up to 2^64 or more and, modulo 2^64, to no more than the received data: all messages before are complete and
all commands before are in bounds. -/
theorem C08_patch_bounds_exactly (basis : Bytes) : ∀ (msgs : List WireReq) (p : Patched),
    (∀ m ∈ msgs, m.data.length < 2 ^ 64) →
    (receiveDiff basis p msgs = .outOfBounds ↔
      ∃ pre m post, msgs = pre ++ m :: post ∧
        (∀ n ∈ pre, n.Complete ∧ ∀ x ∈ n.commands, InBounds basis n.data x) ∧ m.Complete ∧
        ∃ a x b, m.commands = a ++ x :: b ∧ (∀ y ∈ a, InBounds basis m.data y) ∧ Wraps m.data x) := by
  intro msgs
  induction msgs with
  | nil =>
    intro p _
    constructor
    · intro h; cases h
    · rintro ⟨pre, m, post, he, _⟩; cases pre <;> cases he
  | cons m rest ih =>
    intro p hd
    have hdm := hd m (by simp)
    rw [receiveDiff]
    by_cases hc : m.Complete
    · obtain ⟨h0, h1, h2⟩ := hc
      have hlen : m.sources.length ≠ 0 := fun h => h0 (List.length_eq_zero_iff.1 h)
      rw [if_neg (by omega), if_neg hlen]
      obtain ⟨a1, a2, a3⟩ := applyCmds_exactly basis m.data hdm (m.sources.zip (m.offsets.zip m.sizes)) p
      cases ha : applyCmds basis m.data p (m.sources.zip (m.offsets.zip m.sizes)) with
      | ok q =>
        have hin : ∀ x ∈ m.commands, InBounds basis m.data x := a1.1 ⟨q, ha⟩
        dsimp only
        rw [ih q fun n hn => hd n (by simp [hn])]
        constructor
        · rintro ⟨pre, n, post, he, hp, hn⟩
          refine ⟨m :: pre, n, post, by rw [he]; rfl, ?_, hn⟩
          intro k hk
          rcases List.mem_cons.1 hk with rfl | hk
          · exact ⟨⟨h0, h1, h2⟩, hin⟩
          · exact hp k hk
        · rintro ⟨pre, n, post, he, hp, hn⟩
          cases pre with
          | nil =>
            cases he
            exfalso
            have := a2.2 hn.2
            rw [ha] at this; cases this
          | cons k pre =>
            cases he
            exact ⟨pre, n, post, rfl, fun y hy => hp y (by simp [hy]), hn⟩
      | error =>
        dsimp only
        constructor
        · intro h; cases h
        · rintro ⟨pre, n, post, he, hp, hn⟩
          exfalso
          cases pre with
          | nil => cases he; have := a2.2 hn.2; rw [ha] at this; cases this
          | cons k pre =>
            cases he
            obtain ⟨q, hq⟩ := a1.2 (hp m (by simp)).2
            rw [ha] at hq; cases hq
      | outOfBounds =>
        dsimp only
        constructor
        · intro _
          exact ⟨[], m, rest, rfl, by simp, ⟨h0, h1, h2⟩, a2.1 ha⟩
        · intro _; rfl
      | starved => exact absurd ha a3
    · have hno : ¬ ∃ pre n post, m :: rest = pre ++ n :: post ∧
          (∀ k ∈ pre, k.Complete ∧ ∀ x ∈ k.commands, InBounds basis k.data x) ∧ n.Complete ∧
          ∃ a x b, n.commands = a ++ x :: b ∧ (∀ y ∈ a, InBounds basis n.data y) ∧ Wraps n.data x := by
        rintro ⟨pre, n, post, he, hp, hn⟩
        cases pre with
        | nil => cases he; exact hc hn.1
        | cons k pre => cases he; exact hc (hp m (by simp)).1
      constructor
      · intro h
        exfalso
        split at h
        · cases h
        · rename_i hl
          split at h
          · cases h
          · rename_i hz
            exact hc ⟨fun e => hz (by simp [e]), by omega, by omega⟩
      · intro h; exact absurd h hno

/-- A message in bounds, followed by one that wraps around. -/
example : (∀ x ∈ (⟨[.basis, .data], [1, 0], [2, 3], [7, 8, 9]⟩ : WireReq).commands,
      InBounds [1, 2, 3, 4] [7, 8, 9] x) ∧
    Wraps [7] (.data, 0xFFFFFFFFFFFFFFFF, 2) := by
  refine ⟨?_, by simp [Wraps]⟩
  intro x hx
  simp only [WireReq.commands, List.zip_cons_cons, List.zip_nil_right, List.mem_cons, List.not_mem_nil, or_false] at hx
  rcases hx with rfl | rfl <;> simp [InBounds]

end Verif.Delta
