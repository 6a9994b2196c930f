import Verif.FastCdc.Lemmas

/-!
# Properties C01-C06: the content-defined chunker

`chunkBlocks gear c blocks` is what a caller observes: the list of byte ranges passed to the chunk
handler when a fresh chunker with configuration `c` is fed `blocks` one by one and finalized.
`none` is divergence.
-/
namespace Verif.FastCdc
variable {w : Nat}

/-- A small concrete gear table used by the non-vacuity examples. -/
def exGear : UInt8 → BitVec 8 := fun b => BitVec.ofNat 8 (b.toNat * 37 + 11)
def exCfg : Config := ⟨2, 4, 8⟩
def exData : List UInt8 := [1, 2, 3, 4, 5, 6, 7, 8, 9, 10, 11, 12, 13, 14, 15, 16, 17, 18, 19, 20]

/-- **C01.** Chunking loses, adds and reorders nothing, and terminates: for every block list
(empty blocks included). -/
theorem C01_chunking_lossless (gear : UInt8 → BitVec w) (hw : 0 < w) (c : Config) (hv : c.Valid)
    (blocks : List (List UInt8)) :
    ∃ cs, chunkBlocks gear c blocks = some cs ∧ cs.flatten = blocks.flatten := by
  obtain ⟨cs, h1, h2, _⟩ := feed_lossless gear hw c hv blocks []
  exact ⟨cs, h1, by simpa using h2⟩

example : exCfg.Valid ∧ (0 : Nat) < 8 ∧
    (chunkBlocks exGear exCfg [exData.take 7, exData.drop 7]).isSome := by decide

/-- **C02.** No chunk is empty or larger than `max_size`, and only the last one of a stream may be
smaller than `min_size`. -/
theorem C02_chunk_sizes (gear : UInt8 → BitVec w) (hw : 0 < w) (c : Config) (hv : c.Valid)
    (blocks : List (List UInt8)) (hne : ∀ b ∈ blocks, b ≠ []) (cs : List (List UInt8))
    (h : chunkBlocks gear c blocks = some cs) :
    (∀ x ∈ cs, 0 < x.length ∧ x.length ≤ c.maxSize) ∧
    (∀ x ∈ cs.dropLast, c.minSize ≤ x.length) := by
  unfold chunkBlocks at h
  rw [feed_nonempty gear hw c hv blocks [] hne] at h
  obtain ⟨⟨cs', r⟩, e1, e2⟩ := Option.map_eq_some_iff.mp h
  simp at e2; subst e2
  obtain ⟨h1, h2⟩ := run_sizes gear hw c hv true _ _ _ e1
  refine ⟨fun x hx => ⟨?_, (h1 x hx).2⟩, h2⟩
  exact List.length_pos_iff.mpr (h1 x hx).1

/-- The size limits (apart from the minimum) hold even if a caller passes empty blocks in the
middle of the stream, which the chunker treats as an end of file. -/
theorem C02_chunk_sizes_any_blocks (gear : UInt8 → BitVec w) (hw : 0 < w) (c : Config)
    (hv : c.Valid) (blocks : List (List UInt8)) (cs : List (List UInt8))
    (h : chunkBlocks gear c blocks = some cs) :
    ∀ x ∈ cs, 0 < x.length ∧ x.length ≤ c.maxSize := by
  obtain ⟨cs', h1, _, h3⟩ := feed_lossless gear hw c hv blocks []
  unfold chunkBlocks at h
  rw [h1] at h; cases h
  exact fun x hx => ⟨List.length_pos_iff.mpr (h3 x hx).1, (h3 x hx).2⟩

/-- A stream with several chunks exists (non-vacuity of C02's second part). -/
example : ∃ cs, chunkBlocks exGear exCfg [exData] = some cs ∧ 3 ≤ cs.length := by
  refine ⟨_, rfl, ?_⟩; decide

/-- **C03.** The chunks depend only on the bytes, not on how they are cut into blocks. -/
theorem C03_split_independent (gear : UInt8 → BitVec w) (hw : 0 < w) (c : Config) (hv : c.Valid)
    (b₁ b₂ : List (List UInt8)) (h₁ : ∀ b ∈ b₁, b ≠ []) (h₂ : ∀ b ∈ b₂, b ≠ [])
    (h : b₁.flatten = b₂.flatten) :
    chunkBlocks gear c b₁ = chunkBlocks gear c b₂ ∧ (chunkBlocks gear c b₁).isSome := by
  unfold chunkBlocks
  rw [feed_nonempty gear hw c hv b₁ [] h₁, feed_nonempty gear hw c hv b₂ [] h₂, h]
  refine ⟨rfl, ?_⟩
  obtain ⟨out, e⟩ := run_some gear hw c hv true ([] ++ b₂.flatten)
  simp at e
  simp [e]

example : (∀ b ∈ [exData.take 7, exData.drop 7], b ≠ []) ∧ (∀ b ∈ [exData], b ≠ []) ∧
    [exData.take 7, exData.drop 7].flatten = [exData].flatten := by decide

/-- **C04.** If the inputs `a ++ s` and `b ++ s` are both cut exactly in front of the common tail
`s`, the tail is chunked identically in both. -/
theorem C04_resync (gear : UInt8 → BitVec w) (hw : 0 < w) (c : Config) (hv : c.Valid)
    (a b s : List UInt8) (blocks₁ blocks₂ : List (List UInt8))
    (hn₁ : ∀ x ∈ blocks₁, x ≠ []) (hn₂ : ∀ x ∈ blocks₂, x ≠ [])
    (hb₁ : blocks₁.flatten = a ++ s) (hb₂ : blocks₂.flatten = b ++ s)
    (p₁ t₁ p₂ t₂ : List (List UInt8))
    (h₁ : chunkBlocks gear c blocks₁ = some (p₁ ++ t₁)) (hc₁ : p₁.flatten = a)
    (h₂ : chunkBlocks gear c blocks₂ = some (p₂ ++ t₂)) (hc₂ : p₂.flatten = b) :
    t₁ = t₂ := by
  unfold chunkBlocks at h₁ h₂
  rw [feed_nonempty gear hw c hv _ [] hn₁, hb₁] at h₁
  rw [feed_nonempty gear hw c hv _ [] hn₂, hb₂] at h₂
  obtain ⟨⟨cs₁, r₁⟩, e₁, f₁⟩ := Option.map_eq_some_iff.mp h₁
  obtain ⟨⟨cs₂, r₂⟩, e₂, f₂⟩ := Option.map_eq_some_iff.mp h₂
  simp at f₁ f₂; subst f₁ f₂
  have g₁ := run_suffix gear hw c hv p₁ t₁ _ s r₁ e₁ (by simp [hc₁])
  have g₂ := run_suffix gear hw c hv p₂ t₂ _ s r₂ e₂ (by simp [hc₂])
  rw [g₁] at g₂
  cases g₂; rfl

/-- Non-vacuity of C04: two different inputs with a common tail of several chunks that starts at a
cut point of both. -/
example : ∃ a b s p₁ t₁ p₂ t₂, a ≠ b ∧ 1 < t₁.length ∧
    chunkBlocks exGear exCfg [a ++ s] = some (p₁ ++ t₁) ∧ p₁.flatten = a ∧
    chunkBlocks exGear exCfg [b ++ s] = some (p₂ ++ t₂) ∧ p₂.flatten = b := by
  refine ⟨[], ((chunkBlocks exGear exCfg [exData]).getD []).head!,
    (((chunkBlocks exGear exCfg [exData]).getD []).tail).flatten, [],
    ((chunkBlocks exGear exCfg [exData]).getD []).tail,
    [((chunkBlocks exGear exCfg [exData]).getD []).head!],
    ((chunkBlocks exGear exCfg [exData]).getD []).tail, ?_⟩
  decide

theorem threshold_toNat (c : Config) : (threshold w c).toNat = specThreshold w c := by
  unfold threshold specThreshold
  rw [BitVec.toNat_ofNat]
  apply Nat.mod_eq_of_lt
  have h1 := Nat.two_pow_pos w
  have h2 := Nat.div_le_self (2 ^ w - 1) (c.avgSize - c.minSize + 1)
  omega

theorem findBoundary_isCut (gear : UInt8 → BitVec w) (hw : 0 < w) (c : Config) (hv : c.Valid)
    (data : List UInt8) : IsCut gear c data (findBoundary gear c data) := by
  refine ⟨fun h => by simp [findBoundary, h], fun hd => ?_⟩
  have hno : ∀ x : BitVec w, ¬ x ≤ threshold w c → specThreshold w c < x.toNat := by
    intro x h
    rw [BitVec.le_def, threshold_toNat] at h; omega
  rcases findBoundary_spec gear c data hd (by obtain ⟨_, _, _⟩ := hv; omega) with
    ⟨h1, h2, h3, h4⟩ | ⟨h1, h2, h3, h4, h5⟩
  · rw [BitVec.le_def, threshold_toNat] at h3
    exact Or.inl ⟨h1, h2, h3, fun j a b => hno _ (h4 j a b)⟩
  · refine Or.inr ⟨fun j a b => hno _ (h1 j a b), h2, h3, ?_, ?_⟩
    · intro j a b
      rw [clz_toNat hw, clz_toNat hw]
      have := h4 j a b
      omega
    · intro j a b
      rw [clz_toNat hw, clz_toNat hw]
      have h6 := h5 j a b
      have h7 := bitLen_le_width (hashAt gear c data j)
      omega

/-- **C05.** Every chunk of every stream ends at the documented cut point (`IsCut`) of the data that
starts where the previous chunk ended. -/
theorem C05_cut_point (gear : UInt8 → BitVec w) (hw : 0 < w) (c : Config) (hv : c.Valid)
    (blocks : List (List UInt8)) (hne : ∀ b ∈ blocks, b ≠ []) (p : List (List UInt8))
    (x : List UInt8) (xs : List (List UInt8))
    (h : chunkBlocks gear c blocks = some (p ++ x :: xs)) :
    IsCut gear c (blocks.flatten.drop p.flatten.length) x.length := by
  have hl : (p ++ x :: xs).flatten = blocks.flatten := by
    obtain ⟨cs, h1, h2⟩ := C01_chunking_lossless gear hw c hv blocks
    rw [h] at h1; cases h1; exact h2
  unfold chunkBlocks at h
  rw [feed_nonempty gear hw c hv blocks [] hne] at h
  obtain ⟨⟨cs, r⟩, e1, e2⟩ := Option.map_eq_some_iff.mp h
  simp at e2; subst e2
  have e4 := run_suffix gear hw c hv p (x :: xs) _ (blocks.flatten.drop p.flatten.length) r e1 (by
    rw [← hl]; simp)
  generalize blocks.flatten.drop p.flatten.length = tail at *
  by_cases hgo : Go c true tail
  · rw [run_go gear hw c hv true _ hgo] at e4
    obtain ⟨⟨cs', r'⟩, _, e3⟩ := Option.map_eq_some_iff.mp e4
    simp at e3
    have := findBoundary_isCut gear hw c hv tail
    have hle := findBoundary_le gear c hv tail
    rw [← e3.1.1]
    simpa [Nat.min_eq_left (show findBoundary gear c tail ≤ tail.length by omega)] using this
  · rw [run_stop gear c true _ hgo] at e4
    simp at e4

/-- **C05 (window).** At every position at or beyond the hash width the hash is a function of the
`w` preceding bytes alone. -/
theorem C05_hash_window (gear : UInt8 → BitVec w) (c : Config) (data : List UInt8) (i : Nat)
    (hm : c.minSize ≤ i) (hi : w ≤ i) (hl : i ≤ data.length) :
    hashAt gear c data i = windowHash gear ((data.take i).drop (i - w)) := by
  unfold hashAt windowHash
  have e : (data.take i).drop (c.minSize - w) =
      ((data.take i).drop (c.minSize - w)).take (i - w - (c.minSize - w)) ++
        (data.take i).drop (i - w) := by
    conv => lhs; rw [← List.take_append_drop (i - w - (c.minSize - w))
      ((data.take i).drop (c.minSize - w))]
    rw [List.drop_drop]
    congr 2; omega
  rw [e]
  exact foldl_roll_window gear _ _ _ (by simp; omega)

example : ∃ data : List UInt8, ∃ i, exCfg.minSize ≤ i ∧ 8 ≤ i ∧ i ≤ data.length ∧
    exCfg.minSize < data.length := ⟨exData, 10, by decide⟩

/-- **C06, violated.** The manifest updater's validation accepts `min = avg = 0`, and then the
chunking loop makes no progress on any non-empty final buffer, whatever the gear table: it never
terminates (in builds without assertions, where the constructor does not reject `avg_size = 0`). -/
theorem C06_accepted_params_diverge_violated (gear : UInt8 → BitVec w) (m : Nat) (hm : 0 < m) :
    validateCdcParams ⟨0, 0, m⟩ = true ∧
    ∀ (data : List UInt8), data ≠ [] → ∀ fuel, drain gear ⟨0, 0, m⟩ true fuel data = none := by
  refine ⟨by simp [validateCdcParams, hm], ?_⟩
  intro data hd fuel
  have hthr : threshold w ⟨0, 0, m⟩ = BitVec.allOnes w := by
    simp only [threshold]
    apply BitVec.eq_of_toNat_eq
    have := Nat.two_pow_pos w
    simp
  have hfb : findBoundary gear ⟨0, 0, m⟩ data = 0 := by
    unfold findBoundary
    rw [if_neg (by simpa using hd)]
    simp only [hthr]
    cases data with
    | nil => exact absurd rfl hd
    | cons b bs =>
      have : (List.drop 0 (List.take (min (b :: bs).length m) (b :: bs))) =
          b :: (bs.take (min (b :: bs).length m - 1)) := by
        obtain ⟨k, hk⟩ : ∃ k, min (b :: bs).length m = k + 1 :=
          ⟨min (b :: bs).length m - 1, by simp; omega⟩
        rw [hk]; simp
      rw [this]
      simp [scan]
  induction fuel with
  | zero => rfl
  | succ f ih =>
    unfold drain
    have : data.length > 0 := List.length_pos_iff.mpr hd
    rw [if_pos (Or.inr ⟨this, rfl⟩)]
    simp only [hfb, List.drop_zero, ih, Option.map_none]

/-- **C06, partial.** Every accepted parameter set with `avg ≥ 1` terminates on every input, and
`Valid` is exactly acceptance plus `avg ≥ 1`. Missing for the full claim: `avg = 0`, see above. -/
theorem C06_accepted_params_terminate_partial (gear : UInt8 → BitVec w) (hw : 0 < w) (c : Config)
    (ha : validateCdcParams c = true) (h1 : 1 ≤ c.avgSize) (blocks : List (List UInt8)) :
    (chunkBlocks gear c blocks).isSome := by
  have hv : c.Valid := by
    simp [validateCdcParams] at ha
    exact ⟨h1, ha.1.1, ha.1.2⟩
  obtain ⟨cs, h, _⟩ := C01_chunking_lossless gear hw c hv blocks
  simp [h]

/-- **C06, exactly.** A parameter set that is accepted chunks every file to its end if and only if its average size is
not 0, and no accepted parameter set of average size 0 chunks any file that is not empty: the loop runs for ever. -/
theorem C06_accepted_params_exactly (gear : UInt8 → BitVec w) (hw : 0 < w) (c : Config)
    (ha : validateCdcParams c = true) :
    ((∀ blocks : List (List UInt8), (chunkBlocks gear c blocks).isSome) ↔ c.avgSize ≠ 0) ∧
    (c.avgSize = 0 → ∀ data : List UInt8, data ≠ [] → ∀ fuel, drain gear c true fuel data = none) := by
  have hz : c.avgSize = 0 → ∀ data : List UInt8, data ≠ [] → ∀ fuel, drain gear c true fuel data = none := by
    intro h0
    obtain ⟨mn, av, mx⟩ := c
    simp only at h0
    subst h0
    simp only [validateCdcParams, Bool.and_eq_true, decide_eq_true_eq] at ha
    have hmn : mn = 0 := by omega
    subst hmn
    exact (C06_accepted_params_diverge_violated gear mx (by omega)).2
  refine ⟨⟨?_, fun h => C06_accepted_params_terminate_partial gear hw c ha (by omega)⟩, hz⟩
  intro h h0
  have hb := h [[0]]
  have hfb : (findBoundary gear c [0]) = 0 := by
    have h2 := hz h0 [0] (by simp) 2
    rw [drain, if_pos (Or.inr ⟨by simp, rfl⟩)] at h2
    cases hn : findBoundary gear c [0] with
    | zero => rfl
    | succ n =>
      exfalso
      rw [hn] at h2
      simp only [List.drop_succ_cons, List.drop_nil] at h2
      rw [drain, if_neg (by
        simp only [validateCdcParams, Bool.and_eq_true, decide_eq_true_eq] at ha
        simp; omega)] at h2
      cases h2
  simp only [chunkBlocks, feed] at hb
  by_cases hm : c.maxSize ≤ 1
  · have e : process gear c [] [0] = none := by
      simp only [process, List.isEmpty_cons, List.nil_append, List.length_cons, List.length_nil]
      have e1 : drain gear c false 1 [0] = none := by
        rw [drain, if_pos (Or.inl (by simpa using hm))]; rfl
      have e2 : drain gear c false 2 [0] = none := by
        rw [drain, if_pos (Or.inl (by simpa using hm)), hfb]
        simp only [List.drop_zero, e1, Option.map_none]
      rw [if_neg (by simp)]; exact e2
    rw [e] at hb
    cases hb
  · have e : process gear c [] [0] = some ([], [0]) := by
      simp only [process, List.isEmpty_cons, List.nil_append, List.length_cons, List.length_nil]
      rw [if_neg (by simp), drain, if_neg (by simp; omega)]
    rw [e] at hb
    have e2 : process gear c [0] [] = none := by
      simp only [process, List.isEmpty_nil, List.append_nil]
      rw [if_neg (by simp)]
      exact hz h0 [0] (by simp) _
    simp [e2] at hb

/-- The parameters are accepted in both cases. -/
example : validateCdcParams ⟨0, 0, 5⟩ = true ∧ validateCdcParams ⟨0, 1, 5⟩ = true := by decide

end Verif.FastCdc
