import Verif.FastCdc.Props

/-!
# Edits change few chunks (C182)

What content-defined chunking is for: the chunks in front of an edit stay, and behind it the chunks are the same again from the first
isolated cut point on.
-/
namespace Verif.FastCdc
variable {w : Nat}

/-- The chunks `cs` have a boundary at position `q` of the data. -/
def Boundary (cs : List (List UInt8)) (q : Nat) : Prop := ∃ p t, cs = p ++ t ∧ p.flatten.length = q

theorem chunks_run (gear : UInt8 → BitVec w) (hw : 0 < w) (c : Config) (hv : c.Valid) (blocks : List (List UInt8)) (hne : ∀ b ∈ blocks, b ≠ [])
    (cs : List (List UInt8)) (h : chunkBlocks gear c blocks = some cs) : ∃ r, run gear c true blocks.flatten = some (cs, r) := by
  unfold chunkBlocks at h
  rw [feed_nonempty gear hw c hv blocks [] hne, List.nil_append] at h
  obtain ⟨⟨cs', r⟩, e1, e2⟩ := Option.map_eq_some_iff.mp h
  simp at e2; subst e2
  exact ⟨r, e1⟩

theorem run_common (gear : UInt8 → BitVec w) (hw : 0 < w) (c : Config) (hv : c.Valid) (a : List UInt8) : ∀ (s t : List UInt8) (cs₁ cs₂ : List (List UInt8))
    (r₁ r₂ : List UInt8), run gear c true (a ++ s) = some (cs₁, r₁) → run gear c true (a ++ t) = some (cs₂, r₂) →
    ∃ L, L <+: cs₁ ∧ L <+: cs₂ ∧ a.length < L.flatten.length + c.maxSize := by
  have main : ∀ n (a : List UInt8), a.length ≤ n → ∀ (s t : List UInt8) (cs₁ cs₂ : List (List UInt8))
    (r₁ r₂ : List UInt8), run gear c true (a ++ s) = some (cs₁, r₁) → run gear c true (a ++ t) = some (cs₂, r₂) →
    ∃ L, L <+: cs₁ ∧ L <+: cs₂ ∧ a.length < L.flatten.length + c.maxSize := by
    intro n
    induction n with
    | zero =>
      intro a ha s t cs₁ cs₂ r₁ r₂ _ _
      refine ⟨[], List.nil_prefix, List.nil_prefix, ?_⟩
      obtain ⟨h1, h2, h3⟩ := hv
      simp; omega
    | succ n ih =>
      intro a ha s t cs₁ cs₂ r₁ r₂ h₁ h₂
      by_cases hm : a.length < c.maxSize
      · exact ⟨[], List.nil_prefix, List.nil_prefix, by simpa using hm⟩
      · have hm : c.maxSize ≤ a.length := by omega
        have g : ∀ u, Go c true (a ++ u) := fun u => Or.inl (by simp; omega)
        have hmax : 0 < c.maxSize := by obtain ⟨h1, h2, h3⟩ := hv; omega
        have e : ∀ u, findBoundary gear c (a ++ u) = findBoundary gear c a := fun u => findBoundary_append gear c hv a u hm
        have hle := (findBoundary_le gear c hv a).1
        have hpos := findBoundary_pos gear hw c hv a (by omega)
        rw [run_go gear hw c hv true _ (g s), e s, List.drop_append_of_le_length hle, List.take_append_of_le_length hle] at h₁
        rw [run_go gear hw c hv true _ (g t), e t, List.drop_append_of_le_length hle, List.take_append_of_le_length hle] at h₂
        obtain ⟨⟨d₁, q₁⟩, f₁, i₁⟩ := Option.map_eq_some_iff.mp h₁
        obtain ⟨⟨d₂, q₂⟩, f₂, i₂⟩ := Option.map_eq_some_iff.mp h₂
        simp only [Prod.mk.injEq] at i₁ i₂
        obtain ⟨L, l1, l2, l3⟩ := ih (a.drop (findBoundary gear c a)) (by simp; omega) s t d₁ d₂ q₁ q₂ f₁ f₂
        refine ⟨a.take (findBoundary gear c a) :: L, ?_, ?_, ?_⟩
        · rw [← i₁.1]; exact (List.prefix_cons_inj _).2 l1
        · rw [← i₂.1]; exact (List.prefix_cons_inj _).2 l2
        · simp at l3 ⊢; omega
  exact main a.length a (Nat.le_refl _)

/-- **C182 (in front of an edit).** If two inputs begin with the same bytes `a`, then they begin with the same chunks, and these cover all of
`a` but fewer than `max_size` bytes at its end. -/
theorem C182_before_edit (gear : UInt8 → BitVec w) (hw : 0 < w) (c : Config) (hv : c.Valid) (a s t : List UInt8) (blocks₁ blocks₂ : List (List UInt8))
    (hn₁ : ∀ x ∈ blocks₁, x ≠ []) (hn₂ : ∀ x ∈ blocks₂, x ≠ []) (hb₁ : blocks₁.flatten = a ++ s) (hb₂ : blocks₂.flatten = a ++ t)
    (cs₁ cs₂ : List (List UInt8)) (h₁ : chunkBlocks gear c blocks₁ = some cs₁) (h₂ : chunkBlocks gear c blocks₂ = some cs₂) :
    ∃ L, L <+: cs₁ ∧ L <+: cs₂ ∧ a.length < L.flatten.length + c.maxSize := by
  obtain ⟨r₁, e₁⟩ := chunks_run gear hw c hv _ hn₁ _ h₁
  obtain ⟨r₂, e₂⟩ := chunks_run gear hw c hv _ hn₂ _ h₂
  rw [hb₁] at e₁
  rw [hb₂] at e₂
  exact run_common gear hw c hv a s t cs₁ cs₂ r₁ r₂ e₁ e₂

/-- The chunk a position is in, if it is not a boundary. -/
theorem boundary_or_inside (cs : List (List UInt8)) (q : Nat) (hq : q ≤ cs.flatten.length) :
    Boundary cs q ∨ ∃ p x t, cs = p ++ x :: t ∧ p.flatten.length < q ∧ q < p.flatten.length + x.length := by
  induction cs generalizing q with
  | nil => exact Or.inl ⟨[], [], rfl, by simp at hq ⊢; omega⟩
  | cons x cs ih =>
    by_cases h0 : q = 0
    · exact Or.inl ⟨[], x :: cs, rfl, by simp [h0]⟩
    · by_cases hx : q < x.length
      · exact Or.inr ⟨[], x, cs, rfl, by simp; omega, by simpa using hx⟩
      · rw [List.flatten_cons, List.length_append] at hq
        rcases ih (q - x.length) (by omega) with ⟨p, t, e, h⟩ | ⟨p, y, t, e, h1, h2⟩
        · refine Or.inl ⟨x :: p, t, by rw [e]; rfl, ?_⟩
          rw [List.flatten_cons, List.length_append, h]; omega
        · refine Or.inr ⟨x :: p, y, t, by rw [e]; rfl, ?_, ?_⟩
          · rw [List.flatten_cons, List.length_append]; omega
          · rw [List.flatten_cons, List.length_append]; omega

/-- **C182 (isolated cut points).** If the hash of the `w` bytes in front of a position is at most the threshold, and no chunk begins in the
`max(min_size, w)` bytes in front of it, then a chunk ends there, whatever comes before and after. -/
theorem C182_isolated_cut (gear : UInt8 → BitVec w) (hw : 0 < w) (c : Config) (hv : c.Valid) (blocks : List (List UInt8)) (hne : ∀ b ∈ blocks, b ≠ [])
    (cs : List (List UInt8)) (h : chunkBlocks gear c blocks = some cs) (q : Nat) (hq : q ≤ blocks.flatten.length) (hwq : w ≤ q)
    (hh : (windowHash gear ((blocks.flatten.take q).drop (q - w))).toNat ≤ specThreshold w c)
    (hi : ∀ r, Boundary cs r → r < q → r + max c.minSize w ≤ q) : Boundary cs q := by
  have hl : cs.flatten = blocks.flatten := by
    obtain ⟨cs', h1, h2⟩ := C01_chunking_lossless gear hw c hv blocks
    rw [h] at h1; cases h1; exact h2
  rcases boundary_or_inside cs q (by rw [hl]; exact hq) with hb | ⟨p, x, t, e, h1, h2⟩
  · exact hb
  · exfalso
    have hs := hi p.flatten.length ⟨p, x :: t, e, rfl⟩ h1
    have hcut := C05_cut_point gear hw c hv blocks hne p x t (by rw [h, e])
    have hx : x.length + p.flatten.length ≤ blocks.flatten.length := by
      rw [← hl, e]; simp; omega
    generalize hd : blocks.flatten.drop p.flatten.length = data at hcut
    have hdl : data.length = blocks.flatten.length - p.flatten.length := by rw [← hd]; simp
    obtain ⟨j, hj⟩ : ∃ j, q = p.flatten.length + j := ⟨q - p.flatten.length, by omega⟩
    have hH : hashAt gear c data j = windowHash gear ((blocks.flatten.take q).drop (q - w)) := by
      rw [C05_hash_window gear c data j (by omega) (by omega) (by omega)]
      congr 1
      rw [← hd, List.take_drop, List.drop_drop, ← hj]
      congr 1
      omega
    have hT : (hashAt gear c data j).toNat ≤ specThreshold w c := by rw [hH]; exact hh
    obtain ⟨c1, c2⟩ := hcut
    by_cases hmin : data.length ≤ c.minSize
    · have := c1 hmin; omega
    · rcases c2 (by omega) with ⟨_, _, _, hall⟩ | ⟨hall, _, hle, _⟩
      · have := hall j (by omega) (by omega); omega
      · have := hall j (by omega) (by omega); omega

/-- **C182 (behind an edit).** Two inputs that end in the same bytes `s` have the same chunks from a position of `s` on, if the hash of the `w`
bytes of `s` in front of it is at most the threshold and neither has a chunk that begins in the `max(min_size, w)` bytes in front of it. -/
theorem C182_behind_edit (gear : UInt8 → BitVec w) (hw : 0 < w) (c : Config) (hv : c.Valid) (a b s : List UInt8) (blocks₁ blocks₂ : List (List UInt8))
    (hn₁ : ∀ x ∈ blocks₁, x ≠ []) (hn₂ : ∀ x ∈ blocks₂, x ≠ []) (hb₁ : blocks₁.flatten = a ++ s) (hb₂ : blocks₂.flatten = b ++ s)
    (cs₁ cs₂ : List (List UInt8)) (h₁ : chunkBlocks gear c blocks₁ = some cs₁) (h₂ : chunkBlocks gear c blocks₂ = some cs₂)
    (k : Nat) (hk : k ≤ s.length) (hwk : w ≤ k) (hh : (windowHash gear ((s.take k).drop (k - w))).toNat ≤ specThreshold w c)
    (hi₁ : ∀ r, Boundary cs₁ r → r < a.length + k → r + max c.minSize w ≤ a.length + k)
    (hi₂ : ∀ r, Boundary cs₂ r → r < b.length + k → r + max c.minSize w ≤ b.length + k) :
    ∃ p₁ p₂ t, cs₁ = p₁ ++ t ∧ cs₂ = p₂ ++ t ∧ t.flatten = s.drop k := by
  have win : ∀ u : List UInt8, ((u ++ s).take (u.length + k)).drop (u.length + k - w) = (s.take k).drop (k - w) := by
    intro u
    rw [List.take_length_add_append, show u.length + k - w = u.length + (k - w) by omega, List.drop_length_add_append]
  obtain ⟨p₁, t₁, e₁, l₁⟩ := C182_isolated_cut gear hw c hv blocks₁ hn₁ cs₁ h₁ (a.length + k) (by rw [hb₁]; simp; omega) (by omega)
    (by rw [hb₁, win]; exact hh) hi₁
  obtain ⟨p₂, t₂, e₂, l₂⟩ := C182_isolated_cut gear hw c hv blocks₂ hn₂ cs₂ h₂ (b.length + k) (by rw [hb₂]; simp; omega) (by omega)
    (by rw [hb₂, win]; exact hh) hi₂
  have split : ∀ (u : List UInt8) (blocks cs p t : List (List UInt8)), blocks.flatten = u ++ s → chunkBlocks gear c blocks = some cs → cs = p ++ t →
      p.flatten.length = u.length + k → p.flatten = u ++ s.take k ∧ t.flatten = s.drop k := by
    intro u blocks cs p t hb h e l
    have hl : p.flatten ++ t.flatten = (u ++ s.take k) ++ s.drop k := by
      obtain ⟨cs', h1, h2⟩ := C01_chunking_lossless gear hw c hv blocks
      rw [h] at h1; cases h1
      rw [e, List.flatten_append, hb] at h2
      rw [h2, List.append_assoc, List.take_append_drop]
    exact List.append_inj hl (by rw [l]; simp; omega)
  obtain ⟨f₁, g₁⟩ := split a blocks₁ cs₁ p₁ t₁ hb₁ h₁ e₁ l₁
  obtain ⟨f₂, g₂⟩ := split b blocks₂ cs₂ p₂ t₂ hb₂ h₂ e₂ l₂
  have ht : t₁ = t₂ := C04_resync gear hw c hv (a ++ s.take k) (b ++ s.take k) (s.drop k) blocks₁ blocks₂ hn₁ hn₂
    (by rw [hb₁, List.append_assoc, List.take_append_drop]) (by rw [hb₂, List.append_assoc, List.take_append_drop])
    p₁ t₁ p₂ t₂ (by rw [h₁, e₁]) f₁ (by rw [h₂, e₂]) f₂
  exact ⟨p₁, p₂, t₁, e₁, by rw [e₂, ht], g₁⟩

def exCfg2 : Config := ⟨8, 12, 24⟩
def exTail : List UInt8 := (List.range 60).map fun i => UInt8.ofNat (i * i * 7 + i / 3)

theorem boundary_take {cs : List (List UInt8)} {r : Nat} (h : Boundary cs r) : ∃ n, n < cs.length + 1 ∧ (cs.take n).flatten.length = r := by
  obtain ⟨p, t, rfl, e⟩ := h
  exact ⟨p.length, by simp; omega, by simpa using e⟩

/-- Two inputs with different beginnings, and an isolated cut point 34 bytes into the common tail. -/
example : ∃ a b cs₁ cs₂, a ≠ b ∧ chunkBlocks exGear exCfg2 [a ++ exTail] = some cs₁ ∧ chunkBlocks exGear exCfg2 [b ++ exTail] = some cs₂ ∧ exCfg2.Valid ∧
    (windowHash exGear ((exTail.take 34).drop (34 - 8))).toNat ≤ specThreshold 8 exCfg2 ∧
    (∀ r, Boundary cs₁ r → r < a.length + 34 → r + max exCfg2.minSize 8 ≤ a.length + 34) ∧
    (∀ r, Boundary cs₂ r → r < b.length + 34 → r + max exCfg2.minSize 8 ≤ b.length + 34) := by
  refine ⟨[9, 9], [1, 5, 7, 9], (chunkBlocks exGear exCfg2 [[9, 9] ++ exTail]).getD [], (chunkBlocks exGear exCfg2 [[1, 5, 7, 9] ++ exTail]).getD [],
    by decide, by decide +kernel, by decide +kernel, by decide, by decide +kernel, ?_, ?_⟩
  · intro r hr
    obtain ⟨n, hn, rfl⟩ := boundary_take hr
    clear hr; revert n
    decide +kernel
  · intro r hr
    obtain ⟨n, hn, rfl⟩ := boundary_take hr
    clear hr; revert n
    decide +kernel

end Verif.FastCdc
