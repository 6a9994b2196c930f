import Verif.Manifest.Builder
import Verif.Asset.Read

/-! # C27: moving the chunks of a file to indirect lists -/
namespace Verif.Manifest

/-! ### Specification -/

/-- A chunk list as seen from the start of the file: the offset of the list is added to that of each chunk. -/
def shift (off : Nat) (l : List Ref) : List Ref := l.map fun r => { r with offset := off + r.offset }

/-- The chunks of the given indirect lists; `none` if one of them is missing. -/
def flatIndirect (get : Id → Option (List Ref)) : List Indirect → Option (List Ref)
  | [] => some []
  | i :: is =>
    match get i.listId, flatIndirect get is with
    | some l, some r => some (shift i.offset l ++ r)
    | _, _ => none

/-- All chunks of a file with their absolute offsets, in order. -/
def flatChunks (get : Id → Option (List Ref)) (m : Meta) : Option (List Ref) :=
  (flatIndirect get m.indirect).map (m.chunks ++ ·)

/-- No two different chunk lists in the store have the same content id. -/
def NoChunkCollision (hash : Stored → Id) (store : List Stored) : Prop :=
  ∀ l l', .chunks l ∈ store → .chunks l' ∈ store → hash (.chunks l) = hash (.chunks l') → l = l'

/-- Content ids are short (they have 20 bytes, content_id.h) and offsets are 64 bit numbers. -/
def SmallRef (r : Ref) : Prop := r.id.length ≤ 100 ∧ r.offset < 2 ^ 64

/-! ### Sizes -/

theorem varintLen_small {n : Nat} (h : n < 128) : varintLen n = 1 := by
  unfold varintLen; simp [h]

theorem varintLen_step (n : Nat) : varintLen n ≤ varintLen (n / 128) + 1 := by
  rw [varintLen.eq_def n]; split <;> omega

theorem varintLen_pos (n : Nat) : 0 < varintLen n := by unfold varintLen; split <;> omega

theorem varintLen_le (k n : Nat) (h : n < 128 ^ (k + 1)) : varintLen n ≤ k + 1 := by
  induction k generalizing n with
  | zero => rw [varintLen_small (by simpa using h)]; omega
  | succ k ih =>
    have : n / 128 < 128 ^ (k + 1) := by
      rw [Nat.div_lt_iff_lt_mul (by decide)]; rw [Nat.pow_succ] at h; exact h
    have := ih _ this
    have := varintLen_step n
    omega

theorem refSize_lt {r : Ref} (h : SmallRef r) : refSize r < 128 := by
  obtain ⟨h1, h2⟩ := h
  have hid : idSize r.id ≤ 102 := by
    unfold idSize bytesField; split
    · omega
    · unfold lenField; rw [varintLen_small (by omega)]; omega
  have hoff : intField r.offset ≤ 11 := by
    unfold intField; split
    · omega
    · have := varintLen_le 9 r.offset (Nat.lt_of_lt_of_le h2 (by decide)); omega
  unfold refSize lenField
  rw [varintLen_small (by omega)]; omega

theorem lenField_refSize {r : Ref} (h : SmallRef r) : lenField (refSize r) = refSize r + overhead := by
  unfold lenField overhead; rw [varintLen_small (refSize_lt h)]; omega

theorem chunkListSize_append (l l' : List Ref) : chunkListSize (l ++ l') = chunkListSize l + chunkListSize l' := by
  simp [chunkListSize]

theorem chunkListSize_singleton (r : Ref) : chunkListSize [r] = lenField (refSize r) := by
  simp [chunkListSize]

theorem chunkListSize_pos {l : List Ref} (h : l ≠ []) : 0 < chunkListSize l := by
  cases l with
  | nil => exact absurd rfl h
  | cons r l => simp only [chunkListSize, List.map_cons, List.sum_cons, lenField]; omega

/-! ### The second loop -/

theorem shift_append (off : Nat) (l l' : List Ref) : shift off (l ++ l') = shift off l ++ shift off l' := by
  simp [shift]

/-- What the reader sees in the lists that were written. -/
def joined : List (Nat × List Ref) → List Ref
  | [] => []
  | e :: es => shift e.1 e.2 ++ joined es

theorem packChunks_spec (hash : Stored → Id) (limit : Nat) (over : List Ref) (base : Nat) (cur : List Ref) (size : Nat)
    (hsort : over.Pairwise fun a b => a.offset ≤ b.offset) (hbase : ∀ r ∈ over, base ≤ r.offset)
    (hsz : cur = [] → size = 0)
    (hz : cur = [] ∧ (over.head?.map Ref.offset = some base) ∨ ∃ id tl, cur = ⟨0, id⟩ :: tl) :
    ∃ es : List (Nat × List Ref),
      (packChunks hash limit over base cur size).1 = es.map (fun e => ⟨e.1, hash (.chunks e.2)⟩) ∧
      (packChunks hash limit over base cur size).2 = es.map Prod.snd ∧
      joined es = shift base cur ++ over ∧
      ∀ e ∈ es, ∃ id tl, e.2 = ⟨0, id⟩ :: tl := by
  induction over generalizing base cur size with
  | nil =>
    have hz : ∃ id tl, cur = ⟨0, id⟩ :: tl := hz.resolve_left (by simp)
    exact ⟨[(base, cur)], by simp [packChunks], by simp [packChunks], by simp [joined], by simpa using hz⟩
  | cons r over ih =>
    obtain ⟨h1, h2⟩ := List.pairwise_cons.mp hsort
    have hr := hbase r (by simp)
    unfold packChunks
    dsimp only
    split
    · rename_i hc
      obtain ⟨es, e1, e2, e3, e4⟩ := ih r.offset [{ r with offset := 0 }]
        (if refSize { r with offset := 0 } + overhead > limit then chunkListSize [{ r with offset := 0 }]
          else refSize { r with offset := 0 } + overhead) h2 h1 (by simp) (.inr ⟨_, _, rfl⟩)
      refine ⟨(base, cur) :: es, ?_, ?_, ?_, ?_⟩
      · simp only [List.map_cons]; rw [← e1]
      · simp only [List.map_cons]; rw [← e2]
      · simp only [joined, e3]; simp [shift]
      · intro e he
        rcases List.mem_cons.mp he with rfl | he
        · refine hz.resolve_left ?_
          rintro ⟨rfl, -⟩
          exact absurd (hsz rfl) (by omega)
        · exact e4 e he
    · obtain ⟨es, e1, e2, e3, e4⟩ := ih base (cur ++ [{ r with offset := r.offset - base }]) _ h2
        (fun x hx => hbase x (by simp [hx])) (by simp) (by
          rcases hz with ⟨rfl, hb⟩ | ⟨id, tl, rfl⟩
          · simp only [List.head?_cons, Option.map_some, Option.some.injEq] at hb
            exact .inr ⟨r.id, [], by simp [hb]⟩
          · exact .inr ⟨id, _, rfl⟩)
      refine ⟨es, e1, e2, ?_, e4⟩
      rw [e3, shift_append, List.append_assoc]
      have : base + (r.offset - base) = r.offset := by omega
      simp [shift, this]

theorem packChunks_sizes (hash : Stored → Id) (limit : Nat) (over : List Ref) (base : Nat) (cur : List Ref) (size : Nat)
    (hsmall : ∀ r ∈ over, SmallRef r) (hsize : size = chunkListSize cur)
    (hcur : cur.length ≤ 1 ∨ chunkListSize cur ≤ limit) (hne : cur ≠ [] ∨ over ≠ []) :
    ∀ l ∈ (packChunks hash limit over base cur size).2, l ≠ [] ∧ (l.length = 1 ∨ chunkListSize l ≤ limit) := by
  induction over generalizing base cur size with
  | nil =>
    intro l hl
    simp only [packChunks, List.mem_singleton] at hl
    subst hl
    have hne : l ≠ [] := hne.resolve_right (by simp)
    refine ⟨hne, hcur.imp_left fun h => ?_⟩
    have := List.length_pos_iff.mpr hne; omega
  | cons r over ih =>
    have hsr := hsmall r (by simp)
    have hs' : ∀ x ∈ over, SmallRef x := fun x hx => hsmall x (by simp [hx])
    have hrel : SmallRef { r with offset := r.offset - base } := ⟨hsr.1, by have := hsr.2; dsimp only; omega⟩
    have hzero : SmallRef { r with offset := 0 } := ⟨hsr.1, by dsimp only; omega⟩
    unfold packChunks
    dsimp only
    split
    · rename_i hc
      have hcne : cur ≠ [] := by
        rintro rfl; simp [chunkListSize] at hsize; omega
      intro l hl
      rcases List.mem_cons.mp hl with rfl | hl
      · refine ⟨hcne, hcur.imp_left fun h => ?_⟩
        have := List.length_pos_iff.mpr hcne; omega
      · refine ih _ _ _ hs' ?_ (.inl (by simp)) (.inl (by simp)) l hl
        rw [chunkListSize_singleton, lenField_refSize hzero]; split <;> rfl
    · rename_i hc
      have hs : chunkListSize (cur ++ [{ r with offset := r.offset - base }])
          = size + (refSize { r with offset := r.offset - base } + overhead) := by
        rw [chunkListSize_append, chunkListSize_singleton, lenField_refSize hrel, hsize]
      refine ih _ _ _ hs' ?_ ?_ (.inl (by simp))
      · split
        · rfl
        · exact hs.symm
      · rw [not_and] at hc
        rcases Nat.eq_zero_or_pos size with h0 | h0
        · left
          have : cur = [] := by
            by_contra hne; have := chunkListSize_pos hne; omega
          simp [this]
        · right; rw [hs]; have := hc h0; omega

/-! ### The first loop -/

theorem takeChunks_spec (limit : Nat) (full : List Ref → Nat) (rev : List Ref) (size : Nat) (over : List Ref) :
    (takeChunks limit full rev size over).1.reverse ++ (takeChunks limit full rev size over).2 = rev.reverse ++ over := by
  induction rev generalizing size over with
  | nil => simp [takeChunks]
  | cons r rev ih =>
    unfold takeChunks
    dsimp only
    split
    · rw [ih]; simp
    · rfl

/-! ### The store -/

theorem findChunks_some {hash : Stored → Id} {store : List Stored} {id : Id} {l : List Ref}
    (h : findChunks hash store id = some l) : .chunks l ∈ store ∧ hash (.chunks l) = id := by
  unfold findChunks at h
  obtain ⟨l₁, a, l₂, rfl, ha, -⟩ := List.findSome?_eq_some_iff.mp h
  cases a with
  | chunks l' =>
    dsimp only at ha
    split at ha
    · cases ha; exact ⟨by simp, by assumption⟩
    · cases ha
  | assets => cases ha
  | manifest => cases ha

theorem findChunks_exists {hash : Stored → Id} {store : List Stored} {l : List Ref}
    (h : .chunks l ∈ store) : ∃ l', findChunks hash store (hash (.chunks l)) = some l' := by
  rw [← Option.isSome_iff_exists]
  unfold findChunks
  rw [List.findSome?_isSome_iff]
  exact ⟨_, h, by simp⟩

theorem findChunks_of_mem {hash : Stored → Id} {store : List Stored} (hc : NoChunkCollision hash store) {l : List Ref}
    (h : .chunks l ∈ store) : findChunks hash store (hash (.chunks l)) = some l := by
  obtain ⟨l', hl'⟩ := findChunks_exists (hash := hash) h
  obtain ⟨h1, h2⟩ := findChunks_some hl'
  rw [hl', hc l' l h1 h h2]

theorem flatIndirect_entries {hash : Stored → Id} {store : List Stored} (hc : NoChunkCollision hash store)
    (es : List (Nat × List Ref)) (h : ∀ e ∈ es, .chunks e.2 ∈ store) :
    flatIndirect (findChunks hash store) (es.map fun e => ⟨e.1, hash (.chunks e.2)⟩) = some (joined es) := by
  induction es with
  | nil => rfl
  | cons e es ih =>
    simp only [List.map_cons, flatIndirect]
    rw [findChunks_of_mem hc (h e (by simp)), ih fun x hx => h x (by simp [hx])]
    rfl

/-- `enforceFile` in terms of the entries that were created. -/
theorem enforceFile_spec (cfg : Cfg) (limit : Nat) (file file' : Asset) (w w' : Work)
    (hsort : file.info.chunks.Pairwise fun a b => a.offset ≤ b.offset)
    (h : enforceFile cfg limit file w = some (file', w')) :
    (file' = file ∧ w' = w) ∨
    file.info.indirect = [] ∧ ∃ (direct : List Ref) (es : List (Nat × List Ref)),
      file' = .mk { file.info with chunks := direct, indirect := es.map fun e => ⟨e.1, cfg.hash (.chunks e.2)⟩ }
        file.children file.indirect ∧
      w' = { w with store := w.store ++ es.map fun e => .chunks e.2 } ∧
      direct ++ joined es = file.info.chunks ∧ ∀ e ∈ es, ∃ id tl, e.2 = ⟨0, id⟩ :: tl := by
  unfold enforceFile at h
  dsimp only at h
  split at h
  · cases h; exact .inl ⟨rfl, rfl⟩
  split at h
  · cases h
  rename_i hni
  rw [not_not] at hni
  have ht := takeChunks_spec limit (fun l => assetSize (.mk { file.info with chunks := l } file.children file.indirect))
    file.info.chunks.reverse (assetSize file) []
  split at h
  · cases h; exact .inl ⟨rfl, rfl⟩
  · rename_i r tl heq
    right
    refine ⟨hni, ?_⟩
    rw [List.reverse_reverse, List.append_nil] at ht
    rw [heq] at ht
    have hs2 : (r :: tl).Pairwise fun a b => a.offset ≤ b.offset := by
      rw [← ht] at hsort; exact (List.pairwise_append.mp hsort).2.1
    obtain ⟨es, e1, e2, e3, e4⟩ := packChunks_spec cfg.hash cfg.maxSize (r :: tl) r.offset [] 0 hs2
      (by intro x hx; rcases List.mem_cons.mp hx with rfl | hx
          · exact Nat.le_refl _
          · exact (List.pairwise_cons.mp hs2).1 x hx) (fun _ => rfl) (.inl ⟨rfl, rfl⟩)
    rw [heq] at h
    simp only [Option.some.injEq, Prod.mk.injEq] at h
    obtain ⟨rfl, rfl⟩ := h
    refine ⟨(takeChunks limit (fun l => assetSize (.mk { file.info with chunks := l } file.children file.indirect))
        file.info.chunks.reverse (assetSize file) []).1.reverse, es, ?_, ?_, ?_, e4⟩
    · rw [e1]
    · rw [e2, List.map_map]; rfl
    · rw [e3]; exact ht

/-- C27: limiting the size of a file entry changes nothing but where the chunks are listed: a reader of the store
finds the same chunks at the same absolute offsets, in the same order. (Offsets ascend in every file the builder
is given.) -/
theorem C27_same_chunks (cfg : Cfg) (limit : Nat) (file file' : Asset) (w w' : Work)
    (hsort : file.info.chunks.Pairwise fun a b => a.offset ≤ b.offset)
    (h : enforceFile cfg limit file w = some (file', w'))
    (hc : NoChunkCollision cfg.hash w'.store) (chunks : List Ref)
    (hold : flatChunks (findChunks cfg.hash w.store) file.info = some chunks) :
    flatChunks (findChunks cfg.hash w'.store) file'.info = some chunks ∧
    { file'.info with chunks := [], indirect := [] } = { file.info with chunks := [], indirect := [] } ∧
    file'.children = file.children ∧ file'.indirect = file.indirect ∧
    w'.lists = w.lists ∧ w.store <+: w'.store := by
  rcases enforceFile_spec cfg limit file file' w w' hsort h with ⟨rfl, rfl⟩ | ⟨hni, direct, es, rfl, rfl, hj, -⟩
  · exact ⟨hold, rfl, rfl, rfl, rfl, List.prefix_rfl⟩
  · refine ⟨?_, rfl, rfl, rfl, rfl, ⟨_, rfl⟩⟩
    rw [flatChunks, hni] at hold
    simp only [flatIndirect, Option.map_some, List.append_nil, Option.some.injEq] at hold
    unfold flatChunks
    simp only [Asset.info_mk]
    rw [flatIndirect_entries hc es (fun e he => List.mem_append_right _ (List.mem_map.mpr ⟨e, he, rfl⟩))]
    rw [Option.map_some, hj, hold]

/-- C27: every chunk list that is written fits the chunk size, unless it holds a single chunk. -/
theorem C27_lists_fit (cfg : Cfg) (limit : Nat) (file file' : Asset) (w w' : Work)
    (hsmall : ∀ r ∈ file.info.chunks, SmallRef r)
    (h : enforceFile cfg limit file w = some (file', w')) :
    ∃ ls : List (List Ref), w'.store = w.store ++ ls.map .chunks ∧
      ∀ l ∈ ls, l ≠ [] ∧ (l.length = 1 ∨ chunkListSize l ≤ cfg.maxSize) := by
  unfold enforceFile at h
  dsimp only at h
  split at h
  · cases h; exact ⟨[], by simp, by simp⟩
  split at h
  · cases h
  have ht := takeChunks_spec limit (fun l => assetSize (.mk { file.info with chunks := l } file.children file.indirect))
    file.info.chunks.reverse (assetSize file) []
  split at h
  · cases h; exact ⟨[], by simp, by simp⟩
  · rename_i r tl heq
    rw [List.reverse_reverse, List.append_nil, heq] at ht
    rw [heq] at h
    simp only [Option.some.injEq, Prod.mk.injEq] at h
    obtain ⟨rfl, rfl⟩ := h
    refine ⟨_, rfl, packChunks_sizes cfg.hash cfg.maxSize _ _ [] 0 ?_ rfl (.inl (by simp)) (.inr (by simp))⟩
    intro x hx
    exact hsmall x (by rw [← ht]; simp only [List.mem_append]; exact .inr hx)

theorem takeChunks_fits (limit : Nat) (full : List Ref → Nat) : ∀ (rev : List Ref) (size : Nat) (over : List Ref),
    (size ≤ limit → full rev.reverse ≤ limit) →
    (takeChunks limit full rev size over).1 = [] ∨ full (takeChunks limit full rev size over).1.reverse ≤ limit := by
  intro rev
  induction rev with
  | nil => intro size over _; exact .inl rfl
  | cons r rev ih =>
    intro size over h
    unfold takeChunks
    split
    · dsimp only
      apply ih
      split
      · exact id
      · intro h'; contradiction
    · rename_i hs
      exact .inr (h (by omega))

/-- **C27, what stays in the file.** Of a file with at least two chunks, only so many stay in its own list that the file is not above the
limit, without the entries for the new lists; a file with one chunk stays as it is. -/
theorem C27_direct_fits (cfg : Cfg) (limit : Nat) (hl : 0 < limit) (file file' : Asset) (w w' : Work)
    (h : enforceFile cfg limit file w = some (file', w')) :
    if 2 ≤ file.info.chunks.length then file'.info.chunks = [] ∨
      assetSize (.mk { file'.info with indirect := [] } file'.children file'.indirect) ≤ limit
    else file' = file ∧ w' = w := by
  unfold enforceFile at h
  dsimp only at h
  split at h
  · rename_i hc
    rw [if_neg (by omega)]
    cases h
    exact ⟨rfl, rfl⟩
  rename_i hc
  rw [if_pos (by omega)]
  split at h
  · cases h
  rename_i hni
  rw [not_not] at hni
  have hself : ∀ a : Asset, Asset.mk { a.info with chunks := a.info.chunks } a.children a.indirect = a := by
    intro a; cases a; rfl
  have hself' : ∀ a : Asset, a.info.indirect = [] → Asset.mk { a.info with indirect := [] } a.children a.indirect = a := by
    intro a ha
    cases a with
    | mk m c i =>
      cases m
      simp only [Asset.info] at ha
      subst ha
      rfl
  have hf := takeChunks_fits limit (fun l => assetSize (.mk { file.info with chunks := l } file.children file.indirect))
    file.info.chunks.reverse (assetSize file) [] (by
      intro h'
      dsimp only
      rw [List.reverse_reverse, hself]
      exact h')
  have ht := takeChunks_spec limit (fun l => assetSize (.mk { file.info with chunks := l } file.children file.indirect))
    file.info.chunks.reverse (assetSize file) []
  generalize takeChunks limit (fun l => assetSize (.mk { file.info with chunks := l } file.children file.indirect))
    file.info.chunks.reverse (assetSize file) [] = t at h hf ht
  obtain ⟨rev, over⟩ := t
  dsimp only at h hf ht
  cases over with
  | nil =>
    cases h
    rw [List.append_nil, List.append_nil, List.reverse_reverse] at ht
    rcases hf with hf | hf
    · left
      rw [← ht, hf]; rfl
    · right
      rw [hself' _ hni]
      rw [ht, hself] at hf
      exact hf
  | cons r tl =>
    simp only [Option.some.injEq, Prod.mk.injEq] at h
    obtain ⟨rfl, rfl⟩ := h
    rcases hf with hf | hf
    · left; rw [hf]; rfl
    · right
      have e : ({ ({ file.info with chunks := rev.reverse, indirect := (packChunks cfg.hash cfg.maxSize (r :: tl) r.offset [] 0).1 } : Meta) with
        indirect := [] } : Meta) = { file.info with chunks := rev.reverse } := by
        rw [← hni]
      show assetSize (.mk _ _ _) ≤ limit
      simp only [Asset.info, Asset.children, Asset.indirect]
      first
        | (rw [e]; exact hf)
        | (simp only [Asset.info] at e; rw [e]; exact hf)
        | exact hf

/-! ### Composition with reading (C25) -/

open Verif.Asset (refsAt indirectAt bytes Encodes)

theorem refsAt_append (truth : Id → List UInt8) (off : Nat) (a b : List Id) :
    refsAt truth off (a ++ b) = refsAt truth off a ++ refsAt truth (off + (bytes truth a).length) b := by
  induction a generalizing off with
  | nil => simp [refsAt, bytes]
  | cons x a ih => simp [refsAt, ih, bytes, Nat.add_assoc]

theorem refsAt_shift (truth : Id → List UInt8) (off off' : Nat) (a : List Id) :
    refsAt truth (off + off') a = shift off (refsAt truth off' a) := by
  induction a generalizing off' with
  | nil => rfl
  | cons x a ih => simp only [refsAt, shift, List.map_cons]; rw [Nat.add_assoc, ih]; rfl

theorem shift_injective (off : Nat) {a b : List Ref} (h : shift off a = shift off b) : a = b := by
  induction a generalizing b with
  | nil => cases b with
    | nil => rfl
    | cons => simp [shift] at h
  | cons x a ih => cases b with
    | nil => simp [shift] at h
    | cons y b =>
      simp only [shift, List.map_cons, List.cons.injEq, Ref.mk.injEq] at h
      have : x = y := by
        obtain ⟨⟨h1, h2⟩, -⟩ := h
        cases x; cases y; simp_all
      rw [this, ih h.2]

theorem refsAt_split (truth : Id → List UInt8) (off : Nat) (ids : List Id) (a b : List Ref)
    (h : a ++ b = refsAt truth off ids) :
    ∃ i j, ids = i ++ j ∧ a = refsAt truth off i ∧ b = refsAt truth (off + (bytes truth i).length) j := by
  induction a generalizing off ids with
  | nil => exact ⟨[], ids, rfl, rfl, by simpa [bytes] using h⟩
  | cons x a ih =>
    cases ids with
    | nil => simp [refsAt] at h
    | cons id ids =>
      simp only [refsAt, List.cons_append, List.cons.injEq] at h
      obtain ⟨i, j, rfl, h2, h3⟩ := ih _ _ h.2
      refine ⟨id :: i, j, rfl, ?_, ?_⟩
      · rw [h.1, h2]; rfl
      · rw [h3]; simp [bytes, Nat.add_assoc]

theorem joined_refsAt (truth : Id → List UInt8) (hash : Stored → Id) (off : Nat) (ids : List Id)
    (es : List (Nat × List Ref)) (hz : ∀ e ∈ es, ∃ id tl, e.2 = ⟨0, id⟩ :: tl) (h : joined es = refsAt truth off ids) :
    ∃ lists : List (Id × List Id),
      (es.map fun e => (⟨e.1, hash (.chunks e.2)⟩ : Indirect)) = indirectAt truth off lists ∧
      (∀ l ∈ lists, ∃ e ∈ es, l.1 = hash (.chunks e.2) ∧ e.2 = refsAt truth 0 l.2) ∧
      bytes truth ids = (lists.map fun l => bytes truth l.2).flatten := by
  induction es generalizing off ids with
  | nil =>
    cases ids with
    | nil => exact ⟨[], rfl, by simp, rfl⟩
    | cons => simp [joined, refsAt] at h
  | cons e es ih =>
    obtain ⟨i, j, rfl, h1, h2⟩ := refsAt_split truth off ids _ _ h
    obtain ⟨id, tl, he⟩ := hz e (by simp)
    have hoff : e.1 = off := by
      rw [he] at h1
      cases i with
      | nil => simp [shift, refsAt] at h1
      | cons x i => simp [shift, refsAt] at h1; exact h1.1.1
    have h1' : e.2 = refsAt truth 0 i := by
      apply shift_injective off
      rw [← refsAt_shift, Nat.add_zero, ← h1, hoff]
    obtain ⟨lists, h3, h4, h5⟩ := ih _ _ (fun x hx => hz x (by simp [hx])) h2
    refine ⟨(hash (.chunks e.2), i) :: lists, ?_, ?_, ?_⟩
    · simp only [List.map_cons, indirectAt]; rw [h3, hoff]
    · intro l hl
      rcases List.mem_cons.mp hl with rfl | hl
      · exact ⟨e, by simp, rfl, h1'⟩
      · obtain ⟨e', he', h6⟩ := h4 l hl; exact ⟨e', by simp [he'], h6⟩
    · simp only [List.map_cons, List.flatten_cons]; rw [← h5]; simp [bytes]

theorem refsAt_sorted (truth : Id → List UInt8) (off : Nat) (ids : List Id) :
    (refsAt truth off ids).Pairwise (fun a b => a.offset ≤ b.offset) ∧ ∀ r ∈ refsAt truth off ids, off ≤ r.offset := by
  induction ids generalizing off with
  | nil => simp [refsAt]
  | cons id ids ih =>
    obtain ⟨h1, h2⟩ := ih (off + (truth id).length)
    refine ⟨List.pairwise_cons.mpr ⟨fun r hr => ?_, h1⟩, ?_⟩
    · have := h2 r hr; dsimp only; omega
    · intro r hr
      rcases List.mem_cons.mp hr with rfl | hr
      · exact Nat.le_refl _
      · have := h2 r hr; omega

/-- C27: an entry that describes a file's content (in the sense of C25) still describes it after its chunks have been
moved to indirect lists, so that reading the file gives the same bytes. -/
theorem C27_reads_the_same (truth : Id → List UInt8) (cfg : Cfg) (limit : Nat) (file file' : Asset) (w w' : Work)
    (S S' : Verif.Asset.Store) (content : List UInt8) (hnew : file.info.indirect = [])
    (hold : Encodes truth S file content)
    (h : enforceFile cfg limit file w = some (file', w'))
    (hc : NoChunkCollision cfg.hash w'.store) (hS' : S'.chunkLists = findChunks cfg.hash w'.store) :
    Encodes truth S' file' content := by
  obtain ⟨direct, lists, h1, h2, h3, h4, h5, h6⟩ := hold
  have hl : lists = [] := by
    rw [hnew] at h4
    cases lists with
    | nil => rfl
    | cons => simp [indirectAt] at h4
  subst hl
  simp only [List.map_nil, List.flatten_nil, List.append_nil] at h6
  have hs : file.info.chunks.Pairwise fun a b => a.offset ≤ b.offset := by
    rw [h3]; exact (refsAt_sorted truth 0 direct).1
  rcases enforceFile_spec cfg limit file file' w w' hs h with ⟨rfl, rfl⟩ | ⟨-, dir', es, rfl, rfl, hj, hz⟩
  · exact ⟨direct, [], h1, h2, h3, h4, by simp, by simp [h6]⟩
  · rw [h3] at hj
    obtain ⟨i, j, rfl, e1, e2⟩ := refsAt_split truth 0 direct _ _ hj
    rw [Nat.zero_add] at e2
    obtain ⟨lists, e3, e4, e5⟩ := joined_refsAt truth cfg.hash _ j es hz e2
    refine ⟨i, lists, h1, h2, e1, e3, ?_, ?_⟩
    · intro l hl
      obtain ⟨e, he, e6, e7⟩ := e4 l hl
      rw [hS', e6, ← e7]
      exact findChunks_of_mem hc (List.mem_append_right _ (List.mem_map.mpr ⟨e, he, rfl⟩))
    · rw [h6, ← e5]; simp [bytes]

/-! ### Example: a file with six chunks, of which the last five are moved to three lists -/

namespace Example

def hash : Stored → Id
  | .chunks l => l.map fun r => r.id.headD 0
  | _ => [255]

def cfg : Cfg := { maxSize := 20, hash := hash, sort := id, now := 0 }

def file : Asset := .mk { name := [97], kind := .file, fileSize := 60, chunks := refsAt (fun _ => List.replicate 10 0) 0 [[1], [2], [3], [4], [5], [6]] } [] []

def file' : Asset :=
  .mk { file.info with chunks := [⟨0, [1]⟩], indirect := [⟨10, [2, 3]⟩, ⟨30, [4, 5]⟩, ⟨50, [6]⟩] } [] []

def store' : List Stored :=
  [.chunks [⟨0, [2]⟩, ⟨10, [3]⟩], .chunks [⟨0, [4]⟩, ⟨10, [5]⟩], .chunks [⟨0, [6]⟩]]

theorem enforced : enforceFile cfg 20 file ⟨[], []⟩ = some (file', ⟨[], store'⟩) := by
  with_unfolding_all rfl

theorem noCollision : NoChunkCollision hash store' := by
  intro l l' h h' e
  simp only [store', List.mem_cons, Stored.chunks.injEq, List.not_mem_nil, or_false] at h h'
  rcases h with rfl | rfl | rfl <;> rcases h' with rfl | rfl | rfl <;> first | rfl | (revert e; decide)

/-- The hypotheses of the theorems hold for this file. -/
example : flatChunks (findChunks hash store') file'.info = some file.info.chunks :=
  (C27_same_chunks cfg 20 file file' ⟨[], []⟩ ⟨[], store'⟩ (refsAt_sorted _ _ _).1 enforced noCollision _ rfl).1

example : ∀ r ∈ file.info.chunks, SmallRef r := by
  intro r hr
  have : r.id.length ≤ 100 ∧ r.offset < 2 ^ 64 := by revert r; decide
  exact this

example : Encodes (fun _ => List.replicate 10 0) { chunkLists := fun _ => none, assetLists := fun _ => none, fails := False, conc := False } file
    (List.replicate 60 0) :=
  ⟨[[1], [2], [3], [4], [5], [6]], [], rfl, rfl, rfl, rfl, by simp, rfl⟩

end Example

end Verif.Manifest
