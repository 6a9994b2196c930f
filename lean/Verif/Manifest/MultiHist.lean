import Verif.Manifest.MultiFlush

/-! # Manifests that are changed and saved again and again (C30, C80)

A builder is filled, flushed, changed, flushed again, loaded from an earlier manifest, and so on; directories may have been moved to asset
lists. The manifests are compared with plain file trees on which the same operations were done. -/
namespace Verif.Manifest

/-! ### Specification -/

/-- A change of the fields of an asset that either leaves the chunks alone or replaces them: all setters of `AssetBuilder` except
`AppendChunk`, asset_builder.cc:45-96, asset_builder.h:41-52, 122-124. -/
structure Change (g : Meta → Meta) : Prop where
  name : ∀ m, (g m).name = m.name
  kind : ∀ m, (g m).kind = m.kind
  chunks : (∀ m cs is, g { m with chunks := cs, indirect := is } = { g m with chunks := cs, indirect := is }) ∨
    ∃ cs : List Ref, (cs.Pairwise fun a b => a.offset ≤ b.offset) ∧ ∀ m, ((g m).chunks = cs ∧ (g m).indirect = []) ∧
      ∀ cs is, g { m with chunks := cs, indirect := is } = g m

/-- `Hist cfg b G F L Q`: a builder was used with a store, and is now `b`. `F` is the file tree that results from the same operations, `G` is what
it was when the builder was last loaded or flushed, and `L` are the manifests that were saved, each with its file tree at that time. `Q` has for
each flush the tree at the last flush or load before it and the tree that was flushed. -/
inductive Hist (cfg : Cfg) : Builder → Tree → Tree → List (Id × Tree) → List (Tree × Tree) → Prop where
  | start (S : List Stored) : Hist cfg { root := newAsset cfg [] .directory, store := S } (Tree.root (newMeta cfg [] .directory))
      (Tree.root (newMeta cfg [] .directory)) [] []
  | new {b G F L Q} : Hist cfg b G F L Q → Hist cfg { root := newAsset cfg [] .directory, store := b.store } (Tree.root (newMeta cfg [] .directory))
      (Tree.root (newMeta cfg [] .directory)) L Q
  | edit {b b' G F L Q} (kind : Kind) (force : Bool) (path : List Name) (name : Name) (g : Meta → Meta) : Hist cfg b G F L Q → Change g →
      editAsset cfg kind force path name (onInfo g) b = .ok b' → Hist cfg b' G (F.put (newMeta cfg) (path ++ [name]) kind g) L Q
  | delete {b b' G F L Q} (path : List Name) (name : Name) : Hist cfg b G F L Q → deleteAsset cfg path name b = .ok b' →
      Hist cfg b' G (F.delete (path ++ [name])) L Q
  | flush {b b' G F L Q} (fuel : Nat) (id : Id) : Hist cfg b G F L Q → flush cfg fuel b = some (id, b') →
      Hist cfg b' F F ((id, F) :: L) ((G, F) :: Q)
  | load {b b' G F L Q} (id : Id) (T : Tree) : Hist cfg b G F L Q → (id, T) ∈ L → loadManifest cfg b.store id = some b' → Hist cfg b' T T L Q

/-! ### Reading and changing -/

section
variable {hash : Stored → Id} {S : List Stored}

theorem seen_kind {m m' : Meta} (h : seen hash S (.mk m [] []) = some m') : m'.kind = m.kind := by
  unfold seen at h
  obtain ⟨cs, -, rfl⟩ := Option.map_eq_some_iff.mp h
  rfl

theorem seen_new (cfg : Cfg) (n : Name) (k : Kind) : seen hash S (.mk (newMeta cfg n k) [] []) = some (newMeta cfg n k) := rfl

theorem rd_new (cfg : Cfg) (n : Name) (k : Kind) : Rd hash S (newMeta cfg n k) := ⟨.nil, (fun _ h => nomatch h), [], rfl⟩

theorem Change.rd {g : Meta → Meta} (h : Change g) {m : Meta} (hm : Rd hash S m) : Rd hash S (g m) := by
  rcases h.chunks with hk | ⟨cs, hcs, hk⟩
  · have h1 := hk m m.chunks m.indirect
    have e1 := congrArg Meta.chunks h1
    have e2 := congrArg Meta.indirect h1
    have e1 : (g m).chunks = m.chunks := e1
    have e2 : (g m).indirect = m.indirect := e2
    unfold Rd Ascends Laid flatChunks at *
    rw [e1, e2]; exact hm
  · unfold Rd Ascends Laid flatChunks
    rw [(hk m).1.1, (hk m).1.2]
    exact ⟨hcs, (fun _ h => nomatch h), _, rfl⟩

theorem Change.seen {g : Meta → Meta} (h : Change g) {m : Meta} (hm : Rd hash S m) :
    seen hash S (.mk (g m) [] []) = (seen hash S (.mk m [] [])).map g := by
  obtain ⟨-, -, cs0, hcs0⟩ := hm
  unfold Manifest.seen
  simp only [Asset.info_mk]
  rw [hcs0]
  rcases h.chunks with hk | ⟨cs, -, hk⟩
  · have h1 := hk m m.chunks m.indirect
    have e1 := congrArg Meta.chunks h1
    have e2 := congrArg Meta.indirect h1
    have e1 : (g m).chunks = m.chunks := e1
    have e2 : (g m).indirect = m.indirect := e2
    have : flatChunks (findChunks hash S) (g m) = some cs0 := by unfold flatChunks at hcs0 ⊢; rw [e1, e2]; exact hcs0
    rw [this]
    simp only [Option.map_some, Option.some.injEq]
    exact (hk m cs0 []).symm
  · have : flatChunks (findChunks hash S) (g m) = some (g m).chunks := by unfold flatChunks; rw [(hk m).1.2]; simp [flatIndirect]
    rw [this]
    simp only [Option.map_some, Option.some.injEq]
    refine Eq.trans ?_ ((hk m).2 cs0 []).symm
    have hi := (hk m).1.2
    generalize g m = m' at hi ⊢
    cases m'
    simp only at hi
    subst hi; rfl

theorem Change.field {g : Meta → Meta} (h : Change g) : FieldChange (Rd hash S) g := ⟨h.name, h.kind, fun _ hm => h.rd hm⟩

theorem reads_isKind {F : Tree} (hF : ∀ p m, F p = some m → Rd hash S m) (t : List Name) (k : Kind) :
    Tree.isKind (reads hash S F) t k ↔ F.isKind t k := by
  unfold Tree.isKind reads
  constructor
  · rintro ⟨m, hm, hk⟩
    obtain ⟨m0, h0, h1⟩ := Option.bind_eq_some_iff.mp hm
    exact ⟨m0, h0, (seen_kind h1).symm.trans hk⟩
  · rintro ⟨m, hm, hk⟩
    obtain ⟨m', hm'⟩ := rd_seen (hF t m hm)
    exact ⟨m', by rw [hm]; exact hm', (seen_kind hm').trans hk⟩

theorem reads_isDir {F : Tree} (hF : ∀ p m, F p = some m → Rd hash S m) (t : List Name) : Tree.isDir (reads hash S F) t ↔ F.isDir t :=
  reads_isKind hF t .directory

/-- Changing an asset and then reading is reading and then changing. -/
theorem reads_put {F : Tree} (hF : ∀ p m, F p = some m → Rd hash S m) (cfg : Cfg) {g : Meta → Meta} (hg : Change g) (t : List Name) (k : Kind) :
    reads hash S (F.put (newMeta cfg) t k g) = Tree.put (newMeta cfg) t k g (reads hash S F) := by
  funext p
  unfold Tree.put
  simp only [reads_isKind hF, reads_isDir hF]
  unfold reads
  simp only
  by_cases h1 : p = t
  · subst h1
    rw [if_pos rfl, if_pos rfl, Option.bind_some]
    by_cases hk : F.isKind p k
    · rw [if_pos hk, if_pos hk]
      obtain ⟨m, hm, -⟩ := hk
      rw [hm, Option.getD_some, Option.bind_some, hg.seen (hF p m hm)]
      obtain ⟨m', hm'⟩ := rd_seen (hF p m hm)
      rw [hm']; rfl
    · rw [if_neg hk, if_neg hk, hg.seen (rd_new cfg _ _), seen_new]; rfl
  rw [if_neg h1, if_neg h1]
  by_cases h2 : t <+: p
  · rw [if_pos h2, if_pos h2]
    by_cases hk : F.isKind t k
    · rw [if_pos hk, if_pos hk]
    · rw [if_neg hk, if_neg hk]; rfl
  rw [if_neg h2, if_neg h2]
  by_cases h3 : p <+: t
  · rw [if_pos h3, if_pos h3]
    by_cases hk : F.isDir p
    · rw [if_pos hk, if_pos hk]
    · rw [if_neg hk, if_neg hk]; rfl
  rw [if_neg h3, if_neg h3]

theorem reads_delete (F : Tree) (t : List Name) : reads hash S (F.delete t) = Tree.delete t (reads hash S F) := by
  funext p
  unfold Tree.delete reads
  simp only
  split <;> rfl

/-! ### What is known about a builder -/

/-- `b` stands for the tree `F`; its lists were written when the tree was `G`. -/
structure Inv (hash : Stored → Id) (S : List Stored) (b : Builder) (G F : Tree) (x : Part) : Prop where
  root : x.a = b.root
  exp : Exp hash (nmS hash S) ⟨b.lists, b.store⟩ x
  tidy : Tidy (Rd hash S) x.t
  dir : x.t.info.kind = .directory
  own : ∀ e ∈ x.u, OwnId hash S G G e.1 e.2
  reads : reads hash S (look x.t) = F
  twins : Unshared hash S G G

/-- The manifest `id` in the store `S1` stands for the tree `T`. -/
structure Saved (hash : Stored → Id) (S S1 : List Stored) (id : Id) (T : Tree) (x : Part) : Prop where
  root : findManifest hash S1 id = some x.a
  exp : Exp hash (nmS hash S) ⟨[], S1⟩ x
  tidy : Tidy (Rd hash S) x.t
  dir : x.t.info.kind = .directory
  own : ∀ e ∈ x.u, OwnId hash S T T e.1 e.2
  reads : Manifest.reads hash S (look x.t) = T
  twins : Unshared hash S T T

theorem Inv.func {b G F x} (h : Inv hash S b G F x) : Func x.u := by
  intro e he e' he' hi
  have h1 := h.own e he
  rw [hi] at h1
  exact h1.unique h.twins (h.own e' he')

theorem OwnId.mono {G0 G1 H0 H1 : Tree} (h0 : G0 = H0 ∨ G0 = H1) (h1 : G1 = H0 ∨ G1 = H1) {p : List Name} {id : Id} (h : OwnId hash S G0 G1 p id) :
    OwnId hash S H0 H1 p id := by
  obtain ⟨l, l1, l2, l3⟩ := h
  refine ⟨l, l1, l2, fun e he => ?_⟩
  obtain ⟨k1, G, hG, k2⟩ := l3 e he
  refine ⟨k1, G, ?_, k2⟩
  rcases hG with rfl | rfl
  · exact h0
  · exact h1

/-- What was flushed has the lists of the new tree. -/
theorem reown {G1 : Tree} {nm w} {x : Part} (h : Exp hash nm w x) : ∀ {q : List Name}, (∀ e ∈ x.u, view hash w e.2 = findAssets hash S e.2) →
    Tidy (Rd hash S) x.t → (∀ e ∈ x.u, findAssets hash S e.2 ≠ some []) → (∀ r, reads hash S (look x.t) r = G1 (q ++ r)) →
    ∀ e ∈ x.u, OwnId hash S G1 G1 (q ++ e.1) e.2 := by
  induction h with
  | mk m ds gs h1 h2 h3 h4 h5 h6 h7 ih1 ih2 =>
    intro q hs ht hne hr e he
    have hok : DirOk hash nm w m ds gs := ⟨h1, h2, h3, h4, h5, h6, h7⟩
    have hsub : ∀ x ∈ allParts ds gs, (∀ e ∈ x.u, view hash w e.2 = findAssets hash S e.2) ∧ (∀ e ∈ x.u, findAssets hash S e.2 ≠ some []) ∧
        ∀ r, reads hash S (look x.t) r = G1 ((q ++ [x.a.name]) ++ r) := by
      intro x hx
      refine ⟨fun e he => hs (x.a.name :: e.1, e.2) (mem_u_sub hx he), fun e he => hne (x.a.name :: e.1, e.2) (mem_u_sub hx he), fun r => ?_⟩
      have := hr (x.a.name :: r)
      rw [List.append_assoc]
      refine Eq.trans ?_ this
      unfold reads
      rw [look_part hok ht hx]
    rcases mem_dirPart_u.mp he with ⟨e1, g, hg, e2⟩ | ⟨x, hx, k, e1, e2⟩
    · rw [e1, e2, List.append_nil]
      have hst : findAssets hash S g.1 = some (g.2.map Part.a) := by rw [← hs ([], g.1) (mem_u_own hg)]; exact h2 g hg
      refine ⟨_, hst, ?_, ?_⟩
      · intro e0; exact hne ([], g.1) (mem_u_own hg) (hst.trans (congrArg some e0))
      · intro a ha
        obtain ⟨x, hx, rfl⟩ := List.mem_map.mp ha
        have hxa : x ∈ allParts ds gs := mem_allParts.mpr (.inr ⟨g, hg, hx⟩)
        have hh := has_part (h3 g hg x hx) (hsub x hxa).1 (tidy_part ht hxa)
        refine ⟨?_, G1, .inl rfl, fun r m' => ?_⟩
        · obtain ⟨m', hm'⟩ := rd_seen (tidy_part ht hxa).fields
          refine ⟨m', (hh [] m').mpr ?_⟩
          rw [reads_nil]; exact hm'
        · rw [hh r m', (hsub x hxa).2.2 r, List.append_assoc]; rfl
    · have e3 : e.1 = x.a.name :: k := e1
      rw [e3]
      have : q ++ x.a.name :: k = (q ++ [x.a.name]) ++ k := by simp
      rw [this]
      obtain ⟨k1, k2, k3⟩ := hsub x hx
      rcases mem_allParts.mp hx with hx' | ⟨g, hg, hx'⟩
      · exact ih1 x hx' k1 (tidy_part ht hx) k2 k3 (k, e.2) e2
      · exact ih2 g hg x hx' k1 (tidy_part ht hx) k2 k3 (k, e.2) e2

/-- The same part, with the lists read from the store. -/
theorem exp_reload {nm w} {S1 : List Stored} {x : Part} (h : Exp hash nm w x) : (∀ e ∈ x.u, findAssets hash S1 e.2 = view hash w e.2) →
    Exp hash nm ⟨[], S1⟩ x := by
  induction h with
  | mk m ds gs h1 h2 h3 h4 h5 h6 h7 ih1 ih2 =>
    intro hf
    have hx : ∀ x ∈ allParts ds gs, ∀ e ∈ x.u, findAssets hash S1 e.2 = view hash w e.2 :=
      fun x hx e he => hf (x.a.name :: e.1, e.2) (mem_u_sub hx he)
    refine .mk m ds gs (fun x hx' => ih1 x hx' (hx x (mem_allParts.mpr (.inl hx')))) ?_
      (fun g hg x hx' => ih2 g hg x hx' (hx x (mem_allParts.mpr (.inr ⟨g, hg, hx'⟩)))) h4 h5 h6 (fun _ _ _ _ _ _ _ => rfl)
    intro g hg
    rw [← h2 g hg, ← hf ([], g.1) (mem_u_own hg)]; rfl

theorem findManifest_mono {S1 S2 : List Stored} (hc : NoCollision hash S2) (hs : S1 <+: S2) {id : Id} {r : Asset}
    (h : findManifest hash S1 id = some r) : findManifest hash S2 id = some r := by
  unfold findManifest at h ⊢
  obtain ⟨t, rfl⟩ := hs
  rw [List.findSome?_append, h]; rfl

theorem Saved.mono {S1 S2 : List Stored} (hc : NoCollision hash S) (hs : S1 <+: S2) (hs2 : S2 <+: S) {id T x} (h : Saved hash S S1 id T x) :
    Saved hash S S2 id T x := by
  refine ⟨findManifest_mono (hc.mono hs2) hs h.root, exp_reload h.exp fun e he => ?_, h.tidy, h.dir, h.own, h.reads, h.twins⟩
  obtain ⟨l, hl⟩ := exp_view h.exp e he
  rw [hl]
  exact findAssets_mono (hc.mono hs2) hs hl

end

/-! ### The store only grows -/

section
variable {cfg : Cfg}

/-- A function that does not write to the store. -/
def NoWrite {α : Type} (f : Asset → Work → Except Err (Asset × Work × Option α)) : Prop :=
  ∀ a w a' w' r, f a w = .ok (a', w', r) → w'.store = w.store

theorem inList_store {α : Type} {name : Name} {f : Asset → Work × Option α → Except Err (Asset × Work × Option α)}
    (hf : NoWrite fun a w => f a (w, none)) {l : List Asset} {w : Work} {l' : List Asset} {w' : Work} {r : Option α}
    (h : inList name f l (w, none) = some (.ok (l', w', r))) : w'.store = w.store := by
  induction l generalizing l' w' r with
  | nil => cases h
  | cons a as ih =>
    unfold inList at h
    split at h
    · simp only [Option.some.injEq] at h
      split at h
      · cases h
      · rename_i b s hb
        cases h
        exact hf _ _ _ _ _ hb
    · obtain ⟨r', hr, e⟩ := Option.map_eq_some_iff.mp h
      cases r' with
      | error => cases e
      | ok v =>
        obtain ⟨bs, w1, r1⟩ := v
        cases e
        exact ih hr

theorem inIndirect_store {α : Type} {name : Name} {f : Asset → Work × Option α → Except Err (Asset × Work × Option α)}
    (hf : NoWrite fun a w => f a (w, none)) {ids : List Id} {w w' : Work} {r : Option α} {b : Bool}
    (h : inIndirect cfg name f ids w = .ok (r, w', b)) : w'.store = w.store := by
  induction ids generalizing w with
  | nil => simp only [inIndirect] at h; cases h; rfl
  | cons id ids ih =>
    unfold inIndirect at h
    split at h
    · cases h
    rename_i l w1 hget
    have h1 := (getList_store hget).1
    split at h
    · cases h
    · rename_i l2 w2 a hin
      cases h
      exact (inList_store hf hin).trans h1
    · exact (ih h).trans h1

theorem inDir_store {α : Type} {name : Name} {f : Asset → Work × Option α → Except Err (Asset × Work × Option α)}
    (hf : NoWrite fun a w => f a (w, none)) {dir dir' : Asset} {w w' : Work} {r : Option α} {b : Bool}
    (h : inDir cfg name f dir w = .ok (dir', w', r, b)) : w'.store = w.store := by
  unfold inDir at h
  split at h
  · cases h
  · rename_i hin
    cases h
    exact inList_store hf hin
  · split at h
    · cases h
    · rename_i hin
      cases h
      exact inIndirect_store hf hin

theorem inDirPath_store {α : Type} {mode : CreateMode} {f : Asset → Work → Except Err (Asset × Work × Option α)} (hf : NoWrite f) (path : List Name) :
    NoWrite (inDirPath cfg mode f path) := by
  induction path with
  | nil => exact hf
  | cons n path ih =>
    intro a w a' w' r h
    unfold inDirPath at h
    dsimp only at h
    split at h
    · cases h
    · rename_i hin
      cases h
      refine inDir_store ?_ hin
      intro a w a' w' r h
      simp only at h
      split at h
      · cases h
      · exact ih _ _ _ _ _ h
    · rename_i hin
      have h1 := inDir_store (by
        intro a w a' w' r h
        simp only at h
        split at h
        · cases h
        · exact ih _ _ _ _ _ h) hin
      split at h
      · cases h
      split at h
      · cases h
      · rename_i hin2
        cases h
        exact (ih _ _ _ _ _ hin2).trans h1

theorem deleteFromIndirect_store {name : Name} {ids : List Id} {w w' : Work} (h : deleteFromIndirect cfg name ids w = .ok w') : w'.store = w.store := by
  induction ids generalizing w with
  | nil => simp only [deleteFromIndirect] at h; cases h; rfl
  | cons id ids ih =>
    unfold deleteFromIndirect at h
    split at h
    · cases h
    rename_i l w1 hget
    have h1 := (getList_store hget).1
    split at h
    · cases h; exact h1
    · exact (ih h).trans h1

theorem deleteFromDir_store {name : Name} : NoWrite (deleteFromDir cfg name) := by
  intro a w a' w' r h
  unfold deleteFromDir at h
  split at h
  · cases h
  split at h
  · cases h; rfl
  split at h
  · cases h
  · rename_i hd
    cases h
    exact deleteFromIndirect_store hd

theorem inAsset_store {kind : Kind} {force : Bool} {name : Name} {f : Asset → Asset} : NoWrite (inAsset cfg kind force name f) := by
  intro a w a' w' r h
  unfold inAsset at h
  split at h
  · cases h
  dsimp only at h
  have hf : NoWrite fun (a : Asset) (w : Work) => (if a.info.kind = kind then Except.ok (f a, w, some ()) else .ok (a, w, none) : Except Err (Asset × Work × Option Unit)) := by
    intro a w a' w' r h
    simp only at h
    split at h <;> cases h <;> rfl
  split at h
  · cases h
  · rename_i hin
    cases h; exact inDir_store hf hin
  · rename_i hin
    split at h
    · split at h
      · cases h
      · rename_i hd
        cases h
        exact (deleteFromDir_store _ _ _ _ _ hd).trans (inDir_store hf hin)
    · cases h
  · rename_i hin
    cases h; exact inDir_store hf hin

theorem editAsset_store {kind : Kind} {force : Bool} {path : List Name} {name : Name} {f : Asset → Asset} {b b' : Builder}
    (h : editAsset cfg kind force path name f b = .ok b') : b'.store = b.store := by
  unfold editAsset at h
  split at h
  · cases h
  · rename_i hin
    cases h
    exact inDirPath_store inAsset_store path _ _ _ _ _ hin

theorem deleteAsset_store {path : List Name} {name : Name} {b b' : Builder} (h : deleteAsset cfg path name b = .ok b') : b'.store = b.store := by
  unfold deleteAsset at h
  split at h
  · cases h; rfl
  · cases h; rfl
  · cases h
  · rename_i hin
    cases h
    exact inDirPath_store deleteFromDir_store path _ _ _ _ _ hin

theorem flush_store {fuel : Nat} {b b' : Builder} {id : Id} (h : flush cfg fuel b = some (id, b')) : b.store <+: b'.store := by
  unfold flush at h
  split at h
  · cases h
  · rename_i hf
    cases h
    have := (flush_ext fuel).1 _ _ _ hf
    exact this.trans (List.prefix_append ..)

theorem load_store {S : List Stored} {id : Id} {b : Builder} (h : loadManifest cfg S id = some b) :
    b.store = S ∧ b.lists = [] ∧ findManifest cfg.hash S id = some b.root := by
  unfold loadManifest at h
  obtain ⟨r, hr, rfl⟩ := Option.map_eq_some_iff.mp h
  exact ⟨rfl, rfl, hr⟩

/-! ### Histories -/

theorem noTwins_root (m : Meta) : NoTwins (Tree.root m) (Tree.root m) := by
  intro A B hA _ p q n hne _
  have : A = Tree.root m := by rcases hA with h | h <;> exact h
  subst this
  exact absurd (by unfold Tree.root; rw [if_neg (by simp)]) hne

theorem inv_new (hash : Stored → Id) (S S0 : List Stored) : Inv hash S { root := newAsset cfg [] .directory, store := S0 }
    (Tree.root (newMeta cfg [] .directory)) (Tree.root (newMeta cfg [] .directory)) (newPart cfg [] .directory) := by
  refine ⟨rfl, exp_new _ _ _, tidy_new (rd_new _ _ _), rfl, (by intro e he; cases he), ?_, (noTwins_root _).unshared⟩
  rw [newPart_t, look_new]
  funext p
  unfold reads Tree.root
  split <;> rfl

/-- `b'` is what `b` became by changing assets; the tree changed from `F` to `F'`, and only lists of directories on the way to `path` changed in
memory. -/
def Becomes (hash : Stored → Id) (S : List Stored) (G : Tree) (x : Part) (b b' : Builder) (F' : Tree) (path : List Name) : Prop :=
  ∃ x', Inv hash S b' G F' x' ∧ (∀ e ∈ x'.u, e ∈ x.u) ∧ PFrame x path ⟨b.lists, b.store⟩ ⟨b'.lists, b'.store⟩

theorem Inv.edit {S : List Stored} {b b' : Builder} {G F x} (hx : Inv cfg.hash S b G F x) {kind : Kind} {force : Bool} {path : List Name} {name : Name}
    {g : Meta → Meta} (hg : Change g) (he : editAsset cfg kind force path name (onInfo g) b = .ok b') :
    Becomes cfg.hash S G x b b' (F.put (newMeta cfg) (path ++ [name]) kind g) path := by
  unfold editAsset at he
  rcases inDirPath_put' (fun n k => rd_new cfg n k) hg.field (kind := kind) (force := force) (name := name) path hx.exp hx.func hx.tidy hx.dir with
    ⟨x', w', r, k1, k2, k3, k4, k5, k6⟩ | ⟨e, k1, -⟩
  · rw [hx.root] at k1
    rw [k1] at he
    cases he
    refine ⟨x', ⟨rfl, k2.exp, k3, by rw [k4]; exact hx.dir, fun e he => hx.own e (k2.sub e he), ?_, hx.twins⟩, k2.sub, k6⟩
    rw [k5, reads_put (fun p m hm => look_fields hx.tidy hm) cfg hg, hx.reads]
  · rw [hx.root] at k1
    rw [k1] at he; cases he

theorem Inv.delete {S : List Stored} {b b' : Builder} {G F x} (hx : Inv cfg.hash S b G F x) {path : List Name} {name : Name}
    (he : deleteAsset cfg path name b = .ok b') : Becomes cfg.hash S G x b b' (F.delete (path ++ [name])) path := by
  unfold deleteAsset at he
  rcases inDirPath_delete' (cfg := cfg) (fun n k => rd_new cfg n k) (name := name) path hx.exp hx.func hx.tidy hx.dir with
    ⟨x', w', r, k1, k2, k3, k4, k5, k6⟩ | ⟨e, k1, k2, k3⟩
  · rw [hx.root] at k1
    rw [k1] at he
    cases he
    refine ⟨x', ⟨rfl, k2.exp, k3, by rw [k4]; exact hx.dir, fun e he => hx.own e (k2.sub e he), ?_, hx.twins⟩, k2.sub, k6⟩
    rw [k5, reads_delete, hx.reads]
  · rw [hx.root] at k1
    rw [k1] at he
    have hb : b' = b := by rcases k2 with rfl | rfl <;> cases he <;> rfl
    subst hb
    refine ⟨x, { hx with reads := ?_ }, fun _ h => h, fun _ _ _ => rfl⟩
    rw [← hx.reads, ← reads_delete, delete_absent path hx.tidy k3 (by simp)]

/-- Saving: the same tree, now also in the store; the lists in memory are those in the store. -/
theorem Inv.flush (hsort : ∀ l, (cfg.sort l).Perm l) {S : List Stored} (hc : NoCollision cfg.hash S) {b b' : Builder} {G F x}
    (hx : Inv cfg.hash S b G F x) (hT : Unshared cfg.hash S G F) {fuel : Nat} {id : Id} (hf : flush cfg fuel b = some (id, b')) (hs : b'.store <+: S) :
    ∃ x', Inv cfg.hash S b' F F x' ∧ Saved cfg.hash S b'.store id F x' ∧
      ∀ e ∈ x'.u, view cfg.hash ⟨b'.lists, b'.store⟩ e.2 = findAssets cfg.hash b'.store e.2 := by
  have hf0 := hf
  unfold Manifest.flush at hf
  split at hf
  · cases hf
  rename_i root w' hfd
  cases hf
  have hs' : w'.store <+: S := (List.prefix_append ..).trans hs
  rw [← hx.root] at hfd
  have htodo : Todo cfg.hash S G F [] ⟨b.lists, b.store⟩ x :=
    ⟨hx.exp, hx.tidy, fun e he => (hx.own e he).mono (.inl rfl) (.inl rfl), fun r => by rw [hx.reads]; rfl⟩
  obtain ⟨x', k1, k2, -⟩ := (flush_parts hc hT hsort fuel).1 [] _ _ _ _ hfd hs' (by rw [← hx.exp.info]; exact hx.dir) htodo
  have hk3 := k2.keep hc (w' := ⟨w'.lists, w'.store ++ [.manifest root]⟩) (List.prefix_append ..) hs (fun _ _ => rfl)
  have hown : ∀ e ∈ x'.u, OwnId cfg.hash S F F e.1 e.2 := by
    refine reown k2.exp (q := []) k2.same k2.tidy ?_ k2.reads
    intro e he h0
    obtain ⟨l, l1, l2, -⟩ := k2.own e he
    rw [h0] at l1; cases l1; exact l2 rfl
  have hdir : x'.t.info.kind = .directory := by
    rw [k2.exp.info, k1, flushDir_info hfd, ← hx.exp.info]; exact hx.dir
  have hreads : Manifest.reads cfg.hash S (look x'.t) = F := by funext r; exact k2.reads r
  have htw : Unshared cfg.hash S F F := fun p q id hp hq => hT p q id (hp.mono (.inr rfl) (.inr rfl)) (hq.mono (.inr rfl) (.inr rfl))
  refine ⟨x', ⟨k1, hk3.exp, k2.tidy, hdir, hown, hreads, htw⟩, ?_, ?_⟩
  · refine ⟨?_, exp_reload hk3.exp hk3.held, k2.tidy, hdir, hown, hreads, htw⟩
    rw [k1]
    obtain ⟨b2, hb2⟩ := load_exists hf0
    have h1 := (load_store hb2).2.2
    rw [load_flushed hf0 (hc.mono hs) hb2] at h1
    exact h1
  · exact fun e he => (hk3.held e he).symm

theorem Saved.load {S S1 : List Stored} {id : Id} {T : Tree} {x : Part} (hx : Saved cfg.hash S S1 id T x) {b : Builder}
    (hl : loadManifest cfg S1 id = some b) : Inv cfg.hash S b T T x := by
  obtain ⟨l1, l2, l3⟩ := load_store hl
  refine ⟨?_, ?_, hx.tidy, hx.dir, hx.own, hx.reads, hx.twins⟩
  · have := hx.root
    rw [l3] at this; exact (Option.some.inj this).symm
  · rw [l1, l2]; exact hx.exp

theorem hist_inv (hsort : ∀ l, (cfg.sort l).Perm l) {S : List Stored} (hc : NoCollision cfg.hash S) {b G F L Q} (h : Hist cfg b G F L Q) :
    b.store <+: S → (∀ q ∈ Q, Unshared cfg.hash S q.1 q.2) → (∃ x, Inv cfg.hash S b G F x) ∧ ∀ s ∈ L, ∃ x, Saved cfg.hash S b.store s.1 s.2 x := by
  induction h with
  | start S0 => exact fun _ _ => ⟨⟨_, inv_new _ _ _⟩, by simp⟩
  | new _ ih => exact fun hs hQ => ⟨⟨_, inv_new _ _ _⟩, (ih hs hQ).2⟩
  | @edit b b' G F L Q kind force path name g _ hg he ih =>
    intro hs hQ
    have hst := editAsset_store he
    rw [hst] at hs
    obtain ⟨⟨x, hx⟩, hL⟩ := ih hs hQ
    obtain ⟨x', hx', -⟩ := hx.edit hg he
    exact ⟨⟨x', hx'⟩, by rw [hst]; exact hL⟩
  | @delete b b' G F L Q path name _ he ih =>
    intro hs hQ
    have hst := deleteAsset_store he
    rw [hst] at hs
    obtain ⟨⟨x, hx⟩, hL⟩ := ih hs hQ
    obtain ⟨x', hx', -⟩ := hx.delete he
    exact ⟨⟨x', hx'⟩, by rw [hst]; exact hL⟩
  | @flush b b' G F L Q fuel id _ hf ih =>
    intro hs hQ
    have hst := flush_store hf
    obtain ⟨⟨x, hx⟩, hL⟩ := ih (hst.trans hs) fun q hq => hQ q (List.mem_cons_of_mem _ hq)
    obtain ⟨x', k1, k2, -⟩ := hx.flush hsort hc (hQ _ (List.mem_cons_self ..)) hf hs
    refine ⟨⟨x', k1⟩, fun s hsm => ?_⟩
    rcases List.mem_cons.mp hsm with rfl | hsm
    · exact ⟨x', k2⟩
    · obtain ⟨y, hy⟩ := hL s hsm
      exact ⟨y, hy.mono hc hst hs⟩
  | @load b b' G F L Q id T _ hm hl ih =>
    intro hs hQ
    have l1 := (load_store hl).1
    rw [l1] at hs
    obtain ⟨-, hL⟩ := ih hs hQ
    obtain ⟨x, hx⟩ := hL _ hm
    exact ⟨⟨x, hx.load hl⟩, by rw [l1]; exact hL⟩

theorem saved_has {hash : Stored → Id} {S : List Stored} {id : Id} {T : Tree} {x : Part} (h : Saved hash S S id T x) (p : List Name) (m : Meta) :
    Has hash S x.a p m ↔ T p = some m := by
  rw [has_part h.exp (fun _ _ => rfl) h.tidy, h.reads]

end

/-- C80: whatever was done with a builder and the store - creating, changing and deleting assets, saving, loading earlier manifests, starting anew -
each manifest that was saved can still be loaded and has exactly the assets of its file tree: the same paths, each with the same fields and
chunks. This includes directories and files that were split to indirect lists, and changed and split again. Partial: it is assumed that no asset list in the
store has entries of two directories (`Unshared`), which is so if no two directories have the same entry (`NoTwins.unshared`) and if no directory is
so large that it has to be split (`unshared_of_no_lists`); without that it is false (`C30_changes_stay_local_violated`). -/
theorem C80_every_saved_manifest_reads_back_partial (cfg : Cfg) (hsort : ∀ l, (cfg.sort l).Perm l) (b : Builder) (G F : Tree) (L : List (Id × Tree))
    (Q : List (Tree × Tree)) (h : Hist cfg b G F L Q) (hT : ∀ q ∈ Q, Unshared cfg.hash b.store q.1 q.2) (hc : NoCollision cfg.hash b.store) (id : Id) (T : Tree) (hm : (id, T) ∈ L) :
    ∃ b2, loadManifest cfg b.store id = some b2 ∧ b2.store = b.store ∧ ∀ p m, Has cfg.hash b2.store b2.root p m ↔ T p = some m := by
  obtain ⟨-, hL⟩ := hist_inv hsort hc h List.prefix_rfl hT
  obtain ⟨x, hx⟩ := hL _ hm
  refine ⟨{ root := x.a, store := b.store }, ?_, rfl, fun p m => saved_has hx p m⟩
  unfold loadManifest
  rw [hx.root]; rfl

/-- C80: and at any time any asset can be created, replaced and deleted. -/
theorem C80_operations_work_any_time_partial (cfg : Cfg) (hsort : ∀ l, (cfg.sort l).Perm l) (b : Builder) (G F : Tree) (L : List (Id × Tree))
    (Q : List (Tree × Tree)) (h : Hist cfg b G F L Q) (hT : ∀ q ∈ Q, Unshared cfg.hash b.store q.1 q.2) (hc : NoCollision cfg.hash b.store) (kind : Kind) (path : List Name) (name : Name) (g : Meta → Meta) (hg : Change g) :
    (∃ b', editAsset cfg kind true path name (onInfo g) b = .ok b') ∧ ∃ b', deleteAsset cfg path name b = .ok b' := by
  obtain ⟨⟨x, hx⟩, -⟩ := hist_inv hsort hc h List.prefix_rfl hT
  constructor
  · unfold editAsset
    rcases inDirPath_put' (fun n k => rd_new cfg n k) hg.field (kind := kind) (force := true) (name := name) path hx.exp hx.func hx.tidy hx.dir with
      ⟨x', w', r, k1, -⟩ | ⟨e, -, k1, -⟩
    · rw [hx.root] at k1
      rw [k1]; exact ⟨_, rfl⟩
    · cases k1
  · unfold deleteAsset
    rcases inDirPath_delete' (cfg := cfg) (fun n k => rd_new cfg n k) (name := name) path hx.exp hx.func hx.tidy hx.dir with
      ⟨x', w', r, k1, -⟩ | ⟨e, k1, k2, -⟩
    · rw [hx.root] at k1
      rw [k1]; exact ⟨_, rfl⟩
    · rw [hx.root] at k1
      rw [k1]
      rcases k2 with rfl | rfl <;> exact ⟨_, rfl⟩

/-- C30: loading any saved manifest, changing or replacing the asset at one path and saving has the specified effect, and nothing that is not on the
way to that path or below it changes, also if directories and files are split to indirect lists. Partial: it is assumed that no asset list has entries of two directories,
see C80; without that it is false (`C30_changes_stay_local_violated`). -/
theorem C30_changes_to_saved_manifests_partial (cfg : Cfg) (hsort : ∀ l, (cfg.sort l).Perm l) (b b2 b3 b4 : Builder) (G F T : Tree)
    (L : List (Id × Tree)) (Q : List (Tree × Tree)) (id id' : Id) (fuel : Nat) (kind : Kind) (path : List Name) (name : Name) (g : Meta → Meta)
    (h : Hist cfg b G F L Q) (hm : (id, T) ∈ L) (h2 : loadManifest cfg b.store id = some b2) (hg : Change g)
    (h3 : editAsset cfg kind true path name (onInfo g) b2 = .ok b3) 
    (h4 : flush cfg fuel b3 = some (id', b4))
    (hT : ∀ q ∈ (T, T.put (newMeta cfg) (path ++ [name]) kind g) :: Q, Unshared cfg.hash b4.store q.1 q.2) (hc : NoCollision cfg.hash b4.store) (p : List Name) (m : Meta) :
    (Has cfg.hash b4.store b4.root p m ↔ T.put (newMeta cfg) (path ++ [name]) kind g p = some m) ∧
    (¬ path ++ [name] <+: p → ¬ p <+: path ++ [name] → (Has cfg.hash b4.store b2.root p m ↔ Has cfg.hash b4.store b4.root p m)) := by
  have hh2 := h.load id T hm h2
  have hh3 := hh2.edit kind true path name g hg h3
  have hh4 := hh3.flush fuel id' h4
  obtain ⟨b5, k1, -, k2⟩ := C80_every_saved_manifest_reads_back_partial cfg hsort b4 _ _ _ _ hh4 hT hc id' _ (List.mem_cons_self ..)
  rw [load_flushed h4 hc k1, (load_store k1).1] at k2
  refine ⟨k2 p m, fun n1 n2 => ?_⟩
  obtain ⟨b6, j1, -, j2⟩ := C80_every_saved_manifest_reads_back_partial cfg hsort b4 _ _ _ _ hh4 hT hc id _ (List.mem_cons_of_mem _ hm)
  have hst : b2.store <+: b4.store := by
    have := flush_store h4; rwa [editAsset_store h3] at this
  have hroot : b6.root = b2.root := by
    have l1 := (load_store h2).2.2
    have l2 := (load_store j1).2.2
    have hbs := (load_store h2).1
    have := findManifest_mono hc (hbs ▸ hst) l1
    rw [l2] at this; exact Option.some.inj this
  rw [hroot, (load_store j1).1] at j2
  rw [j2 p m, k2 p m, put_other n1 n2]

/-- The setters are such changes. -/
theorem setters_change (cs : List Ref) (size : Nat) (hcs : cs.Pairwise fun a b => a.offset ≤ b.offset) (t : Int) (p : Nat) (x : Bool) (n : Name) :
    Change truncateChunks ∧ Change (setChunks cs size) ∧ Change (setTimePerms t p) ∧ Change (setInProgress x) ∧ Change (setSymlink n) :=
  ⟨⟨fun _ => rfl, fun _ => rfl, .inr ⟨[], .nil, fun _ => ⟨⟨rfl, rfl⟩, fun _ _ => rfl⟩⟩⟩,
    ⟨fun _ => rfl, fun _ => rfl, .inr ⟨cs, hcs, fun _ => ⟨⟨rfl, rfl⟩, fun _ _ => rfl⟩⟩⟩, ⟨fun _ => rfl, fun _ => rfl, .inl fun _ _ _ => rfl⟩,
    ⟨fun _ => rfl, fun _ => rfl, .inl fun _ _ _ => rfl⟩, ⟨fun _ => rfl, fun _ => rfl, .inl fun _ _ _ => rfl⟩⟩

/-! ### Example: a directory that is split, changed and split again -/

/-- If no name is used in two directories, no two directories have the same entry. -/
theorem noTwins_of_names {F G : Tree} (l : List (List Name)) (hF : ∀ p, F p ≠ none → p ∈ l) (hG : ∀ p, G p ≠ none → p ∈ l)
    (hl : ∀ x ∈ l, ∀ y ∈ l, x.getLast? = y.getLast? → x = y) : NoTwins F G := by
  intro A B hA hB p q n hp he
  have hA' : ∀ p, A p ≠ none → p ∈ l := by rcases hA with rfl | rfl <;> assumption
  have hB' : ∀ p, B p ≠ none → p ∈ l := by rcases hB with rfl | rfl <;> assumption
  have h1 := hA' _ hp
  have h2 := hB' (q ++ [n]) (by rw [← he []]; exact hp)
  exact (List.append_inj' (hl _ h1 _ h2 (by simp)) rfl).1

end Verif.Manifest
