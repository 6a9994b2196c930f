import Verif.Manifest.Flush

/-! # Manifests with indirect asset lists: the directories in memory and the file tree they stand for

`Manifest/Flush.lean` treats builders whose directories hold all their entries directly. Here the entries of a directory may also be in
asset lists, which are in memory (`asset_lists_`) or in the store. Editing such a manifest is compared with the operations on plain file trees. -/
namespace Verif.Manifest

/-! ### The lists as the builder sees them -/

/-- The asset list with the given id: the one in memory if there is one, otherwise the one in the store. -/
def view (hash : Stored → Id) (w : Work) (id : Id) : Option (List Asset) :=
  match w.lists.find id with
  | some l => some l
  | none => findAssets hash w.store id

theorem find_setL (ls : Lists) (id i : Id) (l : List Asset) : (ls.set id l).find i = if i = id then some l else ls.find i := by
  unfold Lists.set Lists.find Lists.erase
  by_cases h : i = id
  · subst h; simp
  · rw [if_neg h, List.find?_cons_of_neg (by simpa using fun e => h e.symm)]
    congr 1
    induction ls with
    | nil => rfl
    | cons e ls ih =>
      by_cases he : e.1 = i
      · have : e.1 ≠ id := fun e' => h (he.symm.trans e')
        rw [List.filter_cons_of_pos (by simpa using this), List.find?_cons_of_pos (by simpa using he), List.find?_cons_of_pos (by simpa using he)]
      · rw [List.find?_cons_of_neg (by simpa using he), ← ih]
        by_cases h2 : e.1 = id
        · rw [List.filter_cons_of_neg (by simpa using h2)]
        · rw [List.filter_cons_of_pos (by simpa using h2), List.find?_cons_of_neg (by simpa using he)]

theorem find_eraseL (ls : Lists) (id i : Id) : (ls.erase id).find i = if i = id then none else ls.find i := by
  have h := find_setL ls id i []
  by_cases hi : i = id
  · subst hi
    rw [if_pos rfl]
    unfold Lists.find Lists.erase
    rw [Option.map_eq_none_iff, List.find?_eq_none]
    intro x hx
    have := (List.mem_filter.mp hx).2
    simpa using this
  · rw [if_neg hi] at h ⊢
    rw [← h]
    unfold Lists.set Lists.find
    rw [List.find?_cons_of_neg (by simpa using fun e => hi e.symm)]

theorem view_set (hash : Stored → Id) (w : Work) (id i : Id) (l : List Asset) :
    view hash { w with lists := w.lists.set id l } i = if i = id then some l else view hash w i := by
  unfold view
  simp only [find_setL]
  by_cases h : i = id
  · rw [if_pos h, if_pos h]
  · rw [if_neg h, if_neg h]

theorem getList_view {cfg : Cfg} {w : Work} {id : Id} {l : List Asset} (h : view cfg.hash w id = some l) :
    ∃ w', getList cfg w id = some (l, w') ∧ view cfg.hash w' = view cfg.hash w ∧ w'.store = w.store := by
  unfold view at h
  unfold getList
  cases hf : w.lists.find id with
  | some l' => rw [hf] at h; cases h; exact ⟨w, rfl, rfl, rfl⟩
  | none =>
    rw [hf] at h
    dsimp only at h ⊢
    rw [h]
    refine ⟨_, rfl, ?_, rfl⟩
    funext i
    rw [view_set]
    split
    · rename_i hi; subst hi; unfold view; rw [hf]; exact h.symm
    · rfl

/-! ### A directory in memory and the tree it stands for -/

/-- `a` is a part of the manifest in memory, `t` is the same tree with all entries held directly, and `u` are the ids of all asset lists used,
each with the path of the directory that uses it. -/
structure Part where
  a : Asset
  t : Asset
  u : List (List Name × Id)

/-- The lists used, with paths as seen from the parent directory. -/
def Part.up (x : Part) : List (List Name × Id) := x.u.map fun e => (x.a.name :: e.1, e.2)

/-- A directory with the direct entries `ds` and the asset lists `gs`. -/
def dirPart (m : Meta) (ds : List Part) (gs : List (Id × List Part)) : Part where
  a := .mk m (ds.map Part.a) (gs.map Prod.fst)
  t := .mk m ((ds ++ gs.flatMap Prod.snd).map Part.t) []
  u := gs.map (fun g => ([], g.1)) ++ (ds ++ gs.flatMap Prod.snd).flatMap Part.up

/-- `Exp hash nm w x`: with the asset lists of `w`, `x.a` stands for `x.t` and uses the lists `x.u`. The names in a list are among those the list
has in the store, `nm`, and no two lists of a directory have names in common there. Below a list that is not in memory there are only lists that
are not in memory. -/
inductive Exp (hash : Stored → Id) (nm : Id → List Name) (w : Work) : Part → Prop where
  | mk (m : Meta) (ds : List Part) (gs : List (Id × List Part)) :
      (∀ x ∈ ds, Exp hash nm w x) → (∀ g ∈ gs, view hash w g.1 = some (g.2.map Part.a)) → (∀ g ∈ gs, ∀ x ∈ g.2, Exp hash nm w x) →
      (∀ g ∈ gs, ∀ x ∈ g.2, x.a.name ∈ nm g.1) →
      gs.Pairwise (fun g h => g.1 ≠ h.1 ∧ ∀ n ∈ nm g.1, n ∉ nm h.1) →
      (m.kind ≠ .directory → ds = [] ∧ gs = []) →
      (∀ g ∈ gs, w.lists.find g.1 = none → ∀ x ∈ g.2, ∀ e ∈ x.u, w.lists.find e.2 = none) → Exp hash nm w (dirPart m ds gs)

/-- The conditions of `Exp` for a directory. -/
structure DirOk (hash : Stored → Id) (nm : Id → List Name) (w : Work) (m : Meta) (ds : List Part) (gs : List (Id × List Part)) : Prop where
  direct : ∀ x ∈ ds, Exp hash nm w x
  lists : ∀ g ∈ gs, view hash w g.1 = some (g.2.map Part.a)
  inLists : ∀ g ∈ gs, ∀ x ∈ g.2, Exp hash nm w x
  names : ∀ g ∈ gs, ∀ x ∈ g.2, x.a.name ∈ nm g.1
  apart : gs.Pairwise (fun g h => g.1 ≠ h.1 ∧ ∀ n ∈ nm g.1, n ∉ nm h.1)
  leaf : m.kind ≠ .directory → ds = [] ∧ gs = []
  unloaded : ∀ g ∈ gs, w.lists.find g.1 = none → ∀ x ∈ g.2, ∀ e ∈ x.u, w.lists.find e.2 = none

theorem DirOk.exp {hash nm w m ds gs} (h : DirOk hash nm w m ds gs) : Exp hash nm w (dirPart m ds gs) :=
  .mk m ds gs h.direct h.lists h.inLists h.names h.apart h.leaf h.unloaded

theorem Exp.cases' {hash nm w x} (h : Exp hash nm w x) : ∃ m ds gs, x = dirPart m ds gs ∧ DirOk hash nm w m ds gs := by
  cases h with
  | mk m ds gs h1 h2 h3 h4 h5 h6 h7 => exact ⟨m, ds, gs, rfl, h1, h2, h3, h4, h5, h6, h7⟩

theorem Exp.info {hash nm w x} (h : Exp hash nm w x) : x.t.info = x.a.info := by cases h; rfl

theorem Exp.name {hash nm w x} (h : Exp hash nm w x) : x.t.name = x.a.name := by cases h; rfl

/-- All entries of a directory. -/
def allParts (ds : List Part) (gs : List (Id × List Part)) : List Part := ds ++ gs.flatMap Prod.snd

theorem mem_allParts {ds : List Part} {gs : List (Id × List Part)} {x : Part} : x ∈ allParts ds gs ↔ x ∈ ds ∨ ∃ g ∈ gs, x ∈ g.2 := by
  unfold allParts; rw [List.mem_append, List.mem_flatMap]

theorem DirOk.all {hash nm w m ds gs} (h : DirOk hash nm w m ds gs) : ∀ x ∈ allParts ds gs, Exp hash nm w x := by
  intro x hx
  rcases mem_allParts.mp hx with hx | ⟨g, hg, hx⟩
  · exact h.direct x hx
  · exact h.inLists g hg x hx

theorem mem_dirPart_u {m : Meta} {ds : List Part} {gs : List (Id × List Part)} {e : List Name × Id} :
    e ∈ (dirPart m ds gs).u ↔ (e.1 = [] ∧ ∃ g ∈ gs, e.2 = g.1) ∨ ∃ x ∈ allParts ds gs, ∃ q, e.1 = x.a.name :: q ∧ (q, e.2) ∈ x.u := by
  unfold dirPart
  simp only [List.mem_append, List.mem_map, List.mem_flatMap]
  constructor
  · rintro (⟨g, hg, rfl⟩ | ⟨x, hx, he⟩)
    · exact .inl ⟨rfl, g, hg, rfl⟩
    · obtain ⟨⟨q, i⟩, hq, rfl⟩ := List.mem_map.mp he
      refine .inr ⟨x, ?_, q, rfl, hq⟩
      rw [mem_allParts]; exact hx
  · rintro (⟨h1, g, hg, h2⟩ | ⟨x, hx, q, h1, hq⟩)
    · exact .inl ⟨g, hg, by rw [← h1, ← h2]⟩
    · rw [mem_allParts] at hx
      exact .inr ⟨x, hx, List.mem_map.mpr ⟨(q, e.2), hq, by rw [← h1]⟩⟩

theorem mem_u_own {m : Meta} {ds : List Part} {gs : List (Id × List Part)} {g : Id × List Part} (hg : g ∈ gs) : ([], g.1) ∈ (dirPart m ds gs).u :=
  mem_dirPart_u.mpr (.inl ⟨rfl, g, hg, rfl⟩)

theorem mem_u_sub {m : Meta} {ds : List Part} {gs : List (Id × List Part)} {x : Part} (hx : x ∈ allParts ds gs) {e : List Name × Id} (he : e ∈ x.u) :
    (x.a.name :: e.1, e.2) ∈ (dirPart m ds gs).u :=
  mem_dirPart_u.mpr (.inr ⟨x, hx, e.1, rfl, he⟩)

theorem exp_frame {hash : Stored → Id} {w w' : Work} {nm nm' : Id → List Name} {x : Part} (h : Exp hash nm w x) :
    (∀ e ∈ x.u, w'.lists.find e.2 = w.lists.find e.2 ∧ view hash w' e.2 = view hash w e.2 ∧ nm' e.2 = nm e.2) → Exp hash nm' w' x := by
  induction h with
  | mk m ds gs h1 h2 h3 h4 h5 h6 h7 ih1 ih2 =>
    intro hf
    have hg : ∀ g ∈ gs, w'.lists.find g.1 = w.lists.find g.1 ∧ view hash w' g.1 = view hash w g.1 ∧ nm' g.1 = nm g.1 := fun g hg =>
      hf ([], g.1) (mem_u_own hg)
    have hx : ∀ x ∈ allParts ds gs, ∀ e ∈ x.u, w'.lists.find e.2 = w.lists.find e.2 ∧ view hash w' e.2 = view hash w e.2 ∧ nm' e.2 = nm e.2 :=
      fun x hx e he => hf (x.a.name :: e.1, e.2) (mem_u_sub hx he)
    have hgx : ∀ g ∈ gs, ∀ x ∈ g.2, x ∈ allParts ds gs := fun g hg x hx => mem_allParts.mpr (.inr ⟨g, hg, hx⟩)
    refine .mk m ds gs (fun x hx' => ih1 x hx' (hx x (mem_allParts.mpr (.inl hx')))) (fun g hg' => by rw [(hg g hg').2.1]; exact h2 g hg')
      (fun g hg' x hx' => ih2 g hg' x hx' (hx x (hgx g hg' x hx')))
      (fun g hg' x hx' => by rw [(hg g hg').2.2]; exact h4 g hg' x hx') ?_ h6 ?_
    · refine List.Pairwise.imp_of_mem ?_ h5
      rintro a b ha hb ⟨k1, k2⟩
      rw [(hg a ha).2.2, (hg b hb).2.2]; exact ⟨k1, k2⟩
    · intro g hg' hn x hx' e he
      rw [(hx x (hgx g hg' x hx') e he).1]
      exact h7 g hg' ((hg g hg').1 ▸ hn) x hx' e he

/-- No list is used by two directories. -/
def Func (u : List (List Name × Id)) : Prop := ∀ e ∈ u, ∀ e' ∈ u, e.2 = e'.2 → e.1 = e'.1

theorem Func.mono {u u' : List (List Name × Id)} (h : Func u) (hs : ∀ e ∈ u', e ∈ u) : Func u' :=
  fun e he e' he' => h e (hs e he) e' (hs e' he')

theorem Func.part {m : Meta} {ds : List Part} {gs : List (Id × List Part)} (h : Func (dirPart m ds gs).u) {x : Part} (hx : x ∈ allParts ds gs) :
    Func x.u := by
  intro e he e' he' hi
  exact (List.cons.inj (h _ (mem_u_sub hx he) _ (mem_u_sub hx he') hi)).2

/-- Lists of different entries are different. -/
theorem Func.apart {m : Meta} {ds : List Part} {gs : List (Id × List Part)} (h : Func (dirPart m ds gs).u) {x y : Part}
    (hx : x ∈ allParts ds gs) (hy : y ∈ allParts ds gs) (hn : x.a.name ≠ y.a.name) : ∀ e ∈ x.u, ∀ e' ∈ y.u, e.2 ≠ e'.2 := by
  intro e he e' he' hi
  exact hn (List.cons.inj (h _ (mem_u_sub hx he) _ (mem_u_sub hy he') hi)).1

/-- The lists of a directory are not those of its entries. -/
theorem Func.own {m : Meta} {ds : List Part} {gs : List (Id × List Part)} (h : Func (dirPart m ds gs).u) {x : Part}
    (hx : x ∈ allParts ds gs) {g : Id × List Part} (hg : g ∈ gs) : ∀ e ∈ x.u, e.2 ≠ g.1 := by
  intro e he hi
  have := h _ (mem_u_sub hx he) _ (mem_u_own hg) hi
  cases this

/-! ### Changes in memory -/

/-- The part `x` was changed to `x'` and the builder's lists from `w` to `w'`: no lists are used that were not used before in the same directory, and
only lists used by `x` changed. -/
structure Edit (hash : Stored → Id) (nm : Id → List Name) (x : Part) (w : Work) (x' : Part) (w' : Work) : Prop where
  exp : Exp hash nm w' x'
  frame : ∀ id, (∀ e ∈ x.u, e.2 ≠ id) → w'.lists.find id = w.lists.find id
  sub : ∀ e ∈ x'.u, e ∈ x.u
  store : w'.store = w.store

theorem Edit.refl {hash nm x w} (h : Exp hash nm w x) : Edit hash nm x w x w := ⟨h, fun _ _ => rfl, fun _ h => h, rfl⟩

theorem Edit.trans {hash nm x w x' w' x'' w''} (h : Edit hash nm x w x' w') (h' : Edit hash nm x' w' x'' w'') : Edit hash nm x w x'' w'' :=
  ⟨h'.exp, fun id hid => (h'.frame id fun e he => hid e (h.sub e he)).trans (h.frame id hid), fun e he => h.sub e (h'.sub e he),
    h'.store.trans h.store⟩

theorem Edit.same {hash nm x w x' w'} (h : Edit hash nm x w x' w') {id : Id} (hid : ∀ e ∈ x.u, e.2 ≠ id) :
    w'.lists.find id = w.lists.find id ∧ view hash w' id = view hash w id := by
  have := h.frame id hid
  refine ⟨this, ?_⟩
  unfold view
  rw [this, h.store]

/-- The names of all entries are different. -/
def Distinct (l : List Part) : Prop := (l.map fun x => x.a.name).Nodup

theorem distinct_of_tidy {P : Meta → Prop} {hash nm w m ds gs} (h : DirOk hash nm w m ds gs) (ht : Tidy P (dirPart m ds gs).t) :
    Distinct (allParts ds gs) := by
  have := ht.nodup
  unfold dirPart at this
  simp only [Asset.children_mk, List.map_map] at this
  unfold Distinct
  have he : (ds ++ gs.flatMap Prod.snd).map (Asset.name ∘ Part.t) = (allParts ds gs).map fun x => x.a.name :=
    List.map_congr_left fun x hx => (h.all x hx).name
  rwa [he] at this

theorem Distinct.mid {l1 l2 : List Part} {y : Part} (h : Distinct (l1 ++ y :: l2)) :
    (∀ x ∈ l1, x.a.name ≠ y.a.name) ∧ ∀ x ∈ l2, x.a.name ≠ y.a.name := by
  unfold Distinct at h
  rw [List.map_append, List.map_cons, List.nodup_append, List.nodup_cons] at h
  refine ⟨fun x hx e => ?_, fun x hx e => h.2.1.1 (List.mem_map.mpr ⟨x, hx, e⟩)⟩
  exact h.2.2 _ (List.mem_map.mpr ⟨x, hx, rfl⟩) _ (List.mem_cons_self ..) e

/-- A directory with the entries `ds` and the lists `gs` was changed to one with `ds'` and `gs'`. -/
structure DEdit (hash : Stored → Id) (nm : Id → List Name) (m : Meta) (ds : List Part) (gs : List (Id × List Part)) (w : Work)
    (ds' : List Part) (gs' : List (Id × List Part)) (w' : Work) : Prop where
  ok : DirOk hash nm w' m ds' gs'
  frame : ∀ id, (∀ e ∈ (dirPart m ds gs).u, e.2 ≠ id) → w'.lists.find id = w.lists.find id
  sub : ∀ e ∈ (dirPart m ds' gs').u, e ∈ (dirPart m ds gs).u
  store : w'.store = w.store

theorem DEdit.edit {hash nm m ds gs w ds' gs' w'} (h : DEdit hash nm m ds gs w ds' gs' w') :
    Edit hash nm (dirPart m ds gs) w (dirPart m ds' gs') w' := ⟨h.ok.exp, h.frame, h.sub, h.store⟩

theorem DEdit.trans {hash nm m ds gs w ds' gs' w' ds'' gs'' w''} (h : DEdit hash nm m ds gs w ds' gs' w')
    (h' : DEdit hash nm m ds' gs' w' ds'' gs'' w'') : DEdit hash nm m ds gs w ds'' gs'' w'' :=
  ⟨h'.ok, fun id hid => (h'.frame id fun e he => hid e (h.sub e he)).trans (h.frame id hid), fun e he => h.sub e (h'.sub e he),
    h'.store.trans h.store⟩

/-! ### Loading lists -/

/-- Some of the lists `ids` were loaded from the store. -/
structure Loads (hash : Stored → Id) (ids : List Id) (w w' : Work) : Prop where
  store : w'.store = w.store
  find : ∀ id, w'.lists.find id = w.lists.find id ∨ (id ∈ ids ∧ w.lists.find id = none ∧ ∃ l, findAssets hash w.store id = some l ∧ w'.lists.find id = some l)

theorem Loads.refl {hash : Stored → Id} {ids : List Id} {w : Work} : Loads hash ids w w := ⟨rfl, fun _ => .inl rfl⟩

theorem Loads.mono {hash : Stored → Id} {ids ids' : List Id} {w w' : Work} (h : Loads hash ids w w') (hs : ∀ i ∈ ids, i ∈ ids') :
    Loads hash ids' w w' :=
  ⟨h.store, fun i => (h.find i).imp_right fun ⟨a, b⟩ => ⟨hs _ a, b⟩⟩

theorem Loads.trans {hash : Stored → Id} {ids : List Id} {w w' w'' : Work} (h : Loads hash ids w w') (h' : Loads hash ids w' w'') :
    Loads hash ids w w'' := by
  refine ⟨h'.store.trans h.store, fun id => ?_⟩
  rcases h'.find id with h1 | ⟨h1, h2, l, h3, h4⟩
  · rw [h1]; exact h.find id
  · rcases h.find id with k1 | ⟨_, _, _, _, k⟩
    · right; exact ⟨h1, k1 ▸ h2, l, h.store ▸ h3, h4⟩
    · rw [k] at h2; cases h2

theorem Loads.view {hash : Stored → Id} {ids : List Id} {w w' : Work} (h : Loads hash ids w w') (id : Id) :
    view hash w' id = view hash w id := by
  unfold Manifest.view
  rcases h.find id with h1 | ⟨-, h2, l, h3, h4⟩
  · rw [h1, h.store]
  · rw [h2, h4]; exact h3.symm

theorem getList_loads {cfg : Cfg} {w : Work} {id : Id} {l : List Asset} (h : view cfg.hash w id = some l) :
    ∃ w', getList cfg w id = some (l, w') ∧ Loads cfg.hash [id] w w' ∧ w'.lists.find id = some l := by
  unfold view at h
  unfold getList
  cases hf : w.lists.find id with
  | some l' => rw [hf] at h; cases h; exact ⟨w, rfl, .refl, hf⟩
  | none =>
    rw [hf] at h
    dsimp only at h ⊢
    rw [h]
    refine ⟨_, rfl, ⟨rfl, fun i => ?_⟩, ?_⟩
    · simp only [find_setL]
      split
      · rename_i hi; subst hi; exact .inr ⟨by simp, hf, l, h, rfl⟩
      · exact .inl rfl
    · simp only [find_setL, if_true]

/-- Loading lists of a directory. -/
theorem DirOk.loads {hash nm w w' m ds gs} (h : DirOk hash nm w m ds gs) (hF : Func (dirPart m ds gs).u)
    (hl : Loads hash (gs.map Prod.fst) w w') : DirOk hash nm w' m ds gs := by
  have hsub : ∀ x ∈ allParts ds gs, ∀ e ∈ x.u, w'.lists.find e.2 = w.lists.find e.2 := by
    intro x hx e he
    rcases hl.find e.2 with h1 | ⟨h1, -⟩
    · exact h1
    · obtain ⟨g, hg, e'⟩ := List.mem_map.mp h1
      exact absurd e'.symm (hF.own hx hg e he)
  have hex : ∀ x ∈ allParts ds gs, Exp hash nm w' x := fun x hx =>
    exp_frame (h.all x hx) fun e he => ⟨hsub x hx e he, hl.view _, rfl⟩
  refine { h with direct := fun x hx => hex x (mem_allParts.mpr (.inl hx)), lists := fun g hg => by rw [hl.view]; exact h.lists g hg,
                  inLists := fun g hg x hx => hex x (mem_allParts.mpr (.inr ⟨g, hg, hx⟩)), unloaded := ?_ }
  intro g hg hn x hx e he
  rw [hsub x (mem_allParts.mpr (.inr ⟨g, hg, hx⟩)) e he]
  refine h.unloaded g hg ?_ x hx e he
  rcases hl.find g.1 with h1 | ⟨-, h2, -⟩
  · exact h1 ▸ hn
  · exact h2

theorem Loads.edit {hash nm w w' m ds gs} (h : DirOk hash nm w m ds gs) (hF : Func (dirPart m ds gs).u)
    (hl : Loads hash (gs.map Prod.fst) w w') : DEdit hash nm m ds gs w ds gs w' := by
  refine ⟨h.loads hF hl, fun id hid => ?_, fun _ h => h, hl.store⟩
  rcases hl.find id with h1 | ⟨h1, -⟩
  · exact h1
  · obtain ⟨g, hg, e'⟩ := List.mem_map.mp h1
    exact absurd e' (hid _ (mem_u_own hg))

/-! ### Changing one entry -/

/-- An entry that is held directly was changed. -/
theorem edit_direct {hash nm w w' m d1 d2 gs y y'} (h : DirOk hash nm w m (d1 ++ y :: d2) gs) (hF : Func (dirPart m (d1 ++ y :: d2) gs).u)
    (hD : Distinct (allParts (d1 ++ y :: d2) gs)) (he : Edit hash nm y w y' w') (hn : y'.a.name = y.a.name) :
    DEdit hash nm m (d1 ++ y :: d2) gs w (d1 ++ y' :: d2) gs w' := by
  have hy : y ∈ allParts (d1 ++ y :: d2) gs := mem_allParts.mpr (.inl (by simp))
  have hne : ∀ x, x ∈ d1 ∨ x ∈ d2 ∨ x ∈ gs.flatMap Prod.snd → x.a.name ≠ y.a.name := by
    have h1 : allParts (d1 ++ y :: d2) gs = d1 ++ y :: (d2 ++ gs.flatMap Prod.snd) := by simp [allParts]
    rw [h1] at hD
    have := hD.mid
    rintro x (hx | hx | hx)
    · exact this.1 x hx
    · exact this.2 x (List.mem_append_left _ hx)
    · exact this.2 x (List.mem_append_right _ hx)
  have hall : ∀ x, x ∈ d1 ∨ x ∈ d2 ∨ x ∈ gs.flatMap Prod.snd → x ∈ allParts (d1 ++ y :: d2) gs := by
    intro x hx; unfold allParts
    simp only [List.mem_append, List.mem_cons]
    rcases hx with hx | hx | hx
    · exact .inl (.inl hx)
    · exact .inl (.inr (.inr hx))
    · exact .inr hx
  have hsame : ∀ x, x ∈ d1 ∨ x ∈ d2 ∨ x ∈ gs.flatMap Prod.snd → ∀ e ∈ x.u,
      w'.lists.find e.2 = w.lists.find e.2 ∧ view hash w' e.2 = view hash w e.2 := fun x hx e hex =>
    he.same fun e' he' => (hF.apart (hall x hx) hy (hne x hx) e hex e' he').symm
  have hexp : ∀ x, x ∈ d1 ∨ x ∈ d2 ∨ x ∈ gs.flatMap Prod.snd → Exp hash nm w' x := fun x hx =>
    exp_frame (h.all x (hall x hx)) fun e hex => ⟨(hsame x hx e hex).1, (hsame x hx e hex).2, rfl⟩
  have hg : ∀ g ∈ gs, w'.lists.find g.1 = w.lists.find g.1 ∧ view hash w' g.1 = view hash w g.1 := fun g hg =>
    he.same fun e' he' => hF.own hy hg e' he'
  have hgm : ∀ g ∈ gs, ∀ x ∈ g.2, x ∈ gs.flatMap Prod.snd := fun g hg x hx => List.mem_flatMap.mpr ⟨g, hg, hx⟩
  have hd : DirOk hash nm w' m (d1 ++ y' :: d2) gs := by
    refine ⟨?_, fun g h' => by rw [(hg g h').2]; exact h.lists g h', fun g h' x hx => hexp x (.inr (.inr (hgm g h' x hx))), h.names, h.apart, ?_, ?_⟩
    · intro x hx
      simp only [List.mem_append, List.mem_cons] at hx
      rcases hx with hx | rfl | hx
      · exact hexp x (.inl hx)
      · exact he.exp
      · exact hexp x (.inr (.inl hx))
    · intro hk; have := (h.leaf hk).1; simp at this
    · intro g h' hnone x hx e hex
      rw [(hsame x (.inr (.inr (hgm g h' x hx))) e hex).1]
      exact h.unloaded g h' ((hg g h').1 ▸ hnone) x hx e hex
  refine ⟨hd, fun id hid => he.frame id fun e hex => hid (y.a.name :: e.1, e.2) (mem_u_sub hy hex), ?_, he.store⟩
  intro e hex
  rcases mem_dirPart_u.mp hex with h1 | ⟨x, hx, q, e1, e2⟩
  · exact mem_dirPart_u.mpr (.inl h1)
  · by_cases hxy : x = y'
    · subst hxy
      exact mem_dirPart_u.mpr (.inr ⟨y, hy, q, by rw [← hn]; exact e1, he.sub _ e2⟩)
    · refine mem_dirPart_u.mpr (.inr ⟨x, hall x ?_, q, e1, e2⟩)
      unfold allParts at hx
      simp only [List.mem_append, List.mem_cons, hxy, false_or] at hx
      rcases hx with (hx | hx) | hx
      · exact .inl hx
      · exact .inr (.inl hx)
      · exact .inr (.inr hx)

/-- The entries of one list were changed: `c` to `c'`. -/
theorem edit_list {hash nm w w' m ds g1 g2 id c c'} (h : DirOk hash nm w m ds (g1 ++ (id, c) :: g2))
    (hc : ∀ x ∈ c', Exp hash nm w' x) (hcn : ∀ x ∈ c', x.a.name ∈ nm id)
    (hstore : w'.store = w.store) (hview : w'.lists.find id = some (c'.map Part.a))
    (hsame : ∀ x, x ∈ ds ∨ x ∈ g1.flatMap Prod.snd ∨ x ∈ g2.flatMap Prod.snd → ∀ e ∈ x.u, w'.lists.find e.2 = w.lists.find e.2)
    (hother : ∀ g, g ∈ g1 ∨ g ∈ g2 → w'.lists.find g.1 = w.lists.find g.1)
    (hframe : ∀ i, (∀ e ∈ (dirPart m ds (g1 ++ (id, c) :: g2)).u, e.2 ≠ i) → w'.lists.find i = w.lists.find i)
    (hsub : ∀ x ∈ c', ∃ y ∈ c, x.a.name = y.a.name ∧ ∀ e ∈ x.u, e ∈ y.u) :
    DEdit hash nm m ds (g1 ++ (id, c) :: g2) w ds (g1 ++ (id, c') :: g2) w' := by
  have hv : ∀ i, w'.lists.find i = w.lists.find i → view hash w' i = view hash w i := by
    intro i hi; unfold view; rw [hi, hstore]
  have hall : ∀ x, x ∈ ds ∨ x ∈ g1.flatMap Prod.snd ∨ x ∈ g2.flatMap Prod.snd → x ∈ allParts ds (g1 ++ (id, c) :: g2) := by
    intro x hx; unfold allParts
    simp only [List.flatMap_append, List.flatMap_cons, List.mem_append]
    rcases hx with hx | hx | hx
    · exact .inl hx
    · exact .inr (.inl hx)
    · exact .inr (.inr (.inr hx))
  have hexp : ∀ x, x ∈ ds ∨ x ∈ g1.flatMap Prod.snd ∨ x ∈ g2.flatMap Prod.snd → Exp hash nm w' x := fun x hx =>
    exp_frame (h.all x (hall x hx)) fun e hex => ⟨hsame x hx e hex, hv _ (hsame x hx e hex), rfl⟩
  have hm1 : ∀ g ∈ g1, ∀ x ∈ g.2, x ∈ g1.flatMap Prod.snd := fun g hg x hx => List.mem_flatMap.mpr ⟨g, hg, hx⟩
  have hm2 : ∀ g ∈ g2, ∀ x ∈ g.2, x ∈ g2.flatMap Prod.snd := fun g hg x hx => List.mem_flatMap.mpr ⟨g, hg, hx⟩
  have hcase : ∀ g ∈ g1 ++ (id, c') :: g2, g = (id, c') ∨ (g ∈ g1 ∨ g ∈ g2) := by
    intro g hg
    simp only [List.mem_append, List.mem_cons] at hg
    rcases hg with hg | hg | hg
    · exact .inr (.inl hg)
    · exact .inl hg
    · exact .inr (.inr hg)
  have hin : ∀ g, g ∈ g1 ∨ g ∈ g2 → g ∈ g1 ++ (id, c) :: g2 := by
    intro g hg; simp only [List.mem_append, List.mem_cons]; exact hg.elim .inl fun h => .inr (.inr h)
  have hgx : ∀ g, g ∈ g1 ∨ g ∈ g2 → ∀ x ∈ g.2, x ∈ ds ∨ x ∈ g1.flatMap Prod.snd ∨ x ∈ g2.flatMap Prod.snd := by
    rintro g (hg | hg) x hx
    · exact .inr (.inl (hm1 g hg x hx))
    · exact .inr (.inr (hm2 g hg x hx))
  have hd : DirOk hash nm w' m ds (g1 ++ (id, c') :: g2) := by
    refine ⟨fun x hx => hexp x (.inl hx), ?_, ?_, ?_, ?_, ?_, ?_⟩
    · intro g hg
      rcases hcase g hg with rfl | hg
      · unfold view; rw [hview]
      · rw [hv _ (hother g hg)]; exact h.lists g (hin g hg)
    · intro g hg x hx
      rcases hcase g hg with rfl | hg
      · exact hc x hx
      · exact hexp x (hgx g hg x hx)
    · intro g hg x hx
      rcases hcase g hg with rfl | hg
      · exact hcn x hx
      · exact h.names g (hin g hg) x hx
    · have := h.apart
      rw [List.pairwise_append, List.pairwise_cons] at this ⊢
      refine ⟨this.1, ⟨this.2.1.1, this.2.1.2⟩, ?_⟩
      intro a ha b hb
      rcases List.mem_cons.mp hb with rfl | hb
      · exact this.2.2 a ha (id, c) (by simp)
      · exact this.2.2 a ha b (by simp [hb])
    · intro hk; have := (h.leaf hk).2; simp at this
    · intro g hg hnone x hx e he
      rcases hcase g hg with rfl | hg
      · rw [hview] at hnone; cases hnone
      · rw [hsame x (hgx g hg x hx) e he]
        exact h.unloaded g (hin g hg) (hother g hg ▸ hnone) x hx e he
  refine ⟨hd, hframe, ?_, hstore⟩
  intro e hex
  rcases mem_dirPart_u.mp hex with ⟨e1, g, hg, e2⟩ | ⟨x, hx, q, e1, e2⟩
  · refine mem_dirPart_u.mpr (.inl ⟨e1, ?_⟩)
    rcases hcase g hg with rfl | hg
    · exact ⟨(id, c), by simp, e2⟩
    · exact ⟨g, hin g hg, e2⟩
  · by_cases hxc : x ∈ c'
    · obtain ⟨y, hy, hn, hu⟩ := hsub x hxc
      exact mem_dirPart_u.mpr (.inr ⟨y, mem_allParts.mpr (.inr ⟨(id, c), by simp, hy⟩), q, by rw [← hn]; exact e1, hu _ e2⟩)
    · refine mem_dirPart_u.mpr (.inr ⟨x, hall x ?_, q, e1, e2⟩)
      unfold allParts at hx
      simp only [List.flatMap_append, List.flatMap_cons, List.mem_append, hxc, false_or] at hx
      exact hx

theorem mem_list_all {ds : List Part} {g1 g2 : List (Id × List Part)} {id : Id} {c : List Part} {x : Part} (hx : x ∈ c) :
    x ∈ allParts ds (g1 ++ (id, c) :: g2) := mem_allParts.mpr (.inr ⟨(id, c), by simp, hx⟩)

/-- One entry of a list that is in memory was changed. -/
theorem edit_inList {hash nm w w' m ds g1 g2 id c1 c2 y y'} (h : DirOk hash nm w m ds (g1 ++ (id, c1 ++ y :: c2) :: g2))
    (hF : Func (dirPart m ds (g1 ++ (id, c1 ++ y :: c2) :: g2)).u)
    (hD : Distinct (allParts ds (g1 ++ (id, c1 ++ y :: c2) :: g2))) (he : Edit hash nm y w y' w') (hn : y'.a.name = y.a.name) :
    DEdit hash nm m ds (g1 ++ (id, c1 ++ y :: c2) :: g2) w ds (g1 ++ (id, c1 ++ y' :: c2) :: g2)
      { w' with lists := w'.lists.set id ((c1 ++ y' :: c2).map Part.a) } := by
  have hy : y ∈ allParts ds (g1 ++ (id, c1 ++ y :: c2) :: g2) := mem_list_all (by simp)
  have hsplit : allParts ds (g1 ++ (id, c1 ++ y :: c2) :: g2) =
      (ds ++ g1.flatMap Prod.snd ++ c1) ++ y :: (c2 ++ g2.flatMap Prod.snd) := by simp [allParts, List.flatMap_append]
  rw [hsplit] at hD
  have hmid := hD.mid
  -- entries other than y
  have key : ∀ x ∈ allParts ds (g1 ++ (id, c1 ++ y :: c2) :: g2), x.a.name ≠ y.a.name → ∀ e ∈ x.u,
      (w'.lists.set id ((c1 ++ y' :: c2).map Part.a)).find e.2 = w.lists.find e.2 := by
    intro x hx hxn e hex
    rw [find_setL, if_neg (hF.own hx (g := (id, c1 ++ y :: c2)) (by simp) e hex)]
    exact (he.same fun e' he' => (hF.apart hx hy hxn e hex e' he').symm).1
  have hl : ∀ x, x ∈ ds ∨ x ∈ g1.flatMap Prod.snd ∨ x ∈ g2.flatMap Prod.snd →
      x ∈ allParts ds (g1 ++ (id, c1 ++ y :: c2) :: g2) ∧ x.a.name ≠ y.a.name := by
    intro x hx
    rw [hsplit]
    rcases hx with hx | hx | hx
    · exact ⟨by simp [hx], hmid.1 x (by simp [hx])⟩
    · exact ⟨List.mem_append_left _ (List.mem_append_left _ (List.mem_append_right _ hx)),
        hmid.1 x (List.mem_append_left _ (List.mem_append_right _ hx))⟩
    · exact ⟨List.mem_append_right _ (List.mem_cons_of_mem _ (List.mem_append_right _ hx)), hmid.2 x (List.mem_append_right _ hx)⟩
  have hv : ∀ i, i ≠ id → (w'.lists.set id ((c1 ++ y' :: c2).map Part.a)).find i = w'.lists.find i := fun i hi => by rw [find_setL, if_neg hi]
  refine edit_list h ?_ ?_ he.store (by rw [find_setL, if_pos rfl]) (fun x hx => key x (hl x hx).1 (hl x hx).2) ?_ ?_ ?_
  · intro x hx
    simp only [List.mem_append, List.mem_cons] at hx
    have hother : ∀ x, x ∈ c1 ∨ x ∈ c2 → Exp hash nm { w' with lists := w'.lists.set id ((c1 ++ y' :: c2).map Part.a) } x := by
      intro x hx
      have hxa : x ∈ allParts ds (g1 ++ (id, c1 ++ y :: c2) :: g2) := mem_list_all (by simp; exact hx.elim .inl fun h => .inr (.inr h))
      have hxn : x.a.name ≠ y.a.name := hx.elim (fun h => hmid.1 x (List.mem_append_right _ h)) fun h => hmid.2 x (List.mem_append_left _ h)
      refine exp_frame (h.all x hxa) fun e hex => ⟨key x hxa hxn e hex, ?_, rfl⟩
      unfold view
      simp only [key x hxa hxn e hex, he.store]
    rcases hx with hx | rfl | hx
    · exact hother x (.inl hx)
    · refine exp_frame he.exp fun e hex => ?_
      have hne : e.2 ≠ id := hF.own hy (g := (id, c1 ++ y :: c2)) (by simp) e (he.sub e hex)
      refine ⟨hv _ hne, ?_, rfl⟩
      rw [view_set, if_neg hne]
    · exact hother x (.inr hx)
  · intro x hx
    have hnm := h.names (id, c1 ++ y :: c2) (by simp)
    simp only [List.mem_append, List.mem_cons] at hx
    rcases hx with hx | rfl | hx
    · exact hnm x (by simp [hx])
    · rw [hn]; exact hnm y (by simp)
    · exact hnm x (by simp [hx])
  · intro g hg
    have hne : g.1 ≠ id := by
      have := h.apart
      rw [List.pairwise_append, List.pairwise_cons] at this
      rcases hg with hg | hg
      · exact (this.2.2 g hg (id, c1 ++ y :: c2) (by simp)).1
      · exact (this.2.1.1 g hg).1.symm
    have hgm : g ∈ g1 ++ (id, c1 ++ y :: c2) :: g2 := by simp only [List.mem_append, List.mem_cons]; exact hg.elim .inl fun h => .inr (.inr h)
    show (w'.lists.set id _).find g.1 = _
    rw [hv _ hne]
    exact he.frame g.1 fun e hex => hF.own hy hgm e hex
  · intro i hi
    show (w'.lists.set id _).find i = _
    have hne : i ≠ id := fun e => hi ([], id) (mem_u_own (g := (id, c1 ++ y :: c2)) (by simp)) e.symm
    rw [hv _ hne]
    exact he.frame i fun e hex => hi (y.a.name :: e.1, e.2) (mem_u_sub hy hex)
  · intro x hx
    simp only [List.mem_append, List.mem_cons] at hx
    rcases hx with hx | rfl | hx
    · exact ⟨x, by simp [hx], rfl, fun _ h => h⟩
    · exact ⟨y, by simp, hn, he.sub⟩
    · exact ⟨x, by simp [hx], rfl, fun _ h => h⟩

/-- Entries of a list that is in memory were removed or reordered. -/
theorem edit_removed {hash nm w m ds g1 g2 id c c'} (h : DirOk hash nm w m ds (g1 ++ (id, c) :: g2))
    (hF : Func (dirPart m ds (g1 ++ (id, c) :: g2)).u) (hc : ∀ x ∈ c', x ∈ c) :
    DEdit hash nm m ds (g1 ++ (id, c) :: g2) w ds (g1 ++ (id, c') :: g2)
      { w with lists := w.lists.set id (c'.map Part.a) } := by
  have hv : ∀ i, i ≠ id → (w.lists.set id (c'.map Part.a)).find i = w.lists.find i := fun i hi => by rw [find_setL, if_neg hi]
  have hw : ∀ x ∈ allParts ds (g1 ++ (id, c) :: g2), ∀ e ∈ x.u, e.2 ≠ id := fun x hx e he => hF.own hx (g := (id, c)) (by simp) e he
  refine edit_list h ?_ (fun x hx => h.names (id, c) (by simp) x (hc x hx)) rfl (by rw [find_setL, if_pos rfl]) ?_ ?_ ?_
    (fun x hx => ⟨x, hc x hx, rfl, fun _ h => h⟩)
  · intro x hx
    have hxa : x ∈ allParts ds (g1 ++ (id, c) :: g2) := mem_list_all (hc x hx)
    refine exp_frame (h.all x hxa) fun e he => ⟨hv _ (hw x hxa e he), ?_, rfl⟩
    rw [view_set, if_neg (hw x hxa e he)]
  · intro x hx e he
    refine hv _ (hw x ?_ e he)
    unfold allParts
    simp only [List.flatMap_append, List.flatMap_cons, List.mem_append]
    rcases hx with hx | hx | hx
    · exact .inl hx
    · exact .inr (.inl hx)
    · exact .inr (.inr (.inr hx))
  · intro g hg
    refine hv _ ?_
    have := h.apart
    rw [List.pairwise_append, List.pairwise_cons] at this
    rcases hg with hg | hg
    · exact (this.2.2 g hg (id, c) (by simp)).1
    · exact (this.2.1.1 g hg).1.symm
  · intro i hi
    exact hv _ fun e => hi ([], id) (mem_u_own (g := (id, c)) (by simp)) e.symm

/-- Direct entries were removed or reordered. -/
theorem edit_dropped {hash nm w m ds ds' gs} (h : DirOk hash nm w m ds gs) (hc : ∀ x ∈ ds', x ∈ ds) :
    DEdit hash nm m ds gs w ds' gs w := by
  refine ⟨{ h with direct := fun x hx => h.direct x (hc x hx), leaf := fun hk => ⟨?_, (h.leaf hk).2⟩ }, fun _ _ => rfl, ?_, rfl⟩
  · have := (h.leaf hk).1
    cases ds' with
    | nil => rfl
    | cons x l => have := hc x (by simp); rw [(h.leaf hk).1] at this; cases this
  · intro e he
    rcases mem_dirPart_u.mp he with h1 | ⟨x, hx, q, e1, e2⟩
    · exact mem_dirPart_u.mpr (.inl h1)
    · refine mem_dirPart_u.mpr (.inr ⟨x, ?_, q, e1, e2⟩)
      rw [mem_allParts] at hx ⊢
      exact hx.imp_left (hc x)

/-- A new entry, which has no lists, was added. -/
theorem edit_added {hash nm w m ds gs y} (h : DirOk hash nm w m ds gs) (hd : m.kind = .directory) (hy : Exp hash nm w y) (hu : y.u = []) :
    DEdit hash nm m ds gs w (ds ++ [y]) gs w := by
  refine ⟨{ h with direct := ?_, leaf := fun hk => absurd hd hk }, fun _ _ => rfl, ?_, rfl⟩
  · intro x hx
    rcases List.mem_append.mp hx with hx | hx
    · exact h.direct x hx
    · rw [List.mem_singleton.mp hx]; exact hy
  · intro e he
    rcases mem_dirPart_u.mp he with h1 | ⟨x, hx, q, e1, e2⟩
    · exact mem_dirPart_u.mpr (.inl h1)
    · rw [mem_allParts] at hx
      rcases hx with hx | hx
      · rcases List.mem_append.mp hx with hx | hx
        · exact mem_dirPart_u.mpr (.inr ⟨x, mem_allParts.mpr (.inl hx), q, e1, e2⟩)
        · rw [List.mem_singleton.mp hx, hu] at e2; cases e2
      · exact mem_dirPart_u.mpr (.inr ⟨x, mem_allParts.mpr (.inr hx), q, e1, e2⟩)

/-! ### Finding an entry -/

theorem inList_parts_none {σ ε : Type} {name : Name} {f : Asset → σ → Except ε (Asset × σ)} {l : List Part} {s : σ}
    (h : ∀ x ∈ l, x.a.name ≠ name) : inList name f (l.map Part.a) s = none :=
  inList_none fun a ha => by obtain ⟨x, hx, rfl⟩ := List.mem_map.mp ha; exact h x hx

/-- Lists that do not have the entry are loaded and passed over. -/
theorem inIndirect_skip {α : Type} {cfg : Cfg} {name : Name} {f : Asset → Work × Option α → Except Err (Asset × Work × Option α)}
    {gs : List (Id × List Part)} {rest : List Id} {w : Work}
    (hl : ∀ g ∈ gs, view cfg.hash w g.1 = some (g.2.map Part.a)) (hn : ∀ g ∈ gs, ∀ x ∈ g.2, x.a.name ≠ name) :
    ∃ w', inIndirect cfg name f (gs.map Prod.fst ++ rest) w = inIndirect cfg name f rest w' ∧ Loads cfg.hash (gs.map Prod.fst) w w' := by
  induction gs generalizing w with
  | nil => exact ⟨w, rfl, .refl⟩
  | cons g gs ih =>
    obtain ⟨w1, h1, h2, -⟩ := getList_loads (cfg := cfg) (hl g (by simp))
    obtain ⟨w2, h3, h4⟩ := ih (w := w1) (fun g' hg' => by rw [h2.view]; exact hl g' (by simp [hg'])) fun g' hg' => hn g' (by simp [hg'])
    refine ⟨w2, ?_, (h2.mono (by simp)).trans (h4.mono fun i hi => by rw [List.map_cons]; exact List.mem_cons_of_mem _ hi)⟩
    rw [List.map_cons, List.cons_append, inIndirect, h1]
    dsimp only
    rw [inList_parts_none (hn g (by simp))]
    exact h3

theorem inDir_absent {α : Type} {cfg : Cfg} {name : Name} {f : Asset → Work × Option α → Except Err (Asset × Work × Option α)} {nm w m ds gs}
    (h : DirOk cfg.hash nm w m ds gs) (hn : ∀ x ∈ allParts ds gs, x.a.name ≠ name) :
    ∃ w', inDir cfg name f (dirPart m ds gs).a w = .ok ((dirPart m ds gs).a, w', none, false) ∧ Loads cfg.hash (gs.map Prod.fst) w w' := by
  obtain ⟨w', h1, h2⟩ := inIndirect_skip (cfg := cfg) (f := f) (rest := []) h.lists fun g hg x hx => hn x (mem_allParts.mpr (.inr ⟨g, hg, hx⟩))
  refine ⟨w', ?_, h2⟩
  unfold inDir dirPart
  simp only [Asset.children_mk, Asset.indirect_mk]
  rw [inList_parts_none fun x hx => hn x (mem_allParts.mpr (.inl hx))]
  dsimp only
  rw [List.append_nil] at h1
  rw [h1]
  rfl

/-- The entry is found and `f` is applied to it. -/
theorem inDir_found {α : Type} {cfg : Cfg} {f : Asset → Work × Option α → Except Err (Asset × Work × Option α)} {nm w m ds gs} {y : Part}
    (h : DirOk cfg.hash nm w m ds gs) (hF : Func (dirPart m ds gs).u) (hD : Distinct (allParts ds gs)) (hy : y ∈ allParts ds gs) :
    ∃ w1, Loads cfg.hash (gs.map Prod.fst) w w1 ∧ (∀ e, f y.a (w1, none) = .error e → inDir cfg y.a.name f (dirPart m ds gs).a w = .error e) ∧
      ∀ y' w2 r, f y.a (w1, none) = .ok (y'.a, w2, r) → Edit cfg.hash nm y w1 y' w2 → y'.a.name = y.a.name →
        ∃ ds' gs' w3 l1 l2, inDir cfg y.a.name f (dirPart m ds gs).a w = .ok ((dirPart m ds' gs').a, w3, r, true) ∧
          DEdit cfg.hash nm m ds gs w ds' gs' w3 ∧
          allParts ds gs = l1 ++ y :: l2 ∧ allParts ds' gs' = l1 ++ y' :: l2 ∧ ∀ i, i ∉ gs.map Prod.fst → w3.lists.find i = w2.lists.find i := by
  have hy' := hy
  unfold allParts at hy'
  rcases List.mem_append.mp hy' with hy1 | hy1
  · -- a direct entry
    obtain ⟨d1, d2, rfl⟩ := List.append_of_mem hy1
    have hsplit : allParts (d1 ++ y :: d2) gs = d1 ++ y :: (d2 ++ gs.flatMap Prod.snd) := by simp [allParts]
    have hD' := hD
    rw [hsplit] at hD'
    have hn1 : ∀ x ∈ d1.map Part.a, x.name ≠ y.a.name := by
      intro a ha; obtain ⟨x, hx, rfl⟩ := List.mem_map.mp ha; exact hD'.mid.1 x hx
    refine ⟨w, .refl, ?_, ?_⟩
    · intro e he
      unfold inDir dirPart
      simp only [Asset.children_mk, List.map_append, List.map_cons]
      rw [inList_found hn1 rfl, he]
    · intro y' w2 r hok hed hn
      refine ⟨d1 ++ y' :: d2, gs, w2, d1, d2 ++ gs.flatMap Prod.snd, ?_, edit_direct h hF hD hed hn, hsplit, by simp [allParts], fun _ _ => rfl⟩
      unfold inDir dirPart
      simp only [Asset.children_mk, List.map_append, List.map_cons]
      rw [inList_found hn1 rfl, hok]
      rfl
  · obtain ⟨⟨id, c⟩, hg, hyc⟩ := List.mem_flatMap.mp hy1
    obtain ⟨g1, g2, rfl⟩ := List.append_of_mem hg
    obtain ⟨c1, c2, rfl⟩ := List.append_of_mem hyc
    have hsplit : allParts ds (g1 ++ (id, c1 ++ y :: c2) :: g2) =
        (ds ++ g1.flatMap Prod.snd ++ c1) ++ y :: (c2 ++ g2.flatMap Prod.snd) := by simp [allParts, List.flatMap_append]
    have hD' := hD
    rw [hsplit] at hD'
    have hmid := hD'.mid
    have hn0 : ∀ x ∈ ds, x.a.name ≠ y.a.name := fun x hx => hmid.1 x (by simp [hx])
    have hng : ∀ g ∈ g1, ∀ x ∈ g.2, x.a.name ≠ y.a.name := fun g hg x hx =>
      hmid.1 x (List.mem_append_left _ (List.mem_append_right _ (List.mem_flatMap.mpr ⟨g, hg, hx⟩)))
    have hn1 : ∀ x ∈ c1.map Part.a, x.name ≠ y.a.name := by
      intro a ha; obtain ⟨x, hx, rfl⟩ := List.mem_map.mp ha; exact hmid.1 x (List.mem_append_right _ hx)
    obtain ⟨w0, h1, h2⟩ := inIndirect_skip (cfg := cfg) (f := f) (rest := id :: g2.map Prod.fst)
      (fun g hg => h.lists g (List.mem_append_left _ hg)) hng
    obtain ⟨w1, h3, h4, h5⟩ := getList_loads (cfg := cfg) (w := w0) (id := id) (l := (c1 ++ y :: c2).map Part.a)
      (by rw [h2.view]; exact h.lists (id, c1 ++ y :: c2) (by simp))
    have hloads : Loads cfg.hash ((g1 ++ (id, c1 ++ y :: c2) :: g2).map Prod.fst) w w1 := by
      refine (h2.mono fun i hi => ?_).trans (h4.mono fun i hi => ?_)
      · rw [List.map_append]; exact List.mem_append_left _ hi
      · rw [List.mem_singleton.mp hi]; simp
    have hrun : inDir cfg y.a.name f (dirPart m ds (g1 ++ (id, c1 ++ y :: c2) :: g2)).a w =
        match (match f y.a (w1, none) with
          | .error e => .error e
          | .ok (b, s) => .ok (c1.map Part.a ++ b :: c2.map Part.a, s) : Except Err (List Asset × Work × Option α)) with
        | .error e => .error e
        | .ok (l, w, a) => .ok ((dirPart m ds (g1 ++ (id, c1 ++ y :: c2) :: g2)).a, { w with lists := w.lists.set id l }, a, true) := by
      unfold inDir dirPart
      simp only [Asset.children_mk, Asset.indirect_mk]
      rw [inList_parts_none hn0]
      dsimp only
      rw [List.map_append, List.map_cons, h1, inIndirect, h3]
      dsimp only
      rw [List.map_append, List.map_cons, inList_found hn1 rfl]
      cases f y.a (w1, none) with
      | error e => rfl
      | ok v => rfl
    refine ⟨w1, hloads, ?_, ?_⟩
    · intro e he; rw [hrun, he]
    · intro y' w2 r hok hed hn
      have hd1 := h.loads hF hloads
      have hE := edit_inList hd1 hF hD hed hn
      refine ⟨ds, g1 ++ (id, c1 ++ y' :: c2) :: g2, _, ds ++ g1.flatMap Prod.snd ++ c1, c2 ++ g2.flatMap Prod.snd, ?_,
        (hloads.edit h hF).trans hE, hsplit, by simp [allParts, List.flatMap_append], ?_⟩
      swap
      · intro i hi
        show (w2.lists.set id _).find i = _
        rw [find_setL, if_neg]
        rintro rfl
        exact hi (by simp)
      rw [hrun, hok]
      dsimp only
      simp only [dirPart, List.map_append, List.map_cons]

/-! ### Deleting an entry -/

theorem perm_parts {l : List Asset} {xs : List Part} (h : l.Perm (xs.map Part.a)) : ∃ xs' : List Part, xs'.Perm xs ∧ xs'.map Part.a = l := by
  generalize hl : xs.map Part.a = l0 at h
  induction h generalizing xs with
  | nil => exact ⟨[], by have := List.map_eq_nil_iff.mp hl; rw [this], rfl⟩
  | @cons a l1 l2 _ ih =>
    cases xs with
    | nil => cases hl
    | cons x xs =>
      simp only [List.map_cons, List.cons.injEq] at hl
      obtain ⟨xs', h1, h2⟩ := ih hl.2
      exact ⟨x :: xs', h1.cons x, by rw [List.map_cons, h2, hl.1]⟩
  | swap a b l =>
    match xs, hl with
    | x :: y :: xs, hl =>
      simp only [List.map_cons, List.cons.injEq] at hl
      obtain ⟨rfl, rfl, rfl⟩ := hl
      exact ⟨y :: x :: xs, .swap .., rfl⟩
  | trans _ _ ih1 ih2 =>
    obtain ⟨xs1, h1, h2⟩ := ih2 hl
    obtain ⟨xs2, h3, h4⟩ := ih1 h2
    exact ⟨xs2, h3.trans h1, h4⟩

theorem deleteFromList_parts {c1 c2 : List Part} {y : Part} (h1 : ∀ x ∈ c1, x.a.name ≠ y.a.name) :
    ∃ c' : List Part, deleteFromList y.a.name ((c1 ++ y :: c2).map Part.a) = some (c'.map Part.a) ∧ c'.Perm (c1 ++ c2) := by
  rw [List.map_append, List.map_cons]
  obtain ⟨l, h2, h3⟩ := deleteFromList_found (l1 := c1.map Part.a) (l2 := c2.map Part.a) (a := y.a) (by
    intro a ha; obtain ⟨x, hx, rfl⟩ := List.mem_map.mp ha; exact h1 x hx)
  rw [← List.map_append] at h3
  obtain ⟨c', h4, h5⟩ := perm_parts h3
  exact ⟨c', by rw [h5]; exact h2, h4⟩

theorem deleteFromList_parts_none {l : List Part} {name : Name} (h : ∀ x ∈ l, x.a.name ≠ name) : deleteFromList name (l.map Part.a) = none :=
  deleteFromList_none fun a ha => by obtain ⟨x, hx, rfl⟩ := List.mem_map.mp ha; exact h x hx

theorem deleteFromIndirect_skip {cfg : Cfg} {name : Name} {gs : List (Id × List Part)} {rest : List Id} {w : Work}
    (hl : ∀ g ∈ gs, view cfg.hash w g.1 = some (g.2.map Part.a)) (hn : ∀ g ∈ gs, ∀ x ∈ g.2, x.a.name ≠ name) :
    ∃ w', deleteFromIndirect cfg name (gs.map Prod.fst ++ rest) w = deleteFromIndirect cfg name rest w' ∧ Loads cfg.hash (gs.map Prod.fst) w w' := by
  induction gs generalizing w with
  | nil => exact ⟨w, rfl, .refl⟩
  | cons g gs ih =>
    obtain ⟨w1, h1, h2, -⟩ := getList_loads (cfg := cfg) (hl g (by simp))
    obtain ⟨w2, h3, h4⟩ := ih (w := w1) (fun g' hg' => by rw [h2.view]; exact hl g' (by simp [hg'])) fun g' hg' => hn g' (by simp [hg'])
    refine ⟨w2, ?_, (h2.mono (by simp)).trans (h4.mono fun i hi => by rw [List.map_cons]; exact List.mem_cons_of_mem _ hi)⟩
    rw [List.map_cons, List.cons_append, deleteFromIndirect, h1]
    dsimp only
    rw [deleteFromList_parts_none (hn g (by simp))]
    exact h3

/-- `DeleteAssetFromDir`, manifest_builder.cc:300-322. -/
theorem deleteFromDir_part {P : Meta → Prop} {cfg : Cfg} {nm w m ds gs} {name : Name} (h : DirOk cfg.hash nm w m ds gs)
    (hF : Func (dirPart m ds gs).u) (ht : Tidy P (dirPart m ds gs).t) (hd : m.kind = .directory) :
    ∃ ds' gs' w', deleteFromDir cfg name (dirPart m ds gs).a w = .ok ((dirPart m ds' gs').a, w', none) ∧
      DEdit cfg.hash nm m ds gs w ds' gs' w' ∧ Tidy P (dirPart m ds' gs').t ∧
      (∀ x ∈ allParts ds' gs', x.a.name ≠ name) ∧ look (dirPart m ds' gs').t = graft name (fun _ => none) (look (dirPart m ds gs).t) := by
  have hD := distinct_of_tidy h ht
  have hname : ∀ x ∈ allParts ds gs, x.t.name = x.a.name := fun x hx => (h.all x hx).name
  -- what removing an entry does to the tree
  have key : ∀ {ds' gs' l1 l2} {y : Part}, allParts ds gs = l1 ++ y :: l2 → y.a.name = name → (allParts ds' gs').Perm (l1 ++ l2) →
      Tidy P (dirPart m ds' gs').t ∧ (∀ x ∈ allParts ds' gs', x.a.name ≠ name) ∧
      look (dirPart m ds' gs').t = graft name (fun _ => none) (look (dirPart m ds gs).t) := by
    intro ds' gs' l1 l2 y hs hyn hp
    subst hyn
    rw [hs] at hD
    have hmid := hD.mid
    have ht0 : (dirPart m ds gs).t = .mk m (l1.map Part.t ++ y.t :: l2.map Part.t) [] := by
      show Asset.mk m ((allParts ds gs).map Part.t) [] = _
      rw [hs]; simp
    have ht1 : (dirPart m ds' gs').t = .mk m ((allParts ds' gs').map Part.t) [] := rfl
    have hp' : ((allParts ds' gs').map Part.t).Perm (l1.map Part.t ++ l2.map Part.t) := by rw [← List.map_append]; exact hp.map _
    have hyt : y.t.name = y.a.name := hname y (by rw [hs]; simp)
    have hn1 : ∀ x ∈ l1.map Part.t, x.name ≠ y.t.name := by
      intro a ha; obtain ⟨x, hx, rfl⟩ := List.mem_map.mp ha
      rw [hname x (by rw [hs]; simp [hx]), hyt]; exact hmid.1 x hx
    have hn2 : ∀ x ∈ l2.map Part.t, x.name ≠ y.t.name := by
      intro a ha; obtain ⟨x, hx, rfl⟩ := List.mem_map.mp ha
      rw [hname x (by rw [hs]; simp [hx]), hyt]; exact hmid.2 x hx
    have htt : Tidy P (dirPart m ds' gs').t := by
      rw [ht1]; rw [ht0] at ht; exact tidy_remove ht hp'
    refine ⟨htt, ?_, ?_⟩
    · intro x hx
      rcases List.mem_append.mp (hp.mem_iff.mp hx) with hx | hx
      · exact hmid.1 x hx
      · exact hmid.2 x hx
    · have hnd : ((l1.map Part.t ++ l2.map Part.t).map Asset.name).Nodup := ((hp'.map Asset.name).nodup_iff).mp (by rw [ht1] at htt; exact htt.nodup)
      rw [ht1, ht0, look_perm hp' hnd, look_remove hn1 hn2, hyt]
  unfold deleteFromDir
  rw [if_neg (by simp [dirPart, hd])]
  by_cases hex : ∃ y ∈ allParts ds gs, y.a.name = name
  · obtain ⟨y, hy, hyn⟩ := hex
    subst hyn
    have hy' := hy
    unfold allParts at hy'
    rcases List.mem_append.mp hy' with hy1 | hy1
    · obtain ⟨d1, d2, rfl⟩ := List.append_of_mem hy1
      have hsplit : allParts (d1 ++ y :: d2) gs = d1 ++ y :: (d2 ++ gs.flatMap Prod.snd) := by simp [allParts]
      have hD' := hD
      rw [hsplit] at hD'
      obtain ⟨c', k1, k2⟩ := deleteFromList_parts (c2 := d2) hD'.mid.1
      refine ⟨c', gs, w, ?_, edit_dropped h ?_, key hsplit rfl ?_⟩
      · show (match deleteFromList y.a.name ((d1 ++ y :: d2).map Part.a) with | some cs => _ | none => _) = _
        rw [k1]; rfl
      · intro x hx
        have := k2.mem_iff.mp hx
        simp only [List.mem_append, List.mem_cons] at this ⊢
        exact this.elim .inl fun h => .inr (.inr h)
      · unfold allParts
        rw [← List.append_assoc]
        exact k2.append_right _
    · obtain ⟨⟨id, c⟩, hg, hyc⟩ := List.mem_flatMap.mp hy1
      obtain ⟨g1, g2, rfl⟩ := List.append_of_mem hg
      obtain ⟨c1, c2, rfl⟩ := List.append_of_mem hyc
      have hsplit : allParts ds (g1 ++ (id, c1 ++ y :: c2) :: g2) =
          (ds ++ g1.flatMap Prod.snd ++ c1) ++ y :: (c2 ++ g2.flatMap Prod.snd) := by simp [allParts, List.flatMap_append]
      have hD' := hD
      rw [hsplit] at hD'
      have hmid := hD'.mid
      have hn0 : ∀ x ∈ ds, x.a.name ≠ y.a.name := fun x hx => hmid.1 x (by simp [hx])
      have hng : ∀ g ∈ g1, ∀ x ∈ g.2, x.a.name ≠ y.a.name := fun g hg x hx =>
        hmid.1 x (List.mem_append_left _ (List.mem_append_right _ (List.mem_flatMap.mpr ⟨g, hg, hx⟩)))
      obtain ⟨w0, h1, h2⟩ := deleteFromIndirect_skip (cfg := cfg) (rest := id :: g2.map Prod.fst)
        (fun g hg => h.lists g (List.mem_append_left _ hg)) hng
      obtain ⟨w1, h3, h4, h5⟩ := getList_loads (cfg := cfg) (w := w0) (id := id) (l := (c1 ++ y :: c2).map Part.a)
        (by rw [h2.view]; exact h.lists (id, c1 ++ y :: c2) (by simp))
      obtain ⟨c', k1, k2⟩ := deleteFromList_parts (c1 := c1) (c2 := c2) (y := y) (fun x hx => hmid.1 x (List.mem_append_right _ hx))
      have hloads : Loads cfg.hash ((g1 ++ (id, c1 ++ y :: c2) :: g2).map Prod.fst) w w1 := by
        refine (h2.mono fun i hi => ?_).trans (h4.mono fun i hi => ?_)
        · rw [List.map_append]; exact List.mem_append_left _ hi
        · rw [List.mem_singleton.mp hi]; simp
      have hc' : ∀ x ∈ c', x ∈ c1 ++ y :: c2 := by
        intro x hx
        have := k2.mem_iff.mp hx
        simp only [List.mem_append, List.mem_cons] at this ⊢
        exact this.elim .inl fun h => .inr (.inr h)
      refine ⟨ds, g1 ++ (id, c') :: g2, { w1 with lists := w1.lists.set id (c'.map Part.a) }, ?_,
        (hloads.edit h hF).trans (edit_removed (h.loads hF hloads) hF hc'), key hsplit rfl ?_⟩
      · show (match deleteFromList y.a.name (ds.map Part.a) with | some cs => _ | none => _) = _
        rw [deleteFromList_parts_none hn0]
        dsimp only
        show (match deleteFromIndirect cfg y.a.name ((g1 ++ (id, c1 ++ y :: c2) :: g2).map Prod.fst) w with | .error e => _ | .ok w => _) = _
        rw [List.map_append, List.map_cons, h1, deleteFromIndirect, h3]
        dsimp only
        rw [k1]
        simp [dirPart]
      · have : allParts ds (g1 ++ (id, c') :: g2) = (ds ++ g1.flatMap Prod.snd) ++ (c' ++ g2.flatMap Prod.snd) := by
          simp [allParts, List.flatMap_append]
        rw [this, List.append_assoc (ds ++ g1.flatMap Prod.snd) c1, ← List.append_assoc c1]
        exact (k2.append_right _).append_left _
  · have hn : ∀ x ∈ allParts ds gs, x.a.name ≠ name := fun x hx e => hex ⟨x, hx, e⟩
    obtain ⟨w', h1, h2⟩ := deleteFromIndirect_skip (cfg := cfg) (name := name) (rest := []) h.lists
      fun g hg x hx => hn x (mem_allParts.mpr (.inr ⟨g, hg, hx⟩))
    refine ⟨ds, gs, w', ?_, h2.edit h hF, ht, hn, ?_⟩
    · show (match deleteFromList name (ds.map Part.a) with | some cs => _ | none => _) = _
      rw [deleteFromList_parts_none fun x hx => hn x (mem_allParts.mpr (.inl hx))]
      dsimp only
      show (match deleteFromIndirect cfg name (gs.map Prod.fst) w with | .error e => _ | .ok w => _) = _
      rw [List.append_nil] at h1
      rw [h1, deleteFromIndirect]
    · refine (graft_none ?_).symm
      intro a ha
      obtain ⟨x, hx, rfl⟩ := List.mem_map.mp ha
      rw [hname x hx]; exact hn x hx

/-! ### What changes do to the tree -/

theorem part_name {hash nm w m ds gs} (h : DirOk hash nm w m ds gs) {x : Part} (hx : x ∈ allParts ds gs) : x.t.name = x.a.name := (h.all x hx).name

theorem look_part {P : Meta → Prop} {hash nm w m ds gs} (h : DirOk hash nm w m ds gs) (ht : Tidy P (dirPart m ds gs).t) {y : Part}
    (hy : y ∈ allParts ds gs) (q : List Name) : look (dirPart m ds gs).t (y.a.name :: q) = look y.t q := by
  rw [look_cons, (find_iff ht.nodup y.a.name y.t).mpr ⟨List.mem_map.mpr ⟨y, hy, rfl⟩, part_name h hy⟩]; rfl

theorem tidy_part {P : Meta → Prop} {m ds gs} (ht : Tidy P (dirPart m ds gs).t) {y : Part} (hy : y ∈ allParts ds gs) : Tidy P y.t :=
  ht.children y.t (List.mem_map.mpr ⟨y, hy, rfl⟩)

theorem look_absent {hash nm w m ds gs} (h : DirOk hash nm w m ds gs) {n : Name} (hn : ∀ x ∈ allParts ds gs, x.a.name ≠ n) (q : List Name) :
    look (dirPart m ds gs).t (n :: q) = none := by
  rw [look_cons, find_none]; rfl
  intro a ha
  obtain ⟨x, hx, rfl⟩ := List.mem_map.mp ha
  rw [part_name h hx]; exact hn x hx

theorem replaced {P : Meta → Prop} {hash nm w m ds gs ds' gs' l1 l2} {y y' : Part} (h : DirOk hash nm w m ds gs) (ht : Tidy P (dirPart m ds gs).t)
    (hs : allParts ds gs = l1 ++ y :: l2) (hs' : allParts ds' gs' = l1 ++ y' :: l2) (hy' : Tidy P y'.t) (hn : y'.t.name = y.a.name) :
    Tidy P (dirPart m ds' gs').t ∧ look (dirPart m ds' gs').t = graft y.a.name (look y'.t) (look (dirPart m ds gs).t) := by
  have hD := distinct_of_tidy h ht
  rw [hs] at hD
  have ht0 : (dirPart m ds gs).t = .mk m (l1.map Part.t ++ y.t :: l2.map Part.t) [] := by
    show Asset.mk m ((allParts ds gs).map Part.t) [] = _
    rw [hs]; simp
  have ht1 : (dirPart m ds' gs').t = .mk m (l1.map Part.t ++ y'.t :: l2.map Part.t) [] := by
    show Asset.mk m ((allParts ds' gs').map Part.t) [] = _
    rw [hs']; simp
  have hyt : y.t.name = y.a.name := part_name h (by rw [hs]; simp)
  rw [ht0] at ht
  rw [ht1, ht0]
  refine ⟨tidy_replace ht hy' (hn.trans hyt.symm), ?_⟩
  rw [look_replace (a := y.t) (b := y'.t) ?_ (hn.trans hyt.symm), hyt]
  intro a ha
  obtain ⟨x, hx, rfl⟩ := List.mem_map.mp ha
  rw [part_name h (by rw [hs]; simp [hx]), hyt]
  exact hD.mid.1 x hx

theorem added {P : Meta → Prop} {hash nm w m ds gs} {y : Part} (h : DirOk hash nm w m ds gs) (hd : m.kind = .directory) (ht : Tidy P (dirPart m ds gs).t)
    (hn : ∀ x ∈ allParts ds gs, x.a.name ≠ y.t.name) (hy : Tidy P y.t) :
    Tidy P (dirPart m (ds ++ [y]) gs).t ∧ look (dirPart m (ds ++ [y]) gs).t = graft y.t.name (look y.t) (look (dirPart m ds gs).t) := by
  have hn' : ∀ a ∈ (dirPart m ds gs).t.children, a.name ≠ y.t.name := by
    intro a ha
    obtain ⟨x, hx, rfl⟩ := List.mem_map.mp ha
    rw [part_name h hx]; exact hn x hx
  have hta := tidy_append ht hd hy hn'
  have hp : ((allParts (ds ++ [y]) gs).map Part.t).Perm ((allParts ds gs).map Part.t ++ [y.t]) := by
    have : (allParts (ds ++ [y]) gs).Perm (allParts ds gs ++ [y]) := by
      unfold allParts
      rw [List.append_assoc, List.append_assoc]
      exact List.perm_append_comm.append_left _
    have := this.map Part.t
    rwa [List.map_append] at this
  have ht1 : (dirPart m (ds ++ [y]) gs).t = .mk m ((allParts (ds ++ [y]) gs).map Part.t) [] := rfl
  constructor
  · rw [ht1]
    refine .of rfl hta.fields ?_ (((hp.map Asset.name).nodup_iff).mpr hta.nodup) (fun hk => absurd hd hk)
    intro c hc
    exact hta.children c (hp.mem_iff.mp hc)
  · rw [ht1, look_perm hp hta.nodup]
    exact look_append hn'

/-- A new asset. -/
def newPart (cfg : Cfg) (name : Name) (kind : Kind) : Part := dirPart (newMeta cfg name kind) [] []

theorem newPart_a (cfg : Cfg) (name : Name) (kind : Kind) : (newPart cfg name kind).a = newAsset cfg name kind := rfl
theorem newPart_t (cfg : Cfg) (name : Name) (kind : Kind) : (newPart cfg name kind).t = newAsset cfg name kind := rfl
theorem newPart_u (cfg : Cfg) (name : Name) (kind : Kind) : (newPart cfg name kind).u = [] := rfl

theorem dirOk_new {hash nm w m} : DirOk hash nm w m [] [] :=
  ⟨by simp, by simp, by simp, by simp, .nil, fun _ => ⟨rfl, rfl⟩, by simp⟩

theorem exp_new {hash nm w} (cfg : Cfg) (name : Name) (kind : Kind) : Exp hash nm w (newPart cfg name kind) := dirOk_new.exp

/-- Replacing an asset by a new one. -/
theorem edit_new {hash nm w} (y : Part) (cfg : Cfg) (name : Name) (kind : Kind) : Edit hash nm y w (newPart cfg name kind) w :=
  ⟨exp_new cfg name kind, fun _ _ => rfl, by simp [newPart_u], rfl⟩

/-- Changing the fields of an asset. -/
theorem edit_info {hash nm w y} (h : Exp hash nm w y) {g : Meta → Meta} (hk : ∀ m, (g m).kind = m.kind) :
    ∃ y', y'.a = onInfo g y.a ∧ y'.t = onInfo g y.t ∧ Edit hash nm y w y' w := by
  obtain ⟨m, ds, gs, rfl, hd⟩ := h.cases'
  refine ⟨dirPart (g m) ds gs, rfl, rfl, DirOk.exp { hd with leaf := fun h => hd.leaf (by rwa [hk] at h) }, fun _ _ => rfl, fun e he => ?_, rfl⟩
  exact he

/-! ### The operations -/

/-- `GetOrCreateAsset` in a directory, manifest_builder.cc:111-144. -/
theorem inAsset_part {P : Meta → Prop} {cfg : Cfg} (hP : ∀ n k, P (newMeta cfg n k)) {kind : Kind} {force : Bool} {name : Name}
    {g : Meta → Meta} (hg : FieldChange P g) {nm w} {x : Part} (h : Exp cfg.hash nm w x) (hF : Func x.u) (ht : Tidy P x.t)
    (hd : x.t.info.kind = .directory) :
    (∃ x' w', inAsset cfg kind force name (onInfo g) x.a w = .ok (x'.a, w', some ()) ∧ Edit cfg.hash nm x w x' w' ∧ Tidy P x'.t ∧
      x'.t.info = x.t.info ∧ look x'.t = (look x.t).put (newMeta cfg) [name] kind g) ∨
    (force = false ∧ inAsset cfg kind force name (onInfo g) x.a w = .error .exists_ ∧ ¬ (look x.t).isKind [name] kind) := by
  obtain ⟨m, ds, gs, rfl, hok⟩ := h.cases'
  have hdm : m.kind = .directory := hd
  have hroot : (look (dirPart m ds gs).t).isDir [] := ⟨_, look_nil _, hd⟩
  obtain ⟨yn, hyn1, hyn2, hyn3⟩ := edit_info (exp_new (hash := cfg.hash) (nm := nm) (w := w) cfg name kind) hg.kind
  have hD := distinct_of_tidy hok ht
  have hynu : yn.u = [] := List.eq_nil_iff_forall_not_mem.mpr fun e he => by have := hyn3.sub e he; rw [newPart_u] at this; cases this
  have hynT : Tidy P yn.t := by rw [hyn2]; exact tidy_onInfo hg (tidy_new (hP _ _))
  have hynN : yn.t.name = name := by rw [hyn2]; exact hg.name _
  have hynL : look yn.t = Tree.root (g (newMeta cfg name kind)) := by
    rw [hyn2, look_onInfo, newPart_t, look_new]; funext p; by_cases hp : p = []
    · rw [if_pos hp, Tree.root, if_pos hp]; rfl
    · rw [if_neg hp, Tree.root, if_neg hp, Tree.root, if_neg hp]
  unfold inAsset
  rw [if_neg (by simp [dirPart, hdm])]
  dsimp only
  by_cases hex : ∃ y ∈ allParts ds gs, y.a.name = name
  · obtain ⟨y, hy, rfl⟩ := hex
    have hsub := look_part hok ht hy
    have hinfo : y.t.info = y.a.info := (hok.all y hy).info
    have hfind : look (dirPart m ds gs).t [y.a.name] = some y.a.info := by rw [hsub, look_nil, hinfo]
    obtain ⟨w1, hl, -, hgo⟩ := inDir_found (cfg := cfg) (f := fun a s => if a.info.kind = kind then .ok (onInfo g a, s.1, some ()) else .ok (a, s.1, none))
      hok hF hD hy
    have hy1 : Exp cfg.hash nm w1 y := (hok.loads hF hl).all y hy
    by_cases hk : y.a.info.kind = kind
    · obtain ⟨y', e1, e2, e3⟩ := edit_info hy1 hg.kind
      have hyn' : y'.a.name = y.a.name := by rw [e1]; exact hg.name _
      obtain ⟨ds', gs', w3, l1, l2, k1, k2, k3, k4, -⟩ := hgo y' w1 (some ()) (by rw [if_pos hk, e1]) e3 hyn'
      rw [k1]
      dsimp only
      left
      have hr := replaced hok ht k3 k4 (y' := y') (by rw [e2]; exact tidy_onInfo hg (tidy_part ht hy))
        (by rw [e2]; exact (hg.name _).trans (part_name hok hy))
      refine ⟨_, w3, rfl, k2.edit, hr.1, rfl, ?_⟩
      rw [hr.2, put_one _ _ _ _ _ hroot, if_pos ⟨_, hfind, hk⟩, e2, look_onInfo]
      congr 1
      funext q
      rw [hfind, hsub, hinfo]; rfl
    · obtain ⟨ds', gs', w3, l1, l2, k1, k2, k3, k4, -⟩ := hgo y w1 none (by rw [if_neg hk]) (.refl hy1) rfl
      rw [k1]
      dsimp only
      cases force with
      | false => right; exact ⟨rfl, rfl, by rintro ⟨m, hm, hk'⟩; rw [hfind] at hm; cases hm; exact hk hk'⟩
      | true =>
        left
        rw [if_pos rfl]
        have hall : allParts ds' gs' = allParts ds gs := by rw [k3, k4]
        have ht' : Tidy P (dirPart m ds' gs').t := by
          show Tidy P (.mk m ((allParts ds' gs').map Part.t) []); rw [hall]; exact ht
        have htt : (dirPart m ds' gs').t = (dirPart m ds gs).t := by
          show Asset.mk m ((allParts ds' gs').map Part.t) [] = .mk m ((allParts ds gs).map Part.t) []; rw [hall]
        have hok' : DirOk cfg.hash nm w3 m ds' gs' := k2.ok
        obtain ⟨ds2, gs2, w4, j1, j2, j3, j4, j5⟩ := deleteFromDir_part (name := y.a.name) hok' (hF.mono k2.sub) ht' hdm
        rw [j1]
        dsimp only
        have hok2 : DirOk cfg.hash nm w4 m ds2 gs2 := j2.ok
        obtain ⟨ha1, ha2⟩ := added hok2 hdm j3 (y := yn) (by rw [hynN]; exact j4) hynT
        have hyn4 : Exp cfg.hash nm w4 yn := exp_frame hyn3.exp fun e he => by rw [hynu] at he; cases he
        refine ⟨dirPart m (ds2 ++ [yn]) gs2, w4, ?_, ((k2.trans j2).trans (edit_added hok2 hdm hyn4 hynu)).edit, ha1, rfl, ?_⟩
        · simp only [dirPart, List.map_append, List.map_cons, List.map_nil, hyn1]; rfl
        · rw [ha2, hynN, hynL, j5, htt, put_one _ _ _ _ _ hroot,
            if_neg (by rintro ⟨m, hm, hk'⟩; rw [hfind] at hm; cases hm; exact hk hk')]
          funext p
          cases p with
          | nil => rfl
          | cons k q => simp only [graft]; split <;> rfl
  · have hn : ∀ x ∈ allParts ds gs, x.a.name ≠ name := fun x hx e => hex ⟨x, hx, e⟩
    obtain ⟨w', h1, h2⟩ := inDir_absent (cfg := cfg) (f := fun a s => if a.info.kind = kind then .ok (onInfo g a, s.1, some ()) else .ok (a, s.1, none)) hok hn
    rw [h1]
    dsimp only
    left
    have hok' := hok.loads hF h2
    obtain ⟨ha1, ha2⟩ := added hok' hdm ht (y := yn) (by rw [hynN]; exact hn) hynT
    have hyn4 : Exp cfg.hash nm w' yn := exp_frame hyn3.exp fun e he => by rw [hynu] at he; cases he
    refine ⟨dirPart m (ds ++ [yn]) gs, w', ?_, ((h2.edit hok hF).trans (edit_added hok' hdm hyn4 hynu)).edit, ha1, rfl, ?_⟩
    · simp only [dirPart, List.map_append, List.map_cons, List.map_nil, hyn1]; rfl
    · rw [ha2, put_one _ _ _ _ _ hroot, hynN, hynL, if_neg]
      rintro ⟨m', hm, _⟩
      rw [look_absent hok hn] at hm; cases hm

/-- The step of `FindOrCreateDirPathRec` into an entry: what is not a directory is replaced by a new one. -/
def intoDir (cfg : Cfg) (a : Asset) : Asset := if a.info.kind ≠ .directory then newAsset cfg a.name .directory else a

theorem edit_intoDir {P : Meta → Prop} {cfg : Cfg} (hP : ∀ n k, P (newMeta cfg n k)) {nm w y} (h : Exp cfg.hash nm w y) (ht : Tidy P y.t) :
    ∃ z : Part, z.a = intoDir cfg y.a ∧ Edit cfg.hash nm y w z w ∧ Tidy P z.t ∧ z.t.info.kind = .directory ∧ z.t.name = y.a.name ∧
      look z.t = (if y.a.info.kind = .directory then look y.t else Tree.root (newMeta cfg y.a.name .directory)) := by
  unfold intoDir
  by_cases hk : y.a.info.kind = .directory
  · rw [if_neg (by simp [hk]), if_pos hk]
    exact ⟨y, rfl, .refl h, ht, by rw [h.info]; exact hk, h.name, rfl⟩
  · rw [if_pos hk, if_neg hk]
    exact ⟨newPart cfg y.a.name .directory, rfl, edit_new y cfg _ _, tidy_new (hP _ _), rfl, rfl, look_new _ _ _⟩

/-- Only lists of directories on the way to `path` changed. -/
def PFrame (x : Part) (path : List Name) (w w' : Work) : Prop := ∀ e ∈ x.u, ¬ e.1 <+: path → w'.lists.find e.2 = w.lists.find e.2

/-- One step along a path in `FindOrCreateDirPathRec`, for any function `f` applied at its end: `Q` relates the tree found there before and after. -/
theorem inDirPath_step {P : Meta → Prop} {α : Type} {cfg : Cfg} (hP : ∀ n k, P (newMeta cfg n k)) {mode : CreateMode}
    {f : Asset → Work → Except Err (Asset × Work × Option α)} {n : Name} {path : List Name} {nm w} {x : Part}
    (h : Exp cfg.hash nm w x) (hF : Func x.u) (ht : Tidy P x.t) (hd : x.t.info.kind = .directory)
    {pre : Tree → Prop} {ok : Tree → Option α → Tree → Prop} {bad : Tree → Err → Prop}
    (hpre : pre (if (look x.t).isDir [n] then (fun q => look x.t (n :: q)) else Tree.root (newMeta cfg n .directory)))
    (ih : ∀ {z : Part} {w1 : Work}, Exp cfg.hash nm w1 z → Func z.u → Tidy P z.t → z.t.info.kind = .directory → pre (look z.t) →
      (∃ z' w2 r, inDirPath cfg mode f path z.a w1 = .ok (z'.a, w2, r) ∧ Edit cfg.hash nm z w1 z' w2 ∧ Tidy P z'.t ∧ z'.t.info.name = z.t.info.name ∧
        ok (look z.t) r (look z'.t) ∧ PFrame z path w1 w2) ∨
      (∃ e, inDirPath cfg mode f path z.a w1 = .error e ∧ bad (look z.t) e)) :
    (∃ x' w' r T, inDirPath cfg mode f (n :: path) x.a w = .ok (x'.a, w', r) ∧ Edit cfg.hash nm x w x' w' ∧ Tidy P x'.t ∧ x'.t.info = x.t.info ∧
      ok (if (look x.t).isDir [n] then (fun q => look x.t (n :: q)) else Tree.root (newMeta cfg n .directory)) r T ∧
      look x'.t = graft n T (look x.t) ∧ ((look x.t).isDir [n] ∨ mode ≠ .noCreate ∧ ((∃ m, look x.t [n] = some m) → mode = .forceCreate)) ∧
      PFrame x (n :: path) w w') ∨
    (∃ e, inDirPath cfg mode f (n :: path) x.a w = .error e ∧
      ((look x.t [n] = none ∧ mode = .noCreate ∧ e = .notFound) ∨
       ((∃ m, look x.t [n] = some m ∧ m.kind ≠ .directory) ∧ mode ≠ .forceCreate ∧ e = .invalid) ∨
       bad (if (look x.t).isDir [n] then (fun q => look x.t (n :: q)) else Tree.root (newMeta cfg n .directory)) e)) := by
  obtain ⟨m, ds, gs, rfl, hok⟩ := h.cases'
  have hdm : m.kind = .directory := hd
  have hD := distinct_of_tidy hok ht
  unfold inDirPath
  dsimp only
  by_cases hex : ∃ y ∈ allParts ds gs, y.a.name = n
  · obtain ⟨y, hy, rfl⟩ := hex
    have hsub := look_part hok ht hy
    have hinfo : y.t.info = y.a.info := (hok.all y hy).info
    have hfind : look (dirPart m ds gs).t [y.a.name] = some y.a.info := by rw [hsub, look_nil, hinfo]
    have hisd : (look (dirPart m ds gs).t).isDir [y.a.name] ↔ y.a.info.kind = .directory := by
      constructor
      · rintro ⟨m', hm', hk'⟩; rw [hfind] at hm'; cases hm'; exact hk'
      · intro hk; exact ⟨_, hfind, hk⟩
    obtain ⟨w1, hl, herr, hgo⟩ := inDir_found (cfg := cfg) (f := fun (a : Asset) (s : Work × Option α) =>
      if a.info.kind ≠ .directory ∧ mode ≠ .forceCreate then .error .invalid
      else inDirPath cfg mode f path (intoDir cfg a) s.1) hok hF hD hy
    have hy1 : Exp cfg.hash nm w1 y := (hok.loads hF hl).all y hy
    have hunf : (fun (a : Asset) (s : Work × Option α) => if a.info.kind ≠ .directory ∧ mode ≠ .forceCreate then Except.error Err.invalid
      else inDirPath cfg mode f path (if a.info.kind ≠ .directory then newAsset cfg a.name .directory else a) s.1) =
      fun (a : Asset) (s : Work × Option α) => if a.info.kind ≠ .directory ∧ mode ≠ .forceCreate then Except.error Err.invalid
      else inDirPath cfg mode f path (intoDir cfg a) s.1 := rfl
    rw [hunf]
    by_cases hbad : y.a.info.kind ≠ .directory ∧ mode ≠ .forceCreate
    · right
      rw [herr .invalid (by rw [if_pos hbad])]
      exact ⟨_, rfl, .inr (.inl ⟨⟨_, hfind, hbad.1⟩, hbad.2, rfl⟩)⟩
    · obtain ⟨z, z1, z2, z3, z4, z5, z6⟩ := edit_intoDir hP hy1 (tidy_part ht hy)
      have hz6 : look z.t = (if (look (dirPart m ds gs).t).isDir [y.a.name] then (fun q => look (dirPart m ds gs).t (y.a.name :: q))
          else Tree.root (newMeta cfg y.a.name .directory)) := by
        rw [z6]
        by_cases hk : y.a.info.kind = .directory
        · rw [if_pos hk, if_pos (hisd.mpr hk)]; funext q; exact (hsub q).symm
        · rw [if_neg hk, if_neg (fun h => hk (hisd.mp h))]
      rcases ih z2.exp ((hF.part hy).mono z2.sub) z3 z4 (by rw [hz6]; exact hpre) with ⟨z', w2, r, k1, k2, k3, k4, k5, k6⟩ | ⟨e, k1, k2⟩
      · left
        have hz'n : z'.t.name = y.a.name := k4.trans z5
        obtain ⟨ds', gs', w3, l1, l2, j1, j2, j3, j4, j5⟩ := hgo z' w2 r (by rw [if_neg hbad, ← z1]; exact k1) (z2.trans k2)
          (k2.exp.name.symm.trans hz'n)
        rw [j1]
        dsimp only
        obtain ⟨r1, r2⟩ := replaced hok ht j3 j4 k3 hz'n
        refine ⟨_, w3, r, look z'.t, rfl, j2.edit, r1, rfl, by rw [← hz6]; exact k5, r2, ?_, ?_⟩
        · by_cases hk : y.a.info.kind = .directory
          · exact .inl (hisd.mpr hk)
          · have hm : mode = .forceCreate := Decidable.byContradiction fun hm => hbad ⟨hk, hm⟩
            exact .inr ⟨by rw [hm]; simp, fun _ => hm⟩
        · intro e he hne
          rcases mem_dirPart_u.mp he with ⟨g, -⟩ | ⟨x0, hx0, q0, hq0, he0⟩
          · exact absurd (by rw [g]; exact List.nil_prefix) hne
          obtain ⟨p0, i0⟩ := e
          dsimp only at hq0 he0 hne ⊢
          subst hq0
          generalize hee : ((q0, i0) : List Name × Id) = e0 at he0
          have e1 : q0 = e0.1 := by rw [← hee]
          have e2 : i0 = e0.2 := by rw [← hee]
          subst e1 e2
          have hown : e0.2 ∉ gs.map Prod.fst := fun hm => by
            obtain ⟨g, hg, hge⟩ := List.mem_map.mp hm
            exact hF.own hx0 hg e0 he0 hge.symm
          have hw1 : w1.lists.find e0.2 = w.lists.find e0.2 := by
            rcases hl.find e0.2 with h1 | ⟨h1, -⟩
            · exact h1
            · exact absurd h1 hown
          rw [j5 _ hown, ← hw1]
          by_cases hxn : x0.a.name = y.a.name
          · have hfz : ∀ e' ∈ z.u, e'.2 = e0.2 → e'.1 = e0.1 := by
              intro e' he' hid
              have := hF _ (mem_u_sub hy (z2.sub e' he')) _ he hid
              exact (List.cons.inj this).2
            by_cases hin : ∃ e' ∈ z.u, e'.2 = e0.2
            · obtain ⟨e', he', hid⟩ := hin
              have hp := hfz e' he' hid
              rw [← hid]
              refine k6 e' he' ?_
              rw [hp]
              intro hpp
              exact hne (by rw [hxn]; exact List.prefix_cons_inj _ |>.mpr hpp)
            · exact k2.frame _ fun e' he' hid => hin ⟨e', he', hid⟩
          · exact (z2.trans k2).frame _ fun e' he' hid => hF.apart hx0 hy hxn e0 he0 e' he' hid.symm
      · right
        rw [herr e (by rw [if_neg hbad, ← z1]; exact k1)]
        exact ⟨e, rfl, .inr (.inr (by rw [← hz6]; exact k2))⟩
  · have hn : ∀ x ∈ allParts ds gs, x.a.name ≠ n := fun x hx e => hex ⟨x, hx, e⟩
    have hnone : ∀ q, look (dirPart m ds gs).t (n :: q) = none := look_absent hok hn
    have hnd : ¬ (look (dirPart m ds gs).t).isDir [n] := by rintro ⟨m', hm', _⟩; rw [hnone] at hm'; cases hm'
    obtain ⟨w1, h1, h2⟩ := inDir_absent (cfg := cfg) (f := fun (a : Asset) (s : Work × Option α) =>
      if a.info.kind ≠ .directory ∧ mode ≠ .forceCreate then .error .invalid
      else inDirPath cfg mode f path (if a.info.kind ≠ .directory then newAsset cfg a.name .directory else a) s.1) hok hn
    rw [h1]
    dsimp only
    by_cases hm : mode = .noCreate
    · rw [if_pos hm]
      exact .inr ⟨_, rfl, .inl ⟨hnone [], hm, rfl⟩⟩
    · rw [if_neg hm]
      have hok1 := hok.loads hF h2
      rcases ih (z := newPart cfg n .directory) (w1 := w1) (exp_new _ _ _) (by intro e he; cases he) (tidy_new (hP _ _)) rfl
        (by rw [if_neg hnd] at hpre; rw [newPart_t, look_new]; exact hpre) with
        ⟨z', w2, r, k1, k2, k3, k4, k5, -⟩ | ⟨e, k1, k2⟩
      · rw [newPart_a] at k1
        rw [k1]
        dsimp only
        left
        have hzu : z'.u = [] := List.eq_nil_iff_forall_not_mem.mpr fun e he => by have := k2.sub e he; rw [newPart_u] at this; cases this
        have hzn : z'.t.name = n := k4
        have hfr : ∀ id, w2.lists.find id = w1.lists.find id := fun id => k2.frame id (by simp [newPart_u])
        have hl2 : DEdit cfg.hash nm m ds gs w1 ds gs w2 := by
          refine ⟨?_, fun id _ => hfr id, fun _ h => h, k2.store⟩
          have hv : ∀ id, view cfg.hash w2 id = view cfg.hash w1 id := fun id => by unfold view; rw [hfr, k2.store]
          have hx : ∀ x ∈ allParts ds gs, Exp cfg.hash nm w2 x := fun x hx => exp_frame (hok1.all x hx) fun e _ => ⟨hfr _, hv _, rfl⟩
          exact { hok1 with direct := fun x hx' => hx x (mem_allParts.mpr (.inl hx')), lists := fun g hg => by rw [hv]; exact hok1.lists g hg,
                            inLists := fun g hg x hx' => hx x (mem_allParts.mpr (.inr ⟨g, hg, hx'⟩)),
                            unloaded := fun g hg hnn x hx' e he => by
                              rw [hfr]; exact hok1.unloaded g hg (by rw [← hfr]; exact hnn) x hx' e he }
        obtain ⟨a1, a2⟩ := added hl2.ok hdm ht (y := z') (by rw [hzn]; exact hn) k3
        refine ⟨dirPart m (ds ++ [z']) gs, w2, r, look z'.t, ?_, (((h2.edit hok hF).trans hl2).trans (edit_added hl2.ok hdm k2.exp hzu)).edit, a1, rfl,
          by rw [if_neg hnd]; rw [newPart_t, look_new] at k5; exact k5, by rw [a2, hzn], .inr ⟨hm, ?_⟩, ?_⟩
        · simp [dirPart]
        · rintro ⟨m', hm'⟩; rw [hnone] at hm'; cases hm'
        · intro e he hne
          rw [hfr]
          rcases h2.find e.2 with h1 | ⟨h1, -⟩
          · exact h1
          · obtain ⟨g, hg, hge⟩ := List.mem_map.mp h1
            have := hF _ he _ (mem_u_own hg) hge.symm
            exact absurd (by rw [this]; exact List.nil_prefix) hne
      · rw [newPart_a] at k1
        rw [k1]
        exact .inr ⟨e, rfl, .inr (.inr (by rw [if_neg hnd]; rw [newPart_t, look_new] at k2; exact k2))⟩

/-- A function that does not change the state. -/
theorem inList_state {α : Type} {name : Name} {f : Asset → Work × Option α → Except Err (Asset × Work × Option α)}
    (hf : ∀ a s r, f a s = .ok r → r.2.1 = s.1) {l l' : List Asset} {s : Work × Option α} {w' : Work} {r : Option α}
    (h : inList name f l s = some (.ok (l', w', r))) : w' = s.1 := by
  induction l generalizing l' with
  | nil => cases h
  | cons a l ih =>
    rw [inList] at h
    split at h
    · have h := Option.some.inj h
      split at h
      · cases h
      · rename_i b s' hb
        cases h
        exact hf _ _ _ hb
    · cases hi : inList name f l s with
      | none => rw [hi] at h; cases h
      | some v =>
        rw [hi] at h
        have h := Option.some.inj h
        cases v with
        | error => cases h
        | ok v =>
          obtain ⟨bs, s'⟩ := v
          have h := Except.ok.inj h
          cases h
          exact ih hi

theorem weaken {P : Meta → Prop} {α : Type} {p : Part → Work → Option α → Prop} {q1 q2 : Part → Work → Option α → Prop} {x : Part} {r : Prop}
    (h : (∃ x' w' o, p x' w' o ∧ q1 x' w' o ∧ Tidy P x'.t ∧ x'.t.info = x.t.info ∧ q2 x' w' o) ∨ r) :
    (∃ x' w' o, p x' w' o ∧ q1 x' w' o ∧ Tidy P x'.t ∧ x'.t.info.name = x.t.info.name ∧ q2 x' w' o) ∨ r :=
  h.imp_left fun ⟨x', w', o, a, b, c, d, e⟩ => ⟨x', w', o, a, b, c, congrArg Meta.name d, e⟩

theorem pframe_nil {x : Part} (hF : Func x.u) {nm hash w} (h : Exp hash nm w x) {w' : Work}
    (hr : ∀ id, id ∉ x.a.indirect → w'.lists.find id = w.lists.find id) : PFrame x [] w w' := by
  intro e he hne
  refine hr _ fun hm => hne ?_
  obtain ⟨m, ds, gs, rfl, -⟩ := h.cases'
  obtain ⟨g, hg, hge⟩ := List.mem_map.mp (show e.2 ∈ gs.map Prod.fst from hm)
  rw [hF _ he _ (mem_u_own hg) hge.symm]
  exact List.nil_prefix

theorem getList_raw {cfg : Cfg} {w w' : Work} {id : Id} {l : List Asset} (h : getList cfg w id = some (l, w')) {i : Id} (hi : i ≠ id) :
    w'.lists.find i = w.lists.find i := by
  unfold getList at h
  split at h
  · cases h; rfl
  · split at h
    · cases h
    · cases h; show (w.lists.set id l).find i = _; rw [find_setL, if_neg hi]

theorem inIndirect_raw {α : Type} {cfg : Cfg} {name : Name} {f : Asset → Work × Option α → Except Err (Asset × Work × Option α)}
    (hf : ∀ a s r, f a s = .ok r → r.2.1 = s.1) {ids : List Id} {w w' : Work} {r : Option α} {b : Bool}
    (h : inIndirect cfg name f ids w = .ok (r, w', b)) {i : Id} (hi : i ∉ ids) : w'.lists.find i = w.lists.find i := by
  induction ids generalizing w with
  | nil => cases h; rfl
  | cons id ids ih =>
    rw [inIndirect] at h
    split at h
    · cases h
    rename_i l w1 hg
    have h1 := getList_raw hg (i := i) (fun e => hi (by simp [e]))
    split at h
    · cases h
    · rename_i l' w2 a hl
      cases h
      show (w2.lists.set id l').find i = _
      rw [find_setL, if_neg (fun e => hi (by simp [e])), ← h1]
      have : w2 = w1 := inList_state hf hl
      rw [this]
    · rw [ih h (fun hm => hi (List.mem_cons_of_mem _ hm)), h1]

theorem deleteFromIndirect_raw {cfg : Cfg} {name : Name} {ids : List Id} {w w' : Work} (h : deleteFromIndirect cfg name ids w = .ok w') {i : Id}
    (hi : i ∉ ids) : w'.lists.find i = w.lists.find i := by
  induction ids generalizing w with
  | nil => cases h; rfl
  | cons id ids ih =>
    rw [deleteFromIndirect] at h
    split at h
    · cases h
    rename_i l w1 hg
    have h1 := getList_raw hg (i := i) (fun e => hi (by simp [e]))
    split at h
    · cases h
      rename_i l' hl
      show (w1.lists.set id l').find i = _
      rw [find_setL, if_neg (fun e => hi (by simp [e])), h1]
    · rw [ih h (fun hm => hi (List.mem_cons_of_mem _ hm)), h1]

theorem deleteFromDir_raw {cfg : Cfg} {name : Name} {dir dir' : Asset} {w w' : Work} {r} (h : deleteFromDir cfg name dir w = .ok (dir', w', r)) :
    dir'.indirect = dir.indirect ∧ ∀ i, i ∉ dir.indirect → w'.lists.find i = w.lists.find i := by
  unfold deleteFromDir at h
  split at h
  · cases h
  split at h
  · cases h; exact ⟨rfl, fun _ _ => rfl⟩
  · split at h
    · cases h
    · rename_i w1 hd
      cases h
      exact ⟨rfl, fun i hi => deleteFromIndirect_raw hd hi⟩

theorem inAsset_raw {cfg : Cfg} {kind : Kind} {force : Bool} {name : Name} {f : Asset → Asset} {dir dir' : Asset} {w w' : Work} {r}
    (h : inAsset cfg kind force name f dir w = .ok (dir', w', r)) : ∀ i, i ∉ dir.indirect → w'.lists.find i = w.lists.find i := by
  have key : ∀ {d1 w1 r1 b}, inDir cfg name (fun a s => if a.info.kind = kind then .ok (f a, s.1, some ()) else .ok (a, s.1, none)) dir w =
      .ok (d1, w1, r1, b) → d1.indirect = dir.indirect ∧ ∀ i, i ∉ dir.indirect → w1.lists.find i = w.lists.find i := by
    intro d1 w1 r1 b hd
    have hf : ∀ (a : Asset) (s : Work × Option Unit) r, (if a.info.kind = kind then Except.ok (f a, s.1, some ()) else .ok (a, s.1, none) : Except Err _) = .ok r →
        r.2.1 = s.1 := by
      intro a s r hr
      split at hr <;> cases hr <;> rfl
    unfold inDir at hd
    split at hd
    · cases hd
    · rename_i cs w2 a hl
      cases hd
      exact ⟨rfl, fun i _ => by rw [inList_state hf hl]⟩
    · split at hd
      · cases hd
      · rename_i hi
        cases hd
        exact ⟨rfl, fun i hi' => inIndirect_raw hf hi hi'⟩
  unfold inAsset at h
  split at h
  · cases h
  dsimp only at h
  split at h
  · cases h
  · rename_i hd; cases h; exact (key hd).2
  · rename_i d1 w1 hd
    split at h
    · split at h
      · cases h
      · rename_i hx
        cases h
        obtain ⟨e1, e2⟩ := deleteFromDir_raw hx
        intro i hi
        rw [e2 i (by rw [(key hd).1]; exact hi), (key hd).2 i hi]
    · cases h
  · rename_i hd; cases h; exact (key hd).2

/-- `GetOrCreateAsset` below a directory: either it works and the tree is as specified, or it fails because something is in the way and must
not be replaced. -/
theorem inDirPath_put' {P : Meta → Prop} {cfg : Cfg} (hP : ∀ n k, P (newMeta cfg n k)) {kind : Kind} {force : Bool} {name : Name}
    {g : Meta → Meta} (hg : FieldChange P g) (path : List Name) : ∀ {nm w} {x : Part}, Exp cfg.hash nm w x → Func x.u → Tidy P x.t →
      x.t.info.kind = .directory →
    (∃ x' w' r, inDirPath cfg (if force then .forceCreate else .create) (inAsset cfg kind force name (onInfo g)) path x.a w = .ok (x'.a, w', r) ∧
      Edit cfg.hash nm x w x' w' ∧ Tidy P x'.t ∧ x'.t.info = x.t.info ∧ look x'.t = (look x.t).put (newMeta cfg) (path ++ [name]) kind g ∧
      PFrame x path w w') ∨
    (∃ e, inDirPath cfg (if force then .forceCreate else .create) (inAsset cfg kind force name (onInfo g)) path x.a w = .error e ∧ force = false ∧
      ¬ (look x.t).isKind (path ++ [name]) kind) := by
  induction path with
  | nil =>
    intro nm w x h hF ht hd
    simp only [inDirPath, List.nil_append]
    rcases inAsset_part hP hg (kind := kind) (force := force) (name := name) h hF ht hd with ⟨x', w', h1, h2, h3, h4, h5⟩ | ⟨h1, h2, h3⟩
    · exact .inl ⟨x', w', some (), h1, h2, h3, h4, h5, pframe_nil hF h (inAsset_raw h1)⟩
    · exact .inr ⟨_, h2, h1, h3⟩
  | cons n path ih =>
    intro nm w x h hF ht hd
    have hroot : (look x.t).isDir [] := ⟨_, look_nil _, hd⟩
    have hput := put_cons (newMeta cfg) n (path ++ [name]) kind g (look x.t) (by simp) (fun _ => rfl) hroot (look_sub ht n)
    rcases inDirPath_step hP (n := n) h hF ht hd (pre := fun _ => True) (ok := fun T _ T' => T' = T.put (newMeta cfg) (path ++ [name]) kind g)
      (bad := fun T _ => force = false ∧ ¬ T.isKind (path ++ [name]) kind) trivial (fun a b c d _ => weaken (ih a b c d)) with ⟨x', w', r, T, h1, h2, h3, h4, h5, h6, -, h7⟩ | ⟨e, h1, h2⟩
    · left
      refine ⟨x', w', r, h1, h2, h3, h4, ?_, h7⟩
      rw [h6, List.cons_append, hput, h5]
    · right
      refine ⟨e, h1, ?_⟩
      have hno : ¬ (look x.t).isDir [n] → ¬ (look x.t).isKind (n :: path ++ [name]) kind := by
        rintro hnd ⟨m, hm, -⟩
        rw [List.cons_append, look_sub ht n hnd _ (by simp)] at hm; cases hm
      rcases h2 with ⟨-, h2, -⟩ | ⟨⟨m, hm, hmk⟩, h2, -⟩ | h2
      · cases force <;> simp at h2
      · cases force with
        | false => exact ⟨rfl, hno (by rintro ⟨m', h1, h3⟩; rw [hm] at h1; cases h1; exact hmk h3)⟩
        | true => simp at h2
      · refine ⟨h2.1, ?_⟩
        by_cases hnd : (look x.t).isDir [n]
        · rw [if_pos hnd] at h2; exact h2.2
        · exact hno hnd

/-- `DeleteAsset` below a directory. -/
theorem inDirPath_delete' {P : Meta → Prop} {cfg : Cfg} (hP : ∀ n k, P (newMeta cfg n k)) {name : Name} (path : List Name) :
    ∀ {nm w} {x : Part}, Exp cfg.hash nm w x → Func x.u → Tidy P x.t → x.t.info.kind = .directory →
    (∃ x' w' r, inDirPath cfg .noCreate (deleteFromDir cfg name) path x.a w = .ok (x'.a, w', r) ∧ Edit cfg.hash nm x w x' w' ∧ Tidy P x'.t ∧
      x'.t.info = x.t.info ∧ look x'.t = (look x.t).delete (path ++ [name]) ∧ PFrame x path w w') ∨
    (∃ e, inDirPath cfg .noCreate (deleteFromDir cfg name) path x.a w = .error e ∧ (e = .notFound ∨ e = .invalid) ∧ ¬ (look x.t).isDir path) := by
  induction path with
  | nil =>
    intro nm w x h hF ht hd
    left
    obtain ⟨m, ds, gs, rfl, hok⟩ := h.cases'
    obtain ⟨ds', gs', w', e1, e2, e3, e4, e5⟩ := deleteFromDir_part (name := name) hok hF ht hd
    refine ⟨_, w', none, by rw [inDirPath]; exact e1, e2.edit, e3, rfl, ?_, pframe_nil hF hok.exp (deleteFromDir_raw e1).2⟩
    rw [List.nil_append, delete_cons, e5]
    congr 1
  | cons n path ih =>
    intro nm w x h hF ht hd
    rcases inDirPath_step hP (n := n) h hF ht hd (pre := fun _ => True) (ok := fun T _ T' => T' = T.delete (path ++ [name]))
      (bad := fun T e => (e = .notFound ∨ e = .invalid) ∧ ¬ T.isDir path) trivial (fun a b c d _ => weaken (ih a b c d)) with
      ⟨x', w', r, T, h1, h2, h3, h4, h5, h6, h7, h8⟩ | ⟨e, h1, h2⟩
    · left
      refine ⟨x', w', r, h1, h2, h3, h4, ?_, h8⟩
      rcases h7 with h7 | ⟨h7, -⟩
      · rw [if_pos h7] at h5
        rw [h6, List.cons_append, delete_cons, h5]
      · exact absurd rfl h7
    · right
      refine ⟨e, h1, ?_⟩
      rcases h2 with ⟨h2, -, rfl⟩ | ⟨⟨m, h2, hk⟩, -, rfl⟩ | ⟨h2, h3⟩
      · refine ⟨.inl rfl, ?_⟩
        have hnd : ¬ (look x.t).isDir [n] := by rintro ⟨m', hm', _⟩; rw [h2] at hm'; cases hm'
        rintro ⟨m', hm', hk'⟩
        cases path with
        | nil => exact hnd ⟨m', hm', hk'⟩
        | cons k path => rw [look_sub ht n hnd _ (by simp)] at hm'; cases hm'
      · refine ⟨.inr rfl, ?_⟩
        have hnd : ¬ (look x.t).isDir [n] := by rintro ⟨m', hm', hk'⟩; rw [h2] at hm'; cases hm'; exact hk hk'
        rintro ⟨m', hm', hk'⟩
        cases path with
        | nil => exact hnd ⟨m', hm', hk'⟩
        | cons k path => rw [look_sub ht n hnd _ (by simp)] at hm'; cases hm'
      · refine ⟨h2, fun h4 => h3 ?_⟩
        by_cases hnd : (look x.t).isDir [n]
        · rw [if_pos hnd]; exact h4
        · obtain ⟨m', hm', hk'⟩ := h4
          cases path with
          | nil => exact absurd ⟨m', hm', hk'⟩ hnd
          | cons k path => rw [look_sub ht n hnd _ (by simp)] at hm'; cases hm'

end Verif.Manifest
