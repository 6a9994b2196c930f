import Verif.Manifest.Multi

/-! # Flushing manifests with indirect asset lists

The directories of a manifest share asset lists only if lists are identical. If no two directories have the same entry, no list is shared, and
flushing writes what is in memory. -/
namespace Verif.Manifest

/-! ### Specification -/

/-- No two directories of the trees `F` and `G` have the same entry: entries with the same name at different places differ, in their fields or
in what is below them. -/
def NoTwins (F G : Tree) : Prop :=
  ∀ A B : Tree, A = F ∨ A = G → B = F ∨ B = G → ∀ (p q : List Name) (n : Name), A (p ++ [n]) ≠ none →
    (∀ r, A (p ++ n :: r) = B (q ++ n :: r)) → p = q

/-! ### Which directory an asset list belongs to -/

section
variable (hash : Stored → Id) (S : List Stored)

/-- The names in the list that is stored under an id. -/
def nmS (id : Id) : List Name := ((findAssets hash S id).getD []).map Asset.name

/-- The chunk lists are not empty, and the offset of a list is that of its first chunk. -/
def Laid (m : Meta) : Prop := ∀ i ∈ m.indirect, ∃ id tl, findChunks hash S i.listId = some (⟨0, id⟩ :: tl)

/-- The fields are readable with the chunk lists in the store. -/
def Rd (m : Meta) : Prop := Ascends m ∧ Laid hash S m ∧ ∃ cs, flatChunks (findChunks hash S) m = some cs

/-- `e`, as stored, is an entry of the directory `p` in one of the trees. -/
def OwnedBy (G0 G1 : Tree) (p : List Name) (e : Asset) : Prop :=
  (∃ m, Has hash S e [] m) ∧ ∃ G, (G = G0 ∨ G = G1) ∧ ∀ r m, Has hash S e r m ↔ G (p ++ e.name :: r) = some m

/-- The list stored under `id` has entries of the directory `p`. -/
def OwnId (G0 G1 : Tree) (p : List Name) (id : Id) : Prop :=
  ∃ l, findAssets hash S id = some l ∧ l ≠ [] ∧ ∀ e ∈ l, OwnedBy hash S G0 G1 p e

/-- The list stored under `id` has entries of `p` or a directory below. -/
def Near (G0 G1 : Tree) (p : List Name) (id : Id) : Prop := ∃ q, p <+: q ∧ OwnId hash S G0 G1 q id

end

variable {hash : Stored → Id} {S : List Stored} {G0 G1 : Tree}

theorem OwnedBy.unique (hT : NoTwins G0 G1) {p q : List Name} {e : Asset} (h : OwnedBy hash S G0 G1 p e) (h' : OwnedBy hash S G0 G1 q e) : p = q := by
  obtain ⟨⟨m, hm⟩, G, hG, hg⟩ := h
  obtain ⟨-, G', hG', hg'⟩ := h'
  refine hT G G' hG hG' p q e.name ?_ ?_
  · rw [(hg [] m).mp hm]; simp
  · intro r
    apply Option.ext
    intro m'
    rw [← hg r m', ← hg' r m']

/-- No list in the store has entries of two directories: each entry of the list is, with all that is below it, an entry of the one directory and
an entry of the other one, in one of the trees. -/
def Unshared (hash : Stored → Id) (S : List Stored) (G0 G1 : Tree) : Prop :=
  ∀ (p q : List Name) (id : Id), OwnId hash S G0 G1 p id → OwnId hash S G0 G1 q id → p = q

/-- If no two directories have the same entry, then no list is shared. -/
theorem NoTwins.unshared (hT : NoTwins G0 G1) : Unshared hash S G0 G1 := by
  intro p q id h h'
  obtain ⟨l, h1, h2, h3⟩ := h
  obtain ⟨l', k1, -, k3⟩ := h'
  rw [h1] at k1; cases k1
  cases l with
  | nil => exact absurd rfl h2
  | cons e l => exact (h3 e (by simp)).unique hT (k3 e (by simp))

/-- If there are no lists, none is shared. -/
theorem unshared_of_no_lists (h : ∀ id l, findAssets hash S id = some l → l = []) : Unshared hash S G0 G1 := by
  intro p q id ⟨l, h1, h2, _⟩ _
  exact absurd (h id l h1) h2

theorem OwnId.unique (hT : Unshared hash S G0 G1) {p q : List Name} {id : Id} (h : OwnId hash S G0 G1 p id) (h' : OwnId hash S G0 G1 q id) : p = q :=
  hT p q id h h'

theorem OwnId.near (hT : Unshared hash S G0 G1) {p q : List Name} {id : Id} (h : OwnId hash S G0 G1 q id) (hn : Near hash S G0 G1 p id) : p <+: q := by
  obtain ⟨q', h1, h2⟩ := hn
  rwa [h.unique hT h2]

/-- Lists of the directory itself are not those of its entries. -/
theorem OwnId.not_below (hT : Unshared hash S G0 G1) {p : List Name} {id : Id} (h : OwnId hash S G0 G1 p id) (n : Name) :
    ¬ Near hash S G0 G1 (p ++ [n]) id := fun hn => by
  have := (h.near hT hn).length_le
  rw [List.length_append, List.length_singleton] at this
  omega

/-- Lists below one entry are not below another. -/
theorem OwnId.not_beside (hT : Unshared hash S G0 G1) {p r : List Name} {n k : Name} {id : Id} (h : OwnId hash S G0 G1 (p ++ n :: r) id) (hk : k ≠ n) :
    ¬ Near hash S G0 G1 (p ++ [k]) id := fun hn => by
  have := h.near hT hn
  rw [List.prefix_append_right_inj, List.cons_prefix_cons] at this
  exact hk this.1

theorem Near.mono {p q : List Name} {id : Id} (hp : p <+: q) (h : Near hash S G0 G1 q id) : Near hash S G0 G1 p id := by
  obtain ⟨r, h1, h2⟩ := h
  exact ⟨r, hp.trans h1, h2⟩

/-! ### Parts that are as in the store -/

theorem exp_view {nm w} {x : Part} (h : Exp hash nm w x) : ∀ e ∈ x.u, ∃ l, view hash w e.2 = some l := by
  induction h with
  | mk m ds gs h1 h2 h3 h4 h5 h6 h7 ih1 ih2 =>
    intro e he
    rcases mem_dirPart_u.mp he with ⟨-, g, hg, e2⟩ | ⟨x, hx, q, -, hq⟩
    · rw [e2]; exact ⟨_, h2 g hg⟩
    · rcases mem_allParts.mp hx with hx | ⟨g, hg, hx⟩
      · exact ih1 x hx (q, e.2) hq
      · exact ih2 g hg x hx (q, e.2) hq

theorem flatAssets_groups {get : Id → Option (List Asset)} {gs : List (Id × List Part)} (h : ∀ g ∈ gs, get g.1 = some (g.2.map Part.a)) :
    flatAssets get (gs.map Prod.fst) = some ((gs.flatMap Prod.snd).map Part.a) := by
  induction gs with
  | nil => rfl
  | cons g gs ih =>
    rw [List.map_cons, flatAssets, h g (by simp), ih fun g' hg' => h g' (by simp [hg'])]
    simp

theorem has_part {P : Meta → Prop} {nm w} {x : Part} (h : Exp hash nm w x) : (∀ e ∈ x.u, view hash w e.2 = findAssets hash S e.2) → Tidy P x.t →
    ∀ p m, Has hash S x.a p m ↔ reads hash S (look x.t) p = some m := by
  induction h with
  | mk m0 ds gs h1 h2 h3 h4 h5 h6 h7 ih1 ih2 =>
    intro hs ht p m
    cases p with
    | nil => rw [has_nil, reads_nil]; exact Iff.rfl
    | cons n p =>
      rw [has_cons, reads_cons hash S ht]
      have he : entries (findAssets hash S) (dirPart m0 ds gs).a = some ((allParts ds gs).map Part.a) := by
        unfold entries
        show (flatAssets _ (gs.map Prod.fst)).map _ = _
        rw [flatAssets_groups fun g hg => by rw [← hs ([], g.1) (mem_u_own hg)]; exact h2 g hg]
        simp [dirPart, allParts]
      have hx : ∀ x ∈ allParts ds gs, Exp hash nm w x ∧ ∀ p m, Has hash S x.a p m ↔ reads hash S (look x.t) p = some m := by
        intro x hx
        have hs' : ∀ e ∈ x.u, view hash w e.2 = findAssets hash S e.2 := fun e he => hs (x.a.name :: e.1, e.2) (mem_u_sub hx he)
        have ht' := tidy_part ht hx
        rcases mem_allParts.mp hx with hx | ⟨g, hg, hx⟩
        · exact ⟨h1 x hx, ih1 x hx hs' ht'⟩
        · exact ⟨h3 g hg x hx, ih2 g hg x hx hs' ht'⟩
      rw [he]
      constructor
      · rintro ⟨es, e, c, hc, rfl, hh⟩
        cases e
        obtain ⟨x, hxm, rfl⟩ := List.mem_map.mp hc
        exact ⟨x.t, List.mem_map.mpr ⟨x, hxm, rfl⟩, (hx x hxm).1.name, ((hx x hxm).2 p m).mp hh⟩
      · rintro ⟨c, hc, rfl, hh⟩
        obtain ⟨x, hxm, rfl⟩ := List.mem_map.mp hc
        exact ⟨_, rfl, x.a, List.mem_map.mpr ⟨x, hxm, rfl⟩, (hx x hxm).1.name.symm, ((hx x hxm).2 p m).mpr hh⟩

/-- A part at `q` that is still to be flushed. -/
structure Todo (hash : Stored → Id) (S : List Stored) (G0 G1 : Tree) (q : List Name) (w : Work) (x : Part) : Prop where
  exp : Exp hash (nmS hash S) w x
  tidy : Tidy (Rd hash S) x.t
  own : ∀ e ∈ x.u, OwnId hash S G0 G1 (q ++ e.1) e.2
  reads : ∀ r, reads hash S (look x.t) r = G1 (q ++ r)

/-- A part at `q` that was flushed. -/
structure Done (hash : Stored → Id) (S : List Stored) (G0 G1 : Tree) (q : List Name) (w : Work) (x : Part) : Prop extends
    Todo hash S G0 G1 q w x where
  same : ∀ e ∈ x.u, view hash w e.2 = findAssets hash S e.2
  held : ∀ e ∈ x.u, findAssets hash w.store e.2 = view hash w e.2

theorem rd_seen {m : Meta} (h : Rd hash S m) : ∃ m', seen hash S (.mk m [] []) = some m' := by
  obtain ⟨-, -, cs, hcs⟩ := h
  unfold seen
  rw [Asset.info_mk, hcs]; exact ⟨_, rfl⟩

/-- What was flushed belongs to its directory. -/
theorem Done.owned {p : List Name} {w : Work} {x : Part} (h : Done hash S G0 G1 (p ++ [x.a.name]) w x) : OwnedBy hash S G0 G1 p x.a := by
  have hh := has_part h.exp h.same h.tidy
  refine ⟨?_, G1, .inr rfl, fun r m => ?_⟩
  · obtain ⟨m, hm⟩ := rd_seen h.tidy.fields
    refine ⟨m, (hh [] m).mpr ?_⟩
    rw [reads_nil]; exact hm
  · rw [hh r m, h.reads r, List.append_assoc]; rfl

/-- A list of flushed entries belongs to their directory. -/
theorem ownId_of_done {p : List Name} {w : Work} {c : List Part} {id : Id} (hf : findAssets hash S id = some (c.map Part.a)) (hne : c ≠ [])
    (h : ∀ x ∈ c, Done hash S G0 G1 (p ++ [x.a.name]) w x) : OwnId hash S G0 G1 p id := by
  refine ⟨_, hf, by simpa using hne, ?_⟩
  intro e he
  obtain ⟨x, hx, rfl⟩ := List.mem_map.mp he
  exact (h x hx).owned

theorem view_grow (hc : NoCollision hash S) {w w' : Work} (h1 : w.store <+: w'.store) (h2 : w'.store <+: S) {id : Id} {l : List Asset}
    (hf : w'.lists.find id = w.lists.find id) (hv : view hash w id = some l) : view hash w' id = view hash w id := by
  unfold view at hv ⊢
  rw [hf]
  cases hx : w.lists.find id with
  | some l' => rfl
  | none => rw [hx] at hv; dsimp only at hv ⊢; rw [hv]; exact findAssets_mono (hc.mono h2) h1 hv

theorem Todo.keep (hc : NoCollision hash S) {q : List Name} {w w' : Work} {x : Part} (h : Todo hash S G0 G1 q w x)
    (h1 : w.store <+: w'.store) (h2 : w'.store <+: S)
    (hf : ∀ e ∈ x.u, w'.lists.find e.2 = w.lists.find e.2) : Todo hash S G0 G1 q w' x := by
  refine ⟨exp_frame h.exp fun e he => ⟨hf e he, ?_, rfl⟩, h.tidy, h.own, h.reads⟩
  obtain ⟨l, hl⟩ := exp_view h.exp e he
  exact view_grow hc h1 h2 (hf e he) hl

theorem Done.keep (hc : NoCollision hash S) {q : List Name} {w w' : Work} {x : Part} (h : Done hash S G0 G1 q w x)
    (h1 : w.store <+: w'.store) (h2 : w'.store <+: S)
    (hf : ∀ e ∈ x.u, w'.lists.find e.2 = w.lists.find e.2) : Done hash S G0 G1 q w' x := by
  refine ⟨h.toTodo.keep hc h1 h2 hf, fun e he => ?_, fun e he => ?_⟩
  · obtain ⟨l, hl⟩ := exp_view h.exp e he
    rw [view_grow hc h1 h2 (hf e he) hl]; exact h.same e he
  · obtain ⟨l, hl⟩ := exp_view h.exp e he
    rw [view_grow hc h1 h2 (hf e he) hl, hl]
    refine findAssets_mono (hc.mono h2) h1 ?_
    rw [h.held e he, hl]

/-! ### Limiting the size of files and of the directory -/

/-- `b` is `a` or, if `a` is a file, a file with the same contents. -/
structure Enf (hash : Stored → Id) (S : List Stored) (a b : Asset) : Prop where
  info : { b.info with chunks := [], indirect := [] } = { a.info with chunks := [], indirect := [] }
  children : b.children = a.children
  indirect : b.indirect = a.indirect
  dir : a.info.kind = .directory → b = a
  asc : Ascending b
  laid : Laid hash S a.info → Laid hash S b.info
  seen : seen hash S b = seen hash S a

theorem Enf.refl {a : Asset} (h : Ascending a) : Enf hash S a a := ⟨rfl, rfl, rfl, fun _ => rfl, h, fun h => h, rfl⟩

theorem Enf.name {a b : Asset} (h : Enf hash S a b) : b.name = a.name := (congrArg Meta.name h.info : _)
theorem Enf.kind {a b : Asset} (h : Enf hash S a b) : b.info.kind = a.info.kind := (congrArg Meta.kind h.info : _)

theorem enforceFile_enf {cfg : Cfg} {limit : Nat} {a b : Asset} {w w1 : Work} (hk : a.info.kind = .file) (hasc : Ascending a)
    (h : enforceFile cfg limit a w = some (b, w1)) (hc : NoCollision cfg.hash S) (hs : w1.store <+: S) : Enf cfg.hash S a b := by
  rcases enforceFile_spec cfg limit a b w w1 hasc h with ⟨rfl, rfl⟩ | ⟨hni, direct, es, rfl, rfl, hj, hz⟩
  · exact .refl hasc
  · refine ⟨rfl, rfl, rfl, (fun h => by rw [hk] at h; cases h), ?_, ?_, ?_⟩
    · unfold Ascending at hasc ⊢
      rw [← hj] at hasc
      exact (List.pairwise_append.mp hasc).1
    · intro _ i hi
      obtain ⟨e, he, rfl⟩ := List.mem_map.mp hi
      obtain ⟨id, tl, hz⟩ := hz e he
      refine ⟨id, tl, ?_⟩
      rw [findChunks_of_mem hc.chunks (hs.subset (List.mem_append_right _ (List.mem_map.mpr ⟨e, he, rfl⟩))), hz]
    · unfold Manifest.seen flatChunks
      rw [hni]
      simp only [Asset.info_mk]
      rw [flatIndirect_entries hc.chunks es (fun e he => hs.subset (List.mem_append_right _ (List.mem_map.mpr ⟨e, he, rfl⟩)))]
      simp only [flatIndirect, Option.map_some, List.append_nil, hj]

theorem enf_refl {l : List Asset} (h : ∀ a ∈ l, Ascending a) : List.Forall₂ (Enf hash S) l l := by
  induction l with
  | nil => exact .nil
  | cons x l ih => exact .cons (.refl (h x (by simp))) (ih fun a ha => h a (by simp [ha]))

theorem enforceFiles_enf {cfg : Cfg} {limit size : Nat} {cs : List Asset} {w : Work} {r}
    (h : enforceFiles cfg limit size cs w = some r) (hasc : ∀ a ∈ cs, Ascending a) (hc : NoCollision cfg.hash S) (hs : r.2.2.store <+: S) :
    List.Forall₂ (Enf cfg.hash S) cs r.1 := by
  induction cs generalizing size w r with
  | nil => cases h; exact .nil
  | cons a as ih =>
    have ha := hasc a (by simp)
    have has : ∀ x ∈ as, Ascending x := fun x hx => hasc x (by simp [hx])
    unfold enforceFiles at h
    split at h
    · cases h; exact enf_refl hasc
    split at h
    · obtain ⟨r', hr, rfl⟩ := Option.map_eq_some_iff.mp h
      exact .cons (.refl ha) (ih hr has hs)
    · rename_i hk
      split at h
      · cases h
      · rename_i b w1 hb
        obtain ⟨r', hr, rfl⟩ := Option.map_eq_some_iff.mp h
        exact .cons (enforceFile_enf (Decidable.not_not.mp hk) ha hb hc ((enforceFiles_lists hr).2.trans hs)) (ih hr has hs)

theorem enforceDir_enf {cfg : Cfg} (hsort : ∀ l, (cfg.sort l).Perm l) {dir dir' : Asset} {over over' : List Asset} {w w' : Work}
    (h : enforceDir cfg dir over w = some (dir', over', w')) (hasc : ∀ a ∈ dir.children ++ over, Ascending a)
    (hc : NoCollision cfg.hash S) (hs : w'.store <+: S) :
    dir'.info = dir.info ∧ dir'.indirect = dir.indirect ∧ w'.lists = w.lists ∧ w.store <+: w'.store ∧
    ∃ p, p.Perm (dir'.children ++ over') ∧ List.Forall₂ (Enf cfg.hash S) (dir.children ++ over) p := by
  have hasc1 : ∀ a ∈ dir.children, Ascending a := fun a ha => hasc a (List.mem_append_left _ ha)
  have hasc2 : ∀ a ∈ over, Ascending a := fun a ha => hasc a (List.mem_append_right _ ha)
  unfold enforceDir at h
  split at h
  · cases h
    exact ⟨rfl, rfl, rfl, List.prefix_rfl, _, List.Perm.refl _, enf_refl hasc⟩
  dsimp only at h
  split at h
  · cases h
  rename_i cs size w1 hfiles
  simp only [Option.some.injEq, Prod.mk.injEq] at h
  obtain ⟨rfl, rfl, rfl⟩ := h
  have hf : w1.lists = w.lists ∧ w.store <+: w1.store ∧ List.Forall₂ (Enf cfg.hash S) (cfg.sort dir.children) cs := by
    split at hfiles
    · simp only [Option.some.injEq, Prod.mk.injEq] at hfiles
      obtain ⟨rfl, rfl, rfl⟩ := hfiles
      exact ⟨rfl, List.prefix_rfl, enf_refl fun a ha => hasc1 a ((hsort _).mem_iff.mp ha)⟩
    · obtain ⟨h1, h2⟩ := enforceFiles_lists hfiles
      exact ⟨h1, h2, enforceFiles_enf hfiles (fun a ha => hasc1 a ((hsort _).mem_iff.mp ha)) hc hs⟩
  obtain ⟨h1, h2, h3⟩ := hf
  refine ⟨rfl, rfl, h1, h2, ?_⟩
  have h4 := List.rel_append h3 (enf_refl (hash := cfg.hash) (S := S) hasc2)
  obtain ⟨p, hp1, hp2⟩ : ∃ p, p.Perm (cs ++ over) ∧ List.Forall₂ (Enf cfg.hash S) (dir.children ++ over) p := by
    obtain ⟨p, q1, q2⟩ := (List.perm_comp_forall₂ ((hsort dir.children).symm.append_right over) h4)
    exact ⟨p, q2, q1⟩
  refine ⟨p, hp1.trans ?_, hp2⟩
  have := takeAssets_perm cfg (fun l => assetSize (.mk dir.info l dir.indirect)) cs.reverse size over
  simp only [Asset.children_mk]
  have h5 := (List.reverse_perm (takeAssets cfg (fun l => assetSize (.mk dir.info l dir.indirect)) cs.reverse size over).1).append_right
    (takeAssets cfg (fun l => assetSize (.mk dir.info l dir.indirect)) cs.reverse size over).2
  exact (h5.trans (this.trans ((List.reverse_perm cs).append_right over))).symm

theorem Exp.leaf_eq {nm w} {x : Part} (h : Exp hash nm w x) (hk : x.a.info.kind ≠ .directory) : x = dirPart x.a.info [] [] := by
  obtain ⟨m, ds, gs, rfl, hok⟩ := h.cases'
  obtain ⟨rfl, rfl⟩ := hok.leaf hk
  rfl

theorem look_leafPart (m : Meta) : look (dirPart m [] []).t = Tree.root m := by
  funext p
  cases p with
  | nil => rw [look_nil]; rfl
  | cons n p => rw [look_cons]; rfl

/-- A file that was limited in size. -/
theorem Done.enf (hc : NoCollision hash S) {q : List Name} {w w' : Work} {x : Part} {b : Asset} (h : Done hash S G0 G1 q w x)
    (he : Enf hash S x.a b) (hl : w'.lists = w.lists) (h1 : w.store <+: w'.store) (h2 : w'.store <+: S) :
    ∃ y : Part, y.a = b ∧ y.a.name = x.a.name ∧ Done hash S G0 G1 q w' y := by
  by_cases hk : x.a.info.kind = .directory
  · rw [he.dir hk]
    exact ⟨x, rfl, rfl, h.keep hc h1 h2 fun e _ => by rw [hl]⟩
  · have hx := h.exp.leaf_eq hk
    have hxc : x.a.children = [] := by rw [hx]; rfl
    have hxi : x.a.indirect = [] := by rw [hx]; rfl
    have hb : b = .mk b.info [] [] := by
      cases b with
      | mk m cs i =>
        have e1 := he.children
        have e2 := he.indirect
        rw [hxc] at e1; rw [hxi] at e2
        simp only [Asset.children_mk] at e1
        simp only [Asset.indirect_mk] at e2
        rw [e1, e2]; rfl
    have hseen : Manifest.seen hash S (.mk b.info [] []) = Manifest.seen hash S (.mk x.a.info [] []) := he.seen
    have htx : x.t = (dirPart x.a.info [] []).t := congrArg Part.t hx
    refine ⟨dirPart b.info [] [], hb.symm, he.name, ⟨⟨dirOk_new.exp, ?_, (by intro e he; cases he), ?_⟩, (by intro e he; cases he), (by intro e he; cases he)⟩⟩
    · refine .mk ⟨he.asc, he.laid (by rw [← h.exp.info]; exact h.tidy.fields.2.1), ?_⟩ (by simp) (by simp) (fun _ => rfl)
      obtain ⟨m', hm'⟩ := rd_seen h.tidy.fields
      rw [h.exp.info, ← hseen] at hm'
      unfold Manifest.seen at hm'
      obtain ⟨cs, hcs, -⟩ := Option.map_eq_some_iff.mp hm'
      exact ⟨cs, hcs⟩
    · intro r
      rw [← h.reads r, htx, look_leafPart, look_leafPart]
      unfold Manifest.reads Tree.root
      by_cases hr : r = []
      · rw [if_pos hr, if_pos hr]; exact hseen
      · rw [if_neg hr, if_neg hr]

/-- The same for a list of entries. -/
theorem done_enf (hc : NoCollision hash S) {p : List Name} {w w' : Work} {xs : List Part} {l : List Asset}
    (h : ∀ x ∈ xs, Done hash S G0 G1 (p ++ [x.a.name]) w x)
    (he : List.Forall₂ (Enf hash S) (xs.map Part.a) l) (hl : w'.lists = w.lists) (h1 : w.store <+: w'.store) (h2 : w'.store <+: S) :
    ∃ ys : List Part, ys.map Part.a = l ∧ (ys.map fun y => y.a.name) = (xs.map fun x => x.a.name) ∧
      ∀ y ∈ ys, Done hash S G0 G1 (p ++ [y.a.name]) w' y := by
  induction xs generalizing l with
  | nil => cases he; exact ⟨[], rfl, rfl, by simp⟩
  | cons x xs ih =>
    rw [List.map_cons] at he
    cases he with
    | cons e es =>
      obtain ⟨y, y1, y2, y3⟩ := (h x (by simp)).enf hc e hl h1 h2
      obtain ⟨ys, z1, z2, z3⟩ := ih (fun x' hx' => h x' (by simp [hx'])) es
      refine ⟨y :: ys, by rw [List.map_cons, y1, z1], by simp only [List.map_cons, y2, z2], ?_⟩
      intro y' hy'
      rcases List.mem_cons.mp hy' with rfl | hy'
      · rw [y2]; exact y3
      · exact z3 y' hy'

/-! ### Lists -/

theorem parts_flatten {ls : List (List Asset)} {xs : List Part} (h : ls.flatten = xs.map Part.a) :
    ∃ cs : List (List Part), cs.map (List.map Part.a) = ls ∧ cs.flatten = xs := by
  induction ls generalizing xs with
  | nil => simp at h; subst h; exact ⟨[], rfl, rfl⟩
  | cons l ls ih =>
    rw [List.flatten_cons] at h
    obtain ⟨x1, x2, rfl, h1, h2⟩ := List.map_eq_append_iff.mp h.symm
    obtain ⟨cs, k1, k2⟩ := ih h2.symm
    exact ⟨x1 :: cs, by rw [List.map_cons, h1, k1], by rw [List.flatten_cons, k2]⟩

theorem packAssets_nonempty (cfg : Cfg) (rev cur : List Asset) (size : Nat) (h : cur ≠ [] ∨ size = 0 ∧ rev ≠ []) :
    ∀ l ∈ packAssets cfg rev cur size, l ≠ [] := by
  induction rev generalizing cur size with
  | nil =>
    intro l hl
    simp only [packAssets, List.mem_singleton] at hl
    subst hl
    rcases h with h | ⟨-, h⟩
    · exact h
    · exact absurd rfl h
  | cons a rev ih =>
    unfold packAssets
    dsimp only
    split
    · rename_i hs
      intro l hl
      rcases List.mem_cons.mp hl with rfl | hl
      · rcases h with h | ⟨h, -⟩
        · exact h
        · omega
      · exact ih _ _ (.inl (by simp)) l hl
    · exact ih _ _ (.inl (by simp))

/-- The lists in memory after lists were written. -/
theorem writeBack_find (cfg : Cfg) (ls : List (List Asset)) (w : Work) (hinj : ∀ l ∈ ls, ∀ l' ∈ ls, cfg.hash (.assets l) = cfg.hash (.assets l') → l = l') :
    (∀ l ∈ ls, (writeBack cfg ls w).lists.find (cfg.hash (.assets l)) = some l) ∧
    ∀ id, (∀ l ∈ ls, cfg.hash (.assets l) ≠ id) → (writeBack cfg ls w).lists.find id = w.lists.find id := by
  induction ls generalizing w with
  | nil => exact ⟨by simp, fun _ _ => rfl⟩
  | cons l ls ih =>
    obtain ⟨h1, h2⟩ := ih { lists := w.lists.set (cfg.hash (.assets l)) l, store := w.store ++ [.assets l] }
      fun a ha b hb => hinj a (by simp [ha]) b (by simp [hb])
    refine ⟨?_, ?_⟩
    · intro l' hl'
      rcases List.mem_cons.mp hl' with rfl | hl'
      · show (writeBack cfg ls _).lists.find _ = _
        by_cases hm : ∃ k ∈ ls, cfg.hash (.assets k) = cfg.hash (.assets l')
        · obtain ⟨k, hk, e⟩ := hm
          have h := h1 k hk
          rw [hinj k (by simp [hk]) l' (by simp) e] at h
          exact h
        · rw [h2 _ fun k hk e => hm ⟨k, hk, e⟩, find_setL, if_pos rfl]
      · exact h1 l' hl'
    · intro id hid
      show (writeBack cfg ls _).lists.find _ = _
      rw [h2 id fun k hk => hid k (by simp [hk]), find_setL, if_neg (fun e => hid l (by simp) e.symm)]

theorem takeAssets_split (cfg : Cfg) (full : List Asset → Nat) (rev : List Asset) (size : Nat) (over : List Asset) :
    ∃ mv, rev = mv ++ (takeAssets cfg full rev size over).1 ∧ (takeAssets cfg full rev size over).2 = over ++ mv := by
  induction rev generalizing size over with
  | nil => exact ⟨[], rfl, by simp [takeAssets]⟩
  | cons a rev ih =>
    unfold takeAssets
    split
    · dsimp only
      obtain ⟨mv, h1, h2⟩ := ih (if size - (assetSize a + overhead) ≤ cfg.maxSize then full rev.reverse else size - (assetSize a + overhead)) (over ++ [a])
      refine ⟨a :: mv, ?_, ?_⟩
      · rw [List.cons_append, ← h1]
      · rw [h2]; simp
    · exact ⟨[], rfl, by simp⟩

theorem enforceList_split (cfg : Cfg) (l over : List Asset) :
    ∃ mv : List Asset, l = (enforceList cfg l over).1 ++ mv ∧ (enforceList cfg l over).2 = over ++ mv.reverse := by
  unfold enforceList
  split
  · exact ⟨[], by simp, by simp⟩
  · obtain ⟨mv, h1, h2⟩ := takeAssets_split cfg assetListSize l.reverse (assetListSize l) over
    refine ⟨mv.reverse, ?_, by simpa using h2⟩
    have := congrArg List.reverse h1
    simpa using this

theorem appendOverflow_ext {cfg : Cfg} {dir dir' : Asset} {over : List Asset} {w w' : Work}
    (h : appendOverflow cfg dir over w = some (dir', w')) : w.store <+: w'.store := by
  unfold appendOverflow at h
  split at h
  · cases h; exact List.prefix_rfl
  dsimp only at h
  split at h
  · cases h
  rename_i ids l size w1 hs
  simp only [Option.some.injEq, Prod.mk.injEq] at h
  obtain ⟨-, rfl⟩ := h
  rw [writeBack_store]
  have : w1.store = w.store := by
    split at hs
    · split at hs
      · cases hs
      · rename_i hg
        simp only [Option.some.injEq, Prod.mk.injEq] at hs
        rw [← hs.2.2.2]; exact (getList_store hg).1
    · simp only [Option.some.injEq, Prod.mk.injEq] at hs
      rw [← hs.2.2.2]
  rw [this]; exact List.prefix_append ..

theorem enforceDir_ext {cfg : Cfg} {dir dir' : Asset} {over over' : List Asset} {w w' : Work}
    (h : enforceDir cfg dir over w = some (dir', over', w')) : w.store <+: w'.store := by
  unfold enforceDir at h
  split at h
  · cases h; exact List.prefix_rfl
  dsimp only at h
  split at h
  · cases h
  rename_i cs size w1 hfiles
  simp only [Option.some.injEq, Prod.mk.injEq] at h
  obtain ⟨-, -, rfl⟩ := h
  split at hfiles
  · simp only [Option.some.injEq, Prod.mk.injEq] at hfiles
    rw [← hfiles.2.2]; exact List.prefix_rfl
  · exact (enforceFiles_lists hfiles).2

theorem flushOneList_ext {cfg : Cfg} {id : Id} {l over : List Asset} {w : Work} : w.store <+: (flushOneList cfg id l over w).2.2.store := by
  unfold flushOneList
  dsimp only
  split
  · exact List.prefix_rfl
  · exact List.prefix_append ..

theorem flush_ext {cfg : Cfg} (fuel : Nat) :
    (∀ a w r, flushDir cfg fuel a w = some r → w.store <+: r.2.store) ∧ (∀ l w r, flushList cfg fuel l w = some r → w.store <+: r.2.store) ∧
    (∀ ids over w r, flushIndirect cfg fuel ids over w = some r → w.store <+: r.2.2.store) := by
  induction fuel with
  | zero => exact ⟨by simp [flushDir], by simp [flushList], by simp [flushIndirect]⟩
  | succ fuel ih =>
    obtain ⟨ihD, ihL, ihI⟩ := ih
    refine ⟨?_, ?_, ?_⟩
    · intro a w r h
      unfold flushDir at h
      split at h
      · cases h
      rename_i h1
      split at h
      · cases h
      rename_i h2
      split at h
      · cases h
      rename_i h3
      exact (ihL _ _ _ h1).trans ((ihI _ _ _ _ h2).trans ((enforceDir_ext h3).trans (appendOverflow_ext h)))
    · intro l w r h
      cases l with
      | nil => simp only [flushList] at h; cases h; exact List.prefix_rfl
      | cons a l =>
        unfold flushList at h
        split at h
        · cases h
        rename_i b w1 h1
        split at h
        · cases h
        rename_i h2
        cases h
        have : w.store <+: w1.store := by
          split at h1
          · exact ihD _ _ _ h1
          · cases h1; exact List.prefix_rfl
        have h3 := ihL _ _ _ h2
        exact this.trans h3
    · intro ids over w r h
      cases ids with
      | nil => simp only [flushIndirect] at h; cases h; exact List.prefix_rfl
      | cons id ids =>
        unfold flushIndirect at h
        split at h
        · split at h
          · cases h
          rename_i h2
          cases h
          have h3 := ihI _ _ _ _ h2
          exact h3
        · split at h
          · cases h
          rename_i h1
          dsimp only at h
          split at h
          · cases h
          rename_i h2
          cases h
          have h3 := ihI _ _ _ _ h2
          exact (ihL _ _ _ h1).trans (flushOneList_ext.trans h3)

/-! ### Flushing lists and directories -/

/-- The names of entries. -/
def names (l : List Part) : List Name := l.map fun x => x.a.name

theorem names_append (l l' : List Part) : names (l ++ l') = names l ++ names l' := List.map_append ..

theorem mem_names {l : List Part} {n : Name} : n ∈ names l ↔ ∃ x ∈ l, x.a.name = n := List.mem_map

theorem nodup_flatMap {α β : Type} {f : α → List β} {l : List α} (h : (l.flatMap f).Nodup) : l.Pairwise fun a b => ∀ n ∈ f a, n ∉ f b := by
  induction l with
  | nil => exact .nil
  | cons a l ih =>
    rw [List.flatMap_cons, List.nodup_append] at h
    refine .cons (fun b hb n h1 h2 => ?_) (ih h.2.1)
    exact h.2.2 n h1 n (List.mem_flatMap.mpr ⟨b, hb, h2⟩) rfl

theorem part_of_name {l : List Part} (h : (names l).Nodup) {x y : Part} (hx : x ∈ l) (hy : y ∈ l) (e : x.a.name = y.a.name) : x = y := by
  induction l with
  | nil => cases hx
  | cons z l ih =>
    have h' : (z.a.name :: names l).Nodup := h
    rw [List.nodup_cons] at h'
    rcases List.mem_cons.mp hx with rfl | hx' <;> rcases List.mem_cons.mp hy with rfl | hy'
    · rfl
    · exact absurd (mem_names.mpr ⟨y, hy', e.symm⟩) h'.1
    · exact absurd (mem_names.mpr ⟨x, hx', e⟩) h'.1
    · exact ih h'.2 hx' hy'

/-- A list of the directory `p` that was flushed. -/
structure Grp (hash : Stored → Id) (S : List Stored) (G0 G1 : Tree) (p : List Name) (w : Work) (g : Id × List Part) : Prop where
  view : view hash w g.1 = some (g.2.map Part.a)
  store : findAssets hash S g.1 = some (g.2.map Part.a)
  held : findAssets hash w.store g.1 = some (g.2.map Part.a)
  ne : g.2 ≠ []
  done : ∀ x ∈ g.2, Done hash S G0 G1 (p ++ [x.a.name]) w x
  unloaded : w.lists.find g.1 = none → ∀ x ∈ g.2, ∀ e ∈ x.u, w.lists.find e.2 = none

theorem Grp.own {p w g} (h : Grp hash S G0 G1 p w g) : OwnId hash S G0 G1 p g.1 := ownId_of_done h.store h.ne h.done

theorem Grp.keep (hc : NoCollision hash S) {p w w' g} (h : Grp hash S G0 G1 p w g) (h1 : w.store <+: w'.store) (h2 : w'.store <+: S)
    (hg : w'.lists.find g.1 = w.lists.find g.1) (hf : ∀ x ∈ g.2, ∀ e ∈ x.u, w'.lists.find e.2 = w.lists.find e.2) : Grp hash S G0 G1 p w' g := by
  refine ⟨?_, h.store, findAssets_mono (hc.mono h2) h1 h.held, h.ne, fun x hx => (h.done x hx).keep hc h1 h2 (hf x hx), ?_⟩
  · rw [view_grow hc h1 h2 hg h.view]; exact h.view
  · intro hn x hx e he
    rw [hf x hx e he]
    exact h.unloaded (hg ▸ hn) x hx e he

/-- Lists with different names have different ids. -/
theorem Grp.ne_of_names {p w w' g g'} (h : Grp hash S G0 G1 p w g) (h' : Grp hash S G0 G1 p w' g') (hn : ∀ n ∈ names g.2, n ∉ names g'.2) : g.1 ≠ g'.1 := by
  intro e
  have h1 := h.store
  rw [e, h'.store] at h1
  have h2 : g'.2.map Part.a = g.2.map Part.a := Option.some.inj h1
  have h3 : names g'.2 = names g.2 := by
    have := congrArg (List.map Asset.name) h2
    rw [List.map_map, List.map_map] at this; exact this
  obtain ⟨x, hx⟩ := List.exists_mem_of_ne_nil _ h.ne
  have : x.a.name ∈ names g.2 := mem_names.mpr ⟨x, hx, rfl⟩
  exact hn _ this (h3 ▸ this)

/-- The lists of a part at `p ++ [n]` are not those of `p`. -/
theorem Todo.apart_own (hT : Unshared hash S G0 G1) {p : List Name} {n : Name} {w : Work} {x : Part} (h : Todo hash S G0 G1 (p ++ [n]) w x) {id : Id}
    (ho : OwnId hash S G0 G1 p id) : ∀ e ∈ x.u, e.2 ≠ id := by
  intro e he heq
  have h1 := h.own e he
  rw [heq] at h1
  have := congrArg List.length (h1.unique hT ho)
  simp at this

theorem Todo.not_beside (hT : Unshared hash S G0 G1) {p : List Name} {n k : Name} {w : Work} {x : Part} (h : Todo hash S G0 G1 (p ++ [n]) w x) (hk : k ≠ n) :
    ∀ e ∈ x.u, ¬ Near hash S G0 G1 (p ++ [k]) e.2 := by
  intro e he
  have h1 := h.own e he
  rw [List.append_assoc] at h1
  exact OwnId.not_beside hT h1 hk

/-- A list that is not in memory. -/
theorem todo_unloaded (hc : NoCollision hash S) {q : List Name} {w : Work} {x : Part} (h : Todo hash S G0 G1 q w x) (hs : w.store <+: S)
    (hn : ∀ e ∈ x.u, w.lists.find e.2 = none) : Done hash S G0 G1 q w x := by
  refine ⟨h, fun e he => ?_, fun e he => ?_⟩
  · obtain ⟨l, hl⟩ := exp_view h.exp e he
    rw [hl]
    unfold view at hl
    rw [hn e he] at hl
    exact (findAssets_mono hc hs hl).symm
  · unfold view; rw [hn e he]

/-- A directory all whose entries were flushed. -/
theorem done_dir {q : List Name} {w0 w : Work} {m : Meta} {ds ds' : List Part} {gs gs' : List (Id × List Part)}
    (hok : DirOk hash (nmS hash S) w0 m ds gs) (h : Todo hash S G0 G1 q w0 (dirPart m ds gs)) (hk : m.kind = .directory)
    (hd : ∀ x ∈ ds', Done hash S G0 G1 (q ++ [x.a.name]) w x) (hg : ∀ g ∈ gs', Grp hash S G0 G1 q w g)
    (hn : (names (allParts ds' gs')).Perm (names (allParts ds gs))) : Done hash S G0 G1 q w (dirPart m ds' gs') := by
  have hdis : (names (allParts ds gs)).Nodup := distinct_of_tidy hok h.tidy
  have hdis' : (names (allParts ds' gs')).Nodup := hn.nodup_iff.mpr hdis
  have hall : ∀ x ∈ allParts ds' gs', Done hash S G0 G1 (q ++ [x.a.name]) w x := by
    intro x hx
    rcases mem_allParts.mp hx with hx | ⟨g, hg', hx⟩
    · exact hd x hx
    · exact (hg g hg').done x hx
  have hnm : ∀ g ∈ gs', nmS hash S g.1 = names g.2 := by
    intro g hg'
    unfold nmS names
    rw [(hg g hg').store]; simp [Function.comp_def]
  have hgn : (gs'.flatMap fun g => names g.2).Nodup := by
    have : names (allParts ds' gs') = names ds' ++ gs'.flatMap fun g => names g.2 := by
      unfold allParts
      rw [names_append]
      congr 1
      unfold names
      rw [List.map_flatMap]
    rw [this, List.nodup_append] at hdis'
    exact hdis'.2.1
  have hexp : Exp hash (nmS hash S) w (dirPart m ds' gs') := by
    refine .mk m ds' gs' (fun x hx => (hd x hx).exp) (fun g hg' => (hg g hg').view) (fun g hg' x hx => ((hg g hg').done x hx).exp) ?_ ?_
      (fun h => absurd hk h) (fun g hg' => (hg g hg').unloaded)
    · intro g hg' x hx
      rw [hnm g hg']; exact mem_names.mpr ⟨x, hx, rfl⟩
    · refine List.Pairwise.imp_of_mem ?_ (nodup_flatMap hgn)
      intro a b ha hb hab'
      refine ⟨(hg a ha).ne_of_names (hg b hb) hab', ?_⟩
      rw [hnm a ha, hnm b hb]; exact hab'
  have htn : ∀ x ∈ allParts ds' gs', x.t.name = x.a.name := fun x hx => (hall x hx).exp.name
  have htidy : Tidy (Rd hash S) (dirPart m ds' gs').t := by
    refine .mk h.tidy.fields ?_ ?_ (fun h => absurd hk h)
    · intro c hc
      obtain ⟨x, hx, rfl⟩ := List.mem_map.mp hc
      exact (hall x hx).tidy
    · have : ((ds' ++ gs'.flatMap Prod.snd).map Part.t).map Asset.name = names (allParts ds' gs') := by
        rw [List.map_map]
        exact List.map_congr_left fun x hx => htn x hx
      rw [this]; exact hdis'
  refine ⟨⟨hexp, htidy, ?_, ?_⟩, ?_, ?_⟩
  · intro e he
    rcases mem_dirPart_u.mp he with ⟨h1, g, hg', h2⟩ | ⟨x, hx, k, h1, h2⟩
    · rw [h1, h2, List.append_nil]; exact (hg g hg').own
    · have := (hall x hx).own _ h2
      rw [List.append_assoc] at this
      rw [h1]; exact this
  · intro r
    cases r with
    | nil => rw [← h.reads [], reads_nil, reads_nil]; rfl
    | cons n r =>
      by_cases hm : n ∈ names (allParts ds' gs')
      · obtain ⟨x, hx, rfl⟩ := mem_names.mp hm
        have h1 := (hall x hx).reads r
        rw [List.append_assoc] at h1
        show _ = G1 (q ++ ([x.a.name] ++ r))
        rw [← h1]
        apply Option.ext
        intro m'
        rw [reads_cons hash S htidy]
        constructor
        · rintro ⟨c, hc, h3, h4⟩
          obtain ⟨y, hy, rfl⟩ := List.mem_map.mp hc
          have : y.t = x.t := by rw [part_of_name hdis' hy hx ((htn y hy).symm.trans h3)]
          rw [← this]; exact h4
        · intro h3
          exact ⟨x.t, List.mem_map.mpr ⟨x, hx, rfl⟩, htn x hx, h3⟩
      · have h1 : reads hash S (look (dirPart m ds' gs').t) (n :: r) = none := by
          unfold reads
          rw [look_cons, find_none]; rfl
          intro a ha e
          obtain ⟨x, hx, rfl⟩ := List.mem_map.mp ha
          exact hm (mem_names.mpr ⟨x, hx, (htn x hx).symm.trans e⟩)
        have h2 : reads hash S (look (dirPart m ds gs).t) (n :: r) = none := by
          unfold reads
          rw [look_absent hok]; rfl
          intro x hx e
          exact hm (hn.mem_iff.mpr (mem_names.mpr ⟨x, hx, e⟩))
        rw [h1, ← h.reads, h2]
  · intro e he
    rcases mem_dirPart_u.mp he with ⟨h1, g, hg', h2⟩ | ⟨x, hx, k, h1, h2⟩
    · rw [h2, (hg g hg').view, (hg g hg').store]
    · exact (hall x hx).same (k, e.2) h2
  · intro e he
    rcases mem_dirPart_u.mp he with ⟨h1, g, hg', h2⟩ | ⟨x, hx, k, h1, h2⟩
    · rw [h2, (hg g hg').view, (hg g hg').held]
    · exact (hall x hx).held (k, e.2) h2

/-- A list of the directory `p` that is still to be flushed. -/
structure GTodo (hash : Stored → Id) (S : List Stored) (G0 G1 : Tree) (p : List Name) (w : Work) (g : Id × List Part) : Prop where
  view : view hash w g.1 = some (g.2.map Part.a)
  own : OwnId hash S G0 G1 p g.1
  parts : ∀ x ∈ g.2, Todo hash S G0 G1 (p ++ [x.a.name]) w x
  names : ∀ x ∈ g.2, x.a.name ∈ nmS hash S g.1
  unloaded : w.lists.find g.1 = none → ∀ x ∈ g.2, ∀ e ∈ x.u, w.lists.find e.2 = none

theorem GTodo.keep (hc : NoCollision hash S) {p w w' g} (h : GTodo hash S G0 G1 p w g) (h1 : w.store <+: w'.store) (h2 : w'.store <+: S)
    (hg : w'.lists.find g.1 = w.lists.find g.1) (hf : ∀ x ∈ g.2, ∀ e ∈ x.u, w'.lists.find e.2 = w.lists.find e.2) : GTodo hash S G0 G1 p w' g := by
  refine ⟨?_, h.own, fun x hx => (h.parts x hx).keep hc h1 h2 (hf x hx), h.names, ?_⟩
  · rw [view_grow hc h1 h2 hg h.view]; exact h.view
  · intro hn x hx e he
    rw [hf x hx e he]
    exact h.unloaded (hg ▸ hn) x hx e he

section
variable (cfg : Cfg) (S : List Stored) (G0 G1 : Tree)

def FlushD (fuel : Nat) : Prop := ∀ (q : List Name) (w : Work) (x : Part) (a' : Asset) (w' : Work), flushDir cfg fuel x.a w = some (a', w') → w'.store <+: S →
  x.a.info.kind = .directory → Todo cfg.hash S G0 G1 q w x →
  ∃ x' : Part, x'.a = a' ∧ Done cfg.hash S G0 G1 q w' x' ∧ ∀ id, ¬ Near cfg.hash S G0 G1 q id → w'.lists.find id = w.lists.find id

def FlushL (fuel : Nat) : Prop := ∀ (p : List Name) (w : Work) (xs : List Part) (l' : List Asset) (w' : Work),
  flushList cfg fuel (xs.map Part.a) w = some (l', w') → w'.store <+: S →
  (∀ x ∈ xs, Todo cfg.hash S G0 G1 (p ++ [x.a.name]) w x) → (names xs).Nodup →
  ∃ xs' : List Part, xs'.map Part.a = l' ∧ names xs' = names xs ∧ (∀ x ∈ xs', Done cfg.hash S G0 G1 (p ++ [x.a.name]) w' x) ∧
    ∀ id, (∀ n ∈ names xs, ¬ Near cfg.hash S G0 G1 (p ++ [n]) id) → w'.lists.find id = w.lists.find id

def FlushI (fuel : Nat) : Prop := ∀ (p : List Name) (w : Work) (gs : List (Id × List Part)) (os : List Part) (ids' : List Id) (over' : List Asset) (w' : Work),
  flushIndirect cfg fuel (gs.map Prod.fst) (os.map Part.a) w = some (ids', over', w') → w'.store <+: S →
  (∀ g ∈ gs, GTodo cfg.hash S G0 G1 p w g) → gs.Pairwise (fun g h => g.1 ≠ h.1 ∧ ∀ n ∈ nmS cfg.hash S g.1, n ∉ nmS cfg.hash S h.1) →
  (∀ x ∈ os, Done cfg.hash S G0 G1 (p ++ [x.a.name]) w x) → (names (gs.flatMap Prod.snd ++ os)).Nodup →
  ∃ (gs' : List (Id × List Part)) (os' : List Part), gs'.map Prod.fst = ids' ∧ os'.map Part.a = over' ∧ (∀ g ∈ gs', Grp cfg.hash S G0 G1 p w' g) ∧
    (∀ x ∈ os', Done cfg.hash S G0 G1 (p ++ [x.a.name]) w' x) ∧
    (names (gs'.flatMap Prod.snd ++ os')).Perm (names (gs.flatMap Prod.snd ++ os)) ∧
    ∀ id, (∀ g ∈ gs, g.1 ≠ id) → (∀ g ∈ gs', g.1 ≠ id) → (∀ n ∈ names (gs.flatMap Prod.snd), ¬ Near cfg.hash S G0 G1 (p ++ [n]) id) →
      w'.lists.find id = w.lists.find id

end

variable {cfg : Cfg}

theorem flushL_succ (hc : NoCollision cfg.hash S) (hT : Unshared cfg.hash S G0 G1) {fuel : Nat} (ihD : FlushD cfg S G0 G1 fuel) (ihL : FlushL cfg S G0 G1 fuel) :
    FlushL cfg S G0 G1 (fuel + 1) := by
  intro p w xs l' w' h hs ht hn
  cases xs with
  | nil => simp only [List.map_nil, flushList] at h; cases h; exact ⟨[], rfl, rfl, by simp, fun _ _ => rfl⟩
  | cons x xs =>
    rw [List.map_cons] at h
    unfold flushList at h
    split at h
    · cases h
    rename_i b w1 h1
    split at h
    · cases h
    rename_i bs w2 h2
    cases h
    have e2 : w1.store <+: w'.store := (flush_ext fuel).2.1 _ _ _ h2
    have hs1 := e2.trans hs
    have hn' : x.a.name ∉ names xs ∧ (names xs).Nodup := List.nodup_cons.mp hn
    have htx := ht x (by simp)
    have hD : w.store <+: w1.store ∧ ∃ x' : Part, x'.a = b ∧ x'.a.name = x.a.name ∧ Done cfg.hash S G0 G1 (p ++ [x.a.name]) w1 x' ∧
        ∀ id, ¬ Near cfg.hash S G0 G1 (p ++ [x.a.name]) id → w1.lists.find id = w.lists.find id := by
      split at h1
      · rename_i hk
        refine ⟨(flush_ext fuel).1 _ _ _ h1, ?_⟩
        obtain ⟨x', k1, k2, k3⟩ := ihD _ _ _ _ _ h1 hs1 hk htx
        refine ⟨x', k1, ?_, k2, k3⟩
        rw [k1]; exact congrArg Meta.name (flushDir_info h1)
      · rename_i hk
        cases h1
        have hu : x.u = [] := by rw [htx.exp.leaf_eq hk]; rfl
        refine ⟨List.prefix_rfl, x, rfl, rfl, ⟨htx, ?_, ?_⟩, fun _ _ => rfl⟩ <;> rw [hu] <;> intro e he <;> cases he
    obtain ⟨e1, x', k1, k2, k3, k4⟩ := hD
    have ht' : ∀ y ∈ xs, Todo cfg.hash S G0 G1 (p ++ [y.a.name]) w1 y := by
      intro y hy
      have hty := ht y (by simp [hy])
      refine hty.keep hc e1 hs1 fun e he => k4 _ ?_
      exact hty.not_beside hT (fun e => hn'.1 (mem_names.mpr ⟨y, hy, e.symm⟩)) e he
    obtain ⟨xs', m1, m2, m3, m4⟩ := ihL _ _ _ _ _ h2 hs ht' hn'.2
    refine ⟨x' :: xs', by rw [List.map_cons, k1, m1], ?_, ?_, ?_⟩
    · show x'.a.name :: names xs' = x.a.name :: names xs
      rw [m2, k2]
    · intro y hy
      rcases List.mem_cons.mp hy with rfl | hy
      · rw [k2]
        refine k3.keep hc e2 hs fun e he => m4 _ fun n hn'' => ?_
        exact k3.not_beside hT (fun e => hn'.1 (e ▸ hn'')) e he
      · exact m3 y hy
    · intro id hid
      rw [m4 id fun n hn => hid n (List.mem_cons_of_mem _ hn), k4 id (hid _ (List.mem_cons_self ..))]

/-- The lists of an entry are none of those that are changed when its directory's lists are flushed. -/
theorem Todo.frame (hT : Unshared cfg.hash S G0 G1) {p : List Name} {w w1 w2 : Work} {x : Part} (h : Todo cfg.hash S G0 G1 (p ++ [x.a.name]) w x)
    {gs gs' : List (Id × List Part)} {ns : List Name} (hg : ∀ g ∈ gs, OwnId cfg.hash S G0 G1 p g.1) (hg' : ∀ g ∈ gs', OwnId cfg.hash S G0 G1 p g.1)
    (hn : x.a.name ∉ ns)
    (hf : ∀ id, (∀ g ∈ gs, g.1 ≠ id) → (∀ g ∈ gs', g.1 ≠ id) → (∀ n ∈ ns, ¬ Near cfg.hash S G0 G1 (p ++ [n]) id) →
      w2.lists.find id = w1.lists.find id) : ∀ e ∈ x.u, w2.lists.find e.2 = w1.lists.find e.2 := by
  intro e he
  refine hf _ (fun g h1 h2 => h.apart_own hT (hg g h1) e he h2.symm) (fun g h1 h2 => h.apart_own hT (hg' g h1) e he h2.symm) ?_
  intro n hn'
  exact h.not_beside hT (fun e => hn (e ▸ hn')) e he

theorem flushI_succ (hc : NoCollision cfg.hash S) (hT : Unshared cfg.hash S G0 G1) {fuel : Nat} (ihL : FlushL cfg S G0 G1 fuel) (ihI : FlushI cfg S G0 G1 fuel) :
    FlushI cfg S G0 G1 (fuel + 1) := by
  intro p w gs os ids' over' w' h hs ht ha ho hn
  cases gs with
  | nil =>
    simp only [List.map_nil, flushIndirect] at h; cases h
    exact ⟨[], os, rfl, rfl, by simp, ho, List.Perm.refl _, fun _ _ _ _ => rfl⟩
  | cons g gs =>
    have htg := ht g (by simp)
    have htgs : ∀ g' ∈ gs, GTodo cfg.hash S G0 G1 p w g' := fun g' hg' => ht g' (by simp [hg'])
    obtain ⟨ha1, ha2⟩ := List.pairwise_cons.mp ha
    rw [List.flatMap_cons, List.append_assoc, names_append] at hn
    obtain ⟨hn1, hn2, hn3⟩ := List.nodup_append.mp hn
    have hn3' : ∀ x ∈ g.2, x.a.name ∉ names (gs.flatMap Prod.snd ++ os) := fun x hx h =>
      hn3 _ (mem_names.mpr ⟨x, hx, rfl⟩) _ h rfl
    rw [List.map_cons] at h
    unfold flushIndirect at h
    split at h
    · rename_i hf
      split at h
      · cases h
      rename_i ids1 over1 w1 h1
      cases h
      have hes : w.store <+: S := ((flush_ext fuel).2.2 _ _ _ _ h1 : w.store <+: w'.store).trans hs
      have he : w.store <+: w'.store := (flush_ext fuel).2.2 _ _ _ _ h1
      obtain ⟨gs', os', k1, k2, k3, k4, k5, k6⟩ := ihI _ _ _ _ _ _ _ h1 hs htgs ha2 ho hn2
      have hstore : findAssets cfg.hash S g.1 = some (g.2.map Part.a) := by
        have := htg.view
        unfold view at this
        rw [hf] at this
        exact findAssets_mono hc hes this
      have hG : Grp cfg.hash S G0 G1 p w g := by
        refine ⟨htg.view, hstore, by have := htg.view; unfold view at this; rw [hf] at this; exact this, ?_, fun x hx => todo_unloaded hc (htg.parts x hx) hes (htg.unloaded hf x hx), htg.unloaded⟩
        obtain ⟨l, l1, l2, -⟩ := htg.own
        rw [hstore] at l1
        cases l1
        intro e; rw [e] at l2; exact l2 rfl
      have hnot : ∀ g' ∈ gs', g'.1 ≠ g.1 := by
        intro g' hg'
        refine (hG.ne_of_names (k3 g' hg') ?_).symm
        intro n h1 h2
        obtain ⟨x, hx, rfl⟩ := mem_names.mp h1
        refine hn3' x hx (k5.mem_iff.mp ?_)
        obtain ⟨y, hy, e⟩ := mem_names.mp h2
        exact mem_names.mpr ⟨y, List.mem_append_left _ (List.mem_flatMap.mpr ⟨g', hg', hy⟩), e⟩
      have hG' : Grp cfg.hash S G0 G1 p w' g := by
        refine hG.keep hc he hs (k6 _ (fun g' hg' => (ha1 g' hg').1.symm) hnot fun n _ => hG.own.not_below hT n) ?_
        intro x hx
        refine (htg.parts x hx).frame hT (fun g' hg' => (htgs g' hg').own) (fun g' hg' => (k3 g' hg').own) ?_ k6
        intro h; exact hn3' x hx (by rw [names_append]; exact List.mem_append_left _ h)
      refine ⟨g :: gs', os', by rw [List.map_cons, k1], k2, ?_, k4, ?_, ?_⟩
      · intro g' hg'
        rcases List.mem_cons.mp hg' with rfl | hg'
        · exact hG'
        · exact k3 g' hg'
      · rw [List.flatMap_cons, List.append_assoc, names_append g.2, List.flatMap_cons, List.append_assoc, names_append g.2]
        exact k5.append_left _
      · intro id h1 h2 h3
        refine k6 id (fun g' hg' => h1 g' (by simp [hg'])) (fun g' hg' => h2 g' (by simp [hg'])) fun n hn => h3 n ?_
        rw [List.flatMap_cons, names_append]; exact List.mem_append_right _ hn
    · rename_i l hf
      have hl : l = g.2.map Part.a := by
        have := htg.view
        unfold view at this
        rw [hf] at this
        exact Option.some.inj this
      subst hl
      split at h
      · cases h
      rename_i l1 w1 h1
      generalize hone : flushOneList cfg g.1 l1 (os.map Part.a) w1 = r at h
      obtain ⟨new, over2, w2⟩ := r
      dsimp only at h
      split at h
      · cases h
      rename_i ids3 over3 w3 h3
      cases h
      have e1 : w.store <+: w1.store := (flush_ext fuel).2.1 _ _ _ h1
      have e2 : w1.store <+: w2.store := by have := flushOneList_ext (cfg := cfg) (id := g.1) (l := l1) (over := os.map Part.a) (w := w1); rw [hone] at this; exact this
      have e3 : w2.store <+: w'.store := (flush_ext fuel).2.2 _ _ _ _ h3
      have s2 := e3.trans hs
      have s1 := e2.trans s2
      obtain ⟨xs1, m1, m2, m3, m4⟩ := ihL p _ _ _ _ h1 s1 htg.parts hn1
      -- what is kept when the entries of the list are flushed
      have hkeep1 : ∀ n (x : Part), Todo cfg.hash S G0 G1 (p ++ [n]) w x → n ∈ names (gs.flatMap Prod.snd ++ os) → ∀ e ∈ x.u, w1.lists.find e.2 = w.lists.find e.2 := by
        intro n x hx hnn e he
        refine m4 _ fun k hk => hx.not_beside hT (fun e => ?_) e he
        exact hn3 _ hk _ hnn e
      have hgs1 : ∀ g' ∈ gs, GTodo cfg.hash S G0 G1 p w1 g' := by
        intro g' hg'
        refine (htgs g' hg').keep hc e1 s1 (m4 _ fun n _ => (htgs g' hg').own.not_below hT n) ?_
        intro x hx
        refine hkeep1 _ x ((htgs g' hg').parts x hx) (mem_names.mpr ⟨x, List.mem_append_left _ (List.mem_flatMap.mpr ⟨g', hg', hx⟩), rfl⟩)
      have hos1 : ∀ x ∈ os, Done cfg.hash S G0 G1 (p ++ [x.a.name]) w1 x := fun x hx =>
        (ho x hx).keep hc e1 s1 (hkeep1 _ x (ho x hx).toTodo (mem_names.mpr ⟨x, List.mem_append_right _ hx, rfl⟩))
      -- the list is split
      subst m1
      obtain ⟨mv, q1, q2⟩ := enforceList_split cfg (xs1.map Part.a) (os.map Part.a)
      obtain ⟨c, d, hcd, c1, d1⟩ := List.map_eq_append_iff.mp q1
      rw [← d1, ← List.map_reverse, ← List.map_append] at q2
      have hcx : ∀ x ∈ c, x ∈ xs1 := fun x hx => by rw [hcd]; exact List.mem_append_left _ hx
      have hdx : ∀ x ∈ d, x ∈ xs1 := fun x hx => by rw [hcd]; exact List.mem_append_right _ hx
      have hod1 : ∀ x ∈ os ++ d.reverse, Done cfg.hash S G0 G1 (p ++ [x.a.name]) w1 x := by
        intro x hx
        rcases List.mem_append.mp hx with hx | hx
        · exact hos1 x hx
        · exact m3 x (hdx x (List.mem_reverse.mp hx))
      have hperm : (names (c ++ (gs.flatMap Prod.snd ++ (os ++ d.reverse)))).Perm (names (g.2 ++ (gs.flatMap Prod.snd ++ os))) := by
        have : names (g.2 ++ (gs.flatMap Prod.snd ++ os)) = names (xs1 ++ (gs.flatMap Prod.snd ++ os)) := by rw [names_append g.2, names_append xs1, m2]
        rw [this, hcd]
        refine List.Perm.map _ ?_
        rw [List.append_assoc]
        refine List.Perm.append_left _ ?_
        rw [← List.append_assoc]
        exact List.perm_append_comm.trans (List.Perm.append_right _ (List.reverse_perm d))
      have hnodup : (names (c ++ (gs.flatMap Prod.snd ++ (os ++ d.reverse)))).Nodup := by
        refine hperm.nodup_iff.mpr ?_
        rw [names_append]; exact hn
      rw [names_append] at hnodup
      obtain ⟨-, hnd2, hnd3⟩ := List.nodup_append.mp hnodup
      unfold flushOneList at hone
      dsimp only at hone
      rw [q2, ← c1] at hone
      split at hone
      · rename_i hcn
        have hcn' : c = [] := List.map_eq_nil_iff.mp hcn
        cases hone
        have hfind : ∀ id, g.1 ≠ id → (w1.lists.set g.1 (c.map Part.a)).find id = w1.lists.find id := fun id h => by
          rw [find_setL, if_neg (fun e => h e.symm)]
        have hgs2 : ∀ g' ∈ gs, GTodo cfg.hash S G0 G1 p { w1 with lists := w1.lists.set g.1 (c.map Part.a) } g' := by
          intro g' hg'
          refine (hgs1 g' hg').keep hc e2 s2 (hfind _ (ha1 g' hg').1) ?_
          intro x hx e he
          exact hfind _ (((hgs1 g' hg').parts x hx).apart_own hT htg.own e he).symm
        have hod2 : ∀ x ∈ os ++ d.reverse, Done cfg.hash S G0 G1 (p ++ [x.a.name]) { w1 with lists := w1.lists.set g.1 (c.map Part.a) } x :=
          fun x hx => (hod1 x hx).keep hc e2 s2 fun e he => hfind _ ((hod1 x hx).apart_own hT htg.own e he).symm
        obtain ⟨gs', os', k1, k2, k3, k4, k5, k6⟩ := ihI _ _ _ _ _ _ _ h3 hs hgs2 ha2 hod2 hnd2
        refine ⟨gs', os', by rw [k1]; rfl, k2, k3, k4, ?_, ?_⟩
        · refine k5.trans ?_
          rw [hcn'] at hperm
          rw [List.flatMap_cons, List.append_assoc]
          exact hperm
        · intro id h1 h2 h3
          rw [List.flatMap_cons, names_append] at h3
          rw [k6 id (fun g' hg' => h1 g' (by simp [hg'])) h2 (fun n hn => h3 n (List.mem_append_right _ hn)), hfind id (h1 g (by simp)),
            m4 id fun n hn => h3 n (List.mem_append_left _ hn)]
      · rename_i hcn
        have hcn' : c ≠ [] := fun e => hcn (by rw [e]; rfl)
        cases hone
        generalize hnew : cfg.hash (.assets (c.map Part.a)) = new at *
        have hstore : findAssets cfg.hash S new = some (c.map Part.a) := by
          rw [← hnew]
          exact findAssets_of_mem hc (s2.subset (List.mem_append_right _ (by simp)))
        have hfind : ∀ id, g.1 ≠ id → new ≠ id → ((w1.lists.erase g.1).set new (c.map Part.a)).find id = w1.lists.find id := fun id h h' => by
          rw [find_setL, if_neg (fun e => h' e.symm), find_eraseL, if_neg (fun e => h e.symm)]
        have hown : OwnId cfg.hash S G0 G1 p new := ownId_of_done hstore hcn' fun x hx => m3 x (hcx x hx)
        have hneg : ∀ g' ∈ gs, g'.1 ≠ new := by
          intro g' hg' e
          obtain ⟨x, hx⟩ := List.exists_mem_of_ne_nil _ hcn'
          have h1 : x.a.name ∈ nmS cfg.hash S g'.1 := by
            unfold nmS
            rw [e, hstore]
            simp only [Option.getD_some, List.map_map]
            exact List.mem_map.mpr ⟨x, hx, rfl⟩
          have h2 : x.a.name ∈ names g.2 := by rw [← m2]; exact mem_names.mpr ⟨x, hcx x hx, rfl⟩
          obtain ⟨y, hy, e'⟩ := mem_names.mp h2
          exact (ha1 g' hg').2 _ (htg.names y hy) (e' ▸ h1)
        have hgs2 : ∀ g' ∈ gs, GTodo cfg.hash S G0 G1 p ⟨(w1.lists.erase g.1).set new (c.map Part.a), w1.store ++ [.assets (c.map Part.a)]⟩ g' := by
          intro g' hg'
          refine (hgs1 g' hg').keep hc e2 s2 (hfind _ (ha1 g' hg').1 (hneg g' hg').symm) ?_
          intro x hx e he
          exact hfind _ (((hgs1 g' hg').parts x hx).apart_own hT htg.own e he).symm (((hgs1 g' hg').parts x hx).apart_own hT hown e he).symm
        have hkeep2 : ∀ x : Part, Done cfg.hash S G0 G1 (p ++ [x.a.name]) w1 x →
            Done cfg.hash S G0 G1 (p ++ [x.a.name]) ⟨(w1.lists.erase g.1).set new (c.map Part.a), w1.store ++ [.assets (c.map Part.a)]⟩ x :=
          fun x hx => hx.keep hc e2 s2 fun e he => hfind _ (hx.apart_own hT htg.own e he).symm (hx.apart_own hT hown e he).symm
        obtain ⟨gs', os', k1, k2, k3, k4, k5, k6⟩ := ihI _ _ _ _ _ _ _ h3 hs hgs2 ha2 (fun x hx => hkeep2 x (hod1 x hx)) hnd2
        have hG : Grp cfg.hash S G0 G1 p ⟨(w1.lists.erase g.1).set new (c.map Part.a), w1.store ++ [.assets (c.map Part.a)]⟩ (new, c) := by
          refine ⟨?_, hstore, by rw [← hnew]; exact findAssets_of_mem (hc.mono s2) (List.mem_append_right _ (by simp)), hcn',
            fun x hx => hkeep2 x (m3 x (hcx x hx)), ?_⟩
          · unfold view
            simp only [find_setL, if_true]
          · intro h
            simp only [find_setL, if_true] at h
            cases h
        have hnot : ∀ g' ∈ gs', g'.1 ≠ new := by
          intro g' hg'
          refine (hG.ne_of_names (k3 g' hg') ?_).symm
          intro n h1 h2
          refine hnd3 _ h1 _ (k5.mem_iff.mp ?_) rfl
          obtain ⟨y, hy, e⟩ := mem_names.mp h2
          exact mem_names.mpr ⟨y, List.mem_append_left _ (List.mem_flatMap.mpr ⟨g', hg', hy⟩), e⟩
        have hG' : Grp cfg.hash S G0 G1 p w' (new, c) := by
          refine hG.keep hc e3 hs (k6 _ hneg hnot fun n _ => hown.not_below hT n) ?_
          intro x hx
          refine (hG.done x hx).toTodo.frame hT (fun g' hg' => (htgs g' hg').own) (fun g' hg' => (k3 g' hg').own) ?_ k6
          intro h
          exact hnd3 _ (mem_names.mpr ⟨x, hx, rfl⟩) _ (by rw [names_append]; exact List.mem_append_left _ h) rfl
        refine ⟨(new, c) :: gs', os', by rw [List.map_cons, k1]; rfl, k2, ?_, k4, ?_, ?_⟩
        · intro g' hg'
          rcases List.mem_cons.mp hg' with rfl | hg'
          · exact hG'
          · exact k3 g' hg'
        · rw [List.flatMap_cons, List.append_assoc, names_append, List.flatMap_cons, List.append_assoc]
          refine (k5.append_left _).trans ?_
          rw [← names_append]
          exact hperm
        · intro id h1 h2 h3
          rw [List.flatMap_cons, names_append] at h3
          rw [k6 id (fun g' hg' => h1 g' (by simp [hg'])) (fun g' hg' => h2 g' (by simp [hg'])) (fun n hn => h3 n (List.mem_append_right _ hn)),
            hfind id (h1 g (by simp)) (h2 (new, c) (by simp)), m4 id fun n hn => h3 n (List.mem_append_left _ hn)]

/-- `AppendAllocatedIndirectAssets` for entries that were flushed. -/
theorem appendOverflow_parts (hc : NoCollision cfg.hash S) (hT : Unshared cfg.hash S G0 G1) {p : List Name} {w w' : Work} {m : Meta} {ds os : List Part}
    {gs : List (Id × List Part)} {a' : Asset} (h : appendOverflow cfg (.mk m (ds.map Part.a) (gs.map Prod.fst)) (os.map Part.a) w = some (a', w'))
    (hs : w'.store <+: S) (hd : ∀ x ∈ ds, Done cfg.hash S G0 G1 (p ++ [x.a.name]) w x) (ho : ∀ x ∈ os, Done cfg.hash S G0 G1 (p ++ [x.a.name]) w x)
    (hg : ∀ g ∈ gs, Grp cfg.hash S G0 G1 p w g) (hn : (names (allParts ds gs ++ os)).Nodup) :
    ∃ gs' : List (Id × List Part), a' = .mk m (ds.map Part.a) (gs'.map Prod.fst) ∧ (∀ x ∈ ds, Done cfg.hash S G0 G1 (p ++ [x.a.name]) w' x) ∧
      (∀ g ∈ gs', Grp cfg.hash S G0 G1 p w' g) ∧ (names (allParts ds gs')).Perm (names (allParts ds gs ++ os)) ∧
      ∀ id, (∀ g ∈ gs, g.1 ≠ id) → (∀ g ∈ gs', g.1 ≠ id) → w'.lists.find id = w.lists.find id := by
  have hext := appendOverflow_ext h
  unfold appendOverflow at h
  split at h
  · rename_i hov
    cases h
    have : os = [] := List.map_eq_nil_iff.mp hov
    subst this
    exact ⟨gs, rfl, hd, hg, by rw [List.append_nil], fun _ _ _ => rfl⟩
  rename_i hov
  have hone : os ≠ [] := fun e => hov (by rw [e]; rfl)
  dsimp only at h
  -- the lists that are kept, and the entries that are packed anew
  split at h
  · cases h
  rename_i ids l size w1 hs0
  have hstart : ∃ (gs0 : List (Id × List Part)) (c0 : List Part), ids = gs0.map Prod.fst ∧ l = c0.map Part.a ∧
      w1.store = w.store ∧ (∀ g ∈ gs0, g ∈ gs) ∧ (c0 ≠ [] ∨ size = 0) ∧ gs0.flatMap Prod.snd ++ c0 = gs.flatMap Prod.snd ∧
      (∀ x ∈ c0, Done cfg.hash S G0 G1 (p ++ [x.a.name]) w x) ∧
      ((∀ id, w1.lists.find id = w.lists.find id) ∨ ∃ g ∈ gs, c0 = g.2 ∧ ∀ id, g.1 ≠ id → w1.lists.find id = w.lists.find id) := by
    rcases List.eq_nil_or_concat gs with rfl | ⟨gs0, g, rfl⟩
    · simp only [Asset.indirect_mk, List.map_nil, List.getLast?_nil, Option.some.injEq, Prod.mk.injEq] at hs0
      obtain ⟨rfl, rfl, rfl, rfl⟩ := hs0
      exact ⟨[], [], rfl, rfl, rfl, by simp, .inr rfl, rfl, by simp, .inl fun _ => rfl⟩
    · rw [List.concat_eq_append] at *
      have hG := hg g (by simp)
      obtain ⟨w2, l1, l2, -⟩ := getList_loads (cfg := cfg) hG.view
      simp only [Asset.indirect_mk, List.map_append, List.map_cons, List.map_nil, List.getLast?_concat, l1, List.dropLast_concat,
        Option.some.injEq, Prod.mk.injEq] at hs0
      obtain ⟨rfl, rfl, rfl, rfl⟩ := hs0
      refine ⟨gs0, g.2, rfl, rfl, l2.store, ?_, .inl hG.ne, ?_, hG.done, ?_⟩
      · intro g' hg'; simp [hg']
      · simp
      · refine .inr ⟨g, by simp, rfl, fun id hid => ?_⟩
        simp only
        rw [find_eraseL, if_neg (fun e => hid e.symm)]
        rcases l2.find id with h1 | ⟨h1, -⟩
        · exact h1
        · exact absurd (List.mem_singleton.mp h1).symm hid
  obtain ⟨gs0, c0, rfl, rfl, e2, e3, e4, e5, e6, e7⟩ := hstart
  simp only [Option.some.injEq, Prod.mk.injEq] at h
  obtain ⟨rfl, rfl⟩ := h
  have hflat : (packAssets cfg (os.map Part.a).reverse (c0.map Part.a) size).flatten = (c0 ++ os.reverse).map Part.a := by
    rw [packAssets_flatten, List.map_append, List.map_reverse]
  obtain ⟨cs, hcs1, hcs2⟩ := parts_flatten hflat
  have hpne : ∀ l ∈ packAssets cfg (os.map Part.a).reverse (c0.map Part.a) size, l ≠ [] := by
    refine packAssets_nonempty cfg _ _ _ ?_
    rcases e4 with e4 | e4
    · exact .inl (by simpa using e4)
    · exact .inr ⟨e4, by simpa using hone⟩
  rw [← hcs1] at hpne hs hext ⊢
  have hcne : ∀ c ∈ cs, c ≠ [] := fun c hc e => hpne _ (List.mem_map.mpr ⟨c, hc, rfl⟩) (by rw [e]; rfl)
  have hst' : ∀ c ∈ cs, findAssets cfg.hash (writeBack cfg (cs.map (List.map Part.a)) w1).store (cfg.hash (.assets (c.map Part.a))) = some (c.map Part.a) := by
    intro c hc'
    refine findAssets_of_mem (hc.mono hs) ?_
    rw [writeBack_store]
    exact List.mem_append_right _ (List.mem_map.mpr ⟨_, List.mem_map.mpr ⟨c, hc', rfl⟩, rfl⟩)
  have hst : ∀ c ∈ cs, findAssets cfg.hash S (cfg.hash (.assets (c.map Part.a))) = some (c.map Part.a) := by
    intro c hc'
    refine findAssets_of_mem hc (hs.subset ?_)
    rw [writeBack_store]
    exact List.mem_append_right _ (List.mem_map.mpr ⟨_, List.mem_map.mpr ⟨c, hc', rfl⟩, rfl⟩)
  have hinj : ∀ l ∈ cs.map (List.map Part.a), ∀ l' ∈ cs.map (List.map Part.a), cfg.hash (.assets l) = cfg.hash (.assets l') → l = l' := by
    intro l hl l' hl' e
    obtain ⟨c, hc1, rfl⟩ := List.mem_map.mp hl
    obtain ⟨c', hc2, rfl⟩ := List.mem_map.mp hl'
    have h1 := hst c hc1
    rw [e, hst c' hc2] at h1
    exact (Option.some.inj h1).symm
  obtain ⟨b1, b2⟩ := writeBack_find cfg (cs.map (List.map Part.a)) w1 hinj
  generalize hw : writeBack cfg (cs.map (List.map Part.a)) w1 = w' at *
  have hcd : ∀ c ∈ cs, ∀ x ∈ c, Done cfg.hash S G0 G1 (p ++ [x.a.name]) w x := by
    intro c hc' x hx
    have : x ∈ c0 ++ os.reverse := by rw [← hcs2]; exact List.mem_flatten.mpr ⟨c, hc', hx⟩
    rcases List.mem_append.mp this with h | h
    · exact e6 x h
    · exact ho x (List.mem_reverse.mp h)
  have hcown : ∀ c ∈ cs, OwnId cfg.hash S G0 G1 p (cfg.hash (.assets (c.map Part.a))) := fun c hc' =>
    ownId_of_done (hst c hc') (hcne c hc') (hcd c hc')
  have hkeep : ∀ x : Part, Done cfg.hash S G0 G1 (p ++ [x.a.name]) w x → ∀ e ∈ x.u, w'.lists.find e.2 = w.lists.find e.2 := by
    intro x hx e he
    rw [b2 e.2]
    · rcases e7 with e7 | ⟨g, h1, -, h2⟩
      · exact e7 _
      · exact h2 _ (hx.apart_own hT (hg g h1).own e he).symm
    · intro l hl
      obtain ⟨c, hc', rfl⟩ := List.mem_map.mp hl
      exact (hx.apart_own hT (hcown c hc') e he).symm
  have hdone : ∀ x : Part, Done cfg.hash S G0 G1 (p ++ [x.a.name]) w x → Done cfg.hash S G0 G1 (p ++ [x.a.name]) w' x :=
    fun x hx => hx.keep hc hext hs (hkeep x hx)
  have hperm : (names (allParts ds (gs0 ++ cs.map fun c => (cfg.hash (.assets (c.map Part.a)), c)))).Perm (names (allParts ds gs ++ os)) := by
    refine List.Perm.map _ ?_
    unfold allParts
    rw [List.flatMap_append, List.append_assoc]
    refine List.Perm.append_left _ ?_
    have : (cs.map fun c => (cfg.hash (.assets (c.map Part.a)), c)).flatMap Prod.snd = cs.flatten := by
      rw [List.flatMap_map]; exact List.flatMap_id' (L := cs)
    rw [this, hcs2, ← List.append_assoc, e5]
    exact List.Perm.append_left _ (List.reverse_perm os)
  have hnodup := hperm.nodup_iff.mpr hn
  have hgsn : ((gs0 ++ cs.map fun c => (cfg.hash (.assets (c.map Part.a)), c)).flatMap fun g => names g.2).Nodup := by
    unfold allParts at hnodup
    rw [names_append] at hnodup
    have := (List.nodup_append.mp hnodup).2.1
    unfold names at this ⊢
    rwa [List.map_flatMap] at this
  rw [List.flatMap_append, List.nodup_append] at hgsn
  have hGc : ∀ c ∈ cs, Grp cfg.hash S G0 G1 p w' (cfg.hash (.assets (c.map Part.a)), c) := by
    intro c hc'
    have hfind := b1 _ (List.mem_map.mpr ⟨c, hc', rfl⟩)
    refine ⟨?_, hst c hc', hst' c hc', hcne c hc', fun x hx => hdone x (hcd c hc' x hx), fun h => ?_⟩
    · unfold view; rw [hfind]
    · rw [hfind] at h; cases h
  have hG0 : ∀ g ∈ gs0, Grp cfg.hash S G0 G1 p w' g := by
    intro g hg0
    have hG := hg g (e3 g hg0)
    refine hG.keep hc hext hs ?_ fun x hx => hkeep x (hG.done x hx)
    rw [b2]
    · rcases e7 with e7 | ⟨g1, h1, h2, h3⟩
      · exact e7 _
      · refine h3 _ ?_
        refine ((hG.ne_of_names (hg g1 h1) ?_)).symm
        intro n k1 k2
        have hnn : (names (gs0.flatMap Prod.snd ++ c0)).Nodup := by
          rw [e5]
          unfold allParts at hn
          rw [names_append, names_append] at hn
          exact (List.nodup_append.mp (List.nodup_append.mp hn).1).2.1
        rw [names_append] at hnn
        obtain ⟨x, hx, rfl⟩ := mem_names.mp k1
        refine (List.nodup_append.mp hnn).2.2 _ (mem_names.mpr ⟨x, List.mem_flatMap.mpr ⟨g, hg0, hx⟩, rfl⟩) _ ?_ rfl
        rw [h2]; exact k2
    · intro l hl
      obtain ⟨c, hc', rfl⟩ := List.mem_map.mp hl
      refine (hG.ne_of_names (hGc c hc') ?_).symm
      intro n k1 k2
      exact hgsn.2.2 n (List.mem_flatMap.mpr ⟨g, hg0, k1⟩) n (List.mem_flatMap.mpr ⟨_, List.mem_map.mpr ⟨c, hc', rfl⟩, k2⟩) rfl
  refine ⟨gs0 ++ cs.map fun c => (cfg.hash (.assets (c.map Part.a)), c), ?_, fun x hx => hdone x (hd x hx), ?_, hperm, ?_⟩
  · simp only [Asset.info_mk, Asset.children_mk, List.map_append, List.map_map, Function.comp_def]
  · intro g hg'
    rcases List.mem_append.mp hg' with h | h
    · exact hG0 g h
    · obtain ⟨c, hc', rfl⟩ := List.mem_map.mp h
      exact hGc c hc'
  · intro id h1 h2
    rw [b2]
    · rcases e7 with e7 | ⟨g1, k1, -, k3⟩
      · exact e7 _
      · exact k3 _ (h1 g1 k1)
    · intro l hl
      obtain ⟨c, hc', rfl⟩ := List.mem_map.mp hl
      exact h2 _ (List.mem_append_right _ (List.mem_map.mpr ⟨c, hc', rfl⟩))

theorem rd_ascending {a : Asset} (h : Rd hash S a.info) : Ascending a := h.1

theorem flushD_succ (hc : NoCollision cfg.hash S) (hT : Unshared cfg.hash S G0 G1) (hsort : ∀ l, (cfg.sort l).Perm l) {fuel : Nat}
    (ihL : FlushL cfg S G0 G1 fuel) (ihI : FlushI cfg S G0 G1 fuel) : FlushD cfg S G0 G1 (fuel + 1) := by
  intro q w x a' w' h hs hk ht
  obtain ⟨m, ds, gs, rfl, hok⟩ := ht.exp.cases'
  have hk : m.kind = .directory := hk
  have hdis : (names (allParts ds gs)).Nodup := distinct_of_tidy hok ht.tidy
  have htall : ∀ x ∈ allParts ds gs, Todo cfg.hash S G0 G1 (q ++ [x.a.name]) w x := by
    intro x hx
    refine ⟨hok.all x hx, tidy_part ht.tidy hx, fun e he => ?_, fun r => ?_⟩
    · have := ht.own _ (mem_u_sub hx he)
      rw [List.append_assoc]; exact this
    · have := ht.reads (x.a.name :: r)
      rw [List.append_assoc]
      refine Eq.trans ?_ this
      unfold reads
      rw [look_part hok ht.tidy hx]
  unfold flushDir at h
  split at h
  · cases h
  rename_i cs1 w1 h1
  split at h
  · cases h
  rename_i ids2 over2 w2 h2
  split at h
  · cases h
  rename_i dir3 over3 w3 h3
  have e1 : w.store <+: w1.store := (flush_ext fuel).2.1 _ _ _ h1
  have e2 : w1.store <+: w2.store := (flush_ext fuel).2.2 _ _ _ _ h2
  have e3 := enforceDir_ext h3
  have e4 := appendOverflow_ext h
  have s3 := e4.trans hs
  have s2 := e3.trans s3
  have s1 := e2.trans s2
  have hdis' := hdis
  unfold allParts at hdis'
  rw [names_append] at hdis'
  obtain ⟨hd1, hd2, hd3⟩ := List.nodup_append.mp hdis'
  have hown : ∀ g ∈ gs, OwnId cfg.hash S G0 G1 q g.1 := fun g hg => by
    have := ht.own _ (mem_u_own hg)
    rwa [List.append_nil] at this
  obtain ⟨ds1, m1, m2, m3, m4⟩ := ihL q w ds cs1 w1 h1 s1 (fun x hx => htall x (mem_allParts.mpr (.inl hx))) hd1
  have hgs1 : ∀ g ∈ gs, GTodo cfg.hash S G0 G1 q w1 g := by
    intro g hg
    refine GTodo.keep hc (w := w) ⟨hok.lists g hg, hown g hg, fun x hx => htall x (mem_allParts.mpr (.inr ⟨g, hg, hx⟩)), hok.names g hg, hok.unloaded g hg⟩ e1 s1
      (m4 _ fun n _ => (hown g hg).not_below hT n) ?_
    intro x hx e he
    refine m4 _ fun n hn => (htall x (mem_allParts.mpr (.inr ⟨g, hg, hx⟩))).not_beside hT (fun e => ?_) e he
    exact hd3 _ hn _ (mem_names.mpr ⟨x, List.mem_flatMap.mpr ⟨g, hg, hx⟩, rfl⟩) e
  obtain ⟨gs2, os2, k1, k2, k3, k4, k5, k6⟩ := ihI q w1 gs [] ids2 over2 w2 h2 s2 hgs1 hok.apart (by simp) (by rw [List.append_nil]; exact hd2)
  rw [List.append_nil] at k5
  have hds2 : ∀ x ∈ ds1, Done cfg.hash S G0 G1 (q ++ [x.a.name]) w2 x := by
    intro x hx
    refine (m3 x hx).keep hc e2 s2 ((m3 x hx).frame hT hown (fun g hg => (k3 g hg).own) ?_ k6)
    intro hn
    refine hd3 x.a.name ?_ _ hn rfl
    rw [← m2]; exact mem_names.mpr ⟨x, hx, rfl⟩
  subst m1 k1 k2
  -- the directory's size is limited
  have hdo2 : ∀ x ∈ ds1 ++ os2, Done cfg.hash S G0 G1 (q ++ [x.a.name]) w2 x := by
    intro x hx
    rcases List.mem_append.mp hx with hx | hx
    · exact hds2 x hx
    · exact k4 x hx
  obtain ⟨f1, f2, f3, -, pl, f4, f5⟩ := enforceDir_enf (S := S) hsort h3 (by
    intro a ha
    simp only [Asset.children_mk] at ha
    rw [← List.map_append] at ha
    obtain ⟨x, hx, rfl⟩ := List.mem_map.mp ha
    exact rd_ascending (by rw [← (hdo2 x hx).exp.info]; exact (hdo2 x hx).tidy.fields)) hc s3
  simp only [Asset.children_mk, ← List.map_append] at f5
  obtain ⟨ys, y1, y2, y3⟩ := done_enf hc hdo2 f5 f3 e3 s3
  rw [← y1] at f4
  obtain ⟨c, c2, c1⟩ := perm_parts f4.symm
  obtain ⟨ds3, os3, rfl, d1, d2⟩ := List.map_eq_append_iff.mp c1
  have hdo3 : ∀ x ∈ ds3 ++ os3, Done cfg.hash S G0 G1 (q ++ [x.a.name]) w3 x := fun x hx => y3 x (c2.mem_iff.mp hx)
  have hgs3 : ∀ g ∈ gs2, Grp cfg.hash S G0 G1 q w3 g := fun g hg =>
    (k3 g hg).keep hc e3 s3 (by rw [f3]) fun x _ e _ => by rw [f3]
  have hdir : dir3 = .mk m (ds3.map Part.a) (gs2.map Prod.fst) := by
    cases dir3 with
    | mk m3 c3 i3 =>
      simp only [Asset.info_mk, Asset.indirect_mk, Asset.children_mk] at f1 f2 d1
      rw [f1, f2, ← d1]; rfl
  rw [hdir, ← d2] at h
  have hp3 : (names (allParts ds3 gs2 ++ os3)).Perm (names (allParts ds gs)) := by
    have a1 : (names (allParts ds3 gs2 ++ os3)).Perm (names ((ds3 ++ os3) ++ gs2.flatMap Prod.snd)) := by
      refine List.Perm.map _ ?_
      unfold allParts
      rw [List.append_assoc, List.append_assoc]
      exact List.Perm.append_left _ List.perm_append_comm
    have a2 : (names ((ds3 ++ os3) ++ gs2.flatMap Prod.snd)).Perm (names ((ds1 ++ os2) ++ gs2.flatMap Prod.snd)) := by
      rw [names_append (ds3 ++ os3), names_append (ds1 ++ os2)]
      refine List.Perm.append_right _ ?_
      have : names ys = names (ds1 ++ os2) := y2
      rw [← this]; exact c2.map _
    have a3 : (names ((ds1 ++ os2) ++ gs2.flatMap Prod.snd)).Perm (names (ds1 ++ (gs2.flatMap Prod.snd ++ os2))) := by
      refine List.Perm.map _ ?_
      rw [List.append_assoc]
      exact List.Perm.append_left _ List.perm_append_comm
    refine a1.trans (a2.trans (a3.trans ?_))
    unfold allParts
    rw [names_append ds1, names_append ds, m2]
    exact List.Perm.append_left _ k5
  obtain ⟨gs4, g1, g2, g3, g4, g5⟩ := appendOverflow_parts hc hT h hs (fun x hx => hdo3 x (List.mem_append_left _ hx))
    (fun x hx => hdo3 x (List.mem_append_right _ hx)) hgs3 (hp3.nodup_iff.mpr hdis)
  refine ⟨dirPart m ds3 gs4, g1.symm, done_dir hok ht hk g2 g3 (g4.trans hp3), ?_⟩
  intro id hid
  have hno : ∀ {i : Id}, OwnId cfg.hash S G0 G1 q i → i ≠ id := fun ho e => hid ⟨q, List.prefix_rfl, e ▸ ho⟩
  have hno' : ∀ n, ¬ Near cfg.hash S G0 G1 (q ++ [n]) id := fun n hn => hid (hn.mono (List.prefix_append ..))
  rw [g5 id (fun g hg => hno (hgs3 g hg).own) (fun g hg => hno (g3 g hg).own), f3,
    k6 id (fun g hg => hno (hown g hg)) (fun g hg => hno (k3 g hg).own) (fun n _ => hno' n), m4 id (fun n _ => hno' n)]

theorem flush_parts (hc : NoCollision cfg.hash S) (hT : Unshared cfg.hash S G0 G1) (hsort : ∀ l, (cfg.sort l).Perm l) (fuel : Nat) :
    FlushD cfg S G0 G1 fuel ∧ FlushL cfg S G0 G1 fuel ∧ FlushI cfg S G0 G1 fuel := by
  induction fuel with
  | zero =>
    refine ⟨?_, ?_, ?_⟩
    · intro q w x a' w' h; simp [flushDir] at h
    · intro p w xs l' w' h; simp [flushList] at h
    · intro p w gs os i o w' h; simp [flushIndirect] at h
  | succ fuel ih => exact ⟨flushD_succ hc hT hsort ih.2.1 ih.2.2, flushL_succ hc hT ih.1 ih.2.1, flushI_succ hc hT ih.2.1 ih.2.2⟩

end Verif.Manifest
