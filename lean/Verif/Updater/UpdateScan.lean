import Verif.Updater.Update

/-! # Scanning a directory in a manifest (C81) -/
namespace Verif.Updater
open Verif.Manifest

section
variable {cfg : Cfg} {S : List Stored} {b : Builder} {G F : Tree} {x : Part}

/-- `b'` is what `b` became; only lists of directories on the way to `p` changed in memory. -/
structure Goes (p : List Name) (x : Part) (b : Builder) (x' : Part) (b' : Builder) : Prop where
  sub : ∀ e ∈ x'.u, e ∈ x.u
  frame : ∀ e ∈ x'.u, ¬ e.1 <+: p → Lists.find b'.lists e.2 = Lists.find b.lists e.2
  store : b'.store = b.store

theorem Goes.refl (p : List Name) (x : Part) (b : Builder) : Goes p x b x b := ⟨fun _ h => h, fun _ _ _ => rfl, rfl⟩

theorem Goes.trans {p : List Name} {x x' x'' : Part} {b b' b'' : Builder} (h : Goes p x b x' b') (h' : Goes p x' b' x'' b'') : Goes p x b x'' b'' :=
  ⟨fun e he => h.sub e (h'.sub e he), fun e he hn => (h'.frame e he hn).trans (h.frame e (h'.sub e he) hn), h'.store.trans h.store⟩

theorem Goes.weaken {p p' : List Name} {x x' : Part} {b b' : Builder} (h : Goes p x b x' b') (hp : p <+: p') : Goes p' x b x' b' :=
  ⟨h.sub, fun e he hn => h.frame e he fun hh => hn (hh.trans hp), h.store⟩

/-- The lists of what is at `p` and below are not changed in memory. -/
def Untouched (hash : Stored → Id) (x : Part) (b : Builder) (p : List Name) : Prop :=
  ∀ e ∈ x.u, p <+: e.1 → view hash ⟨b.lists, b.store⟩ e.2 = findAssets hash b.store e.2

theorem Goes.untouched {hash : Stored → Id} {p q : List Name} {x x' : Part} {b b' : Builder} (h : Goes p x b x' b') (hq : ¬ q <+: p)
    (hu : Untouched hash x b q) : Untouched hash x' b' q := by
  intro e he hqe
  have h1 := hu e (h.sub e he) hqe
  unfold view at h1 ⊢
  have h2 := h.frame e he fun hh => hq (hqe.trans hh)
  simp only at h1 ⊢
  rw [h2, h.store]; exact h1

/-- The builder `b'` stands for `F'`. -/
def To (cfg : Cfg) (S : List Stored) (G : Tree) (p : List Name) (x : Part) (b b' : Builder) (F' : Tree) : Prop :=
  ∃ x', Inv cfg.hash S b' G F' x' ∧ Goes p x b x' b'

theorem becomes_to {b' : Builder} {F' : Tree} {p : List Name} (h : Becomes cfg.hash S G x b b' F' p) (hs : b'.store = b.store) : To cfg S G p x b b' F' := by
  obtain ⟨x', h1, h2, h3⟩ := h
  exact ⟨x', h1, h2, fun e he hn => h3 e (h2 e he) hn, hs⟩

theorem inv_putForce (hx : Inv cfg.hash S b G F x) {kind : Kind} {p : List Name} {n : Name} {g : Meta → Meta} (hg : Change g) :
    ∃ b', editAsset cfg kind true p n (onInfo g) b = .ok b' ∧ To cfg S G p x b b' (F.put (newMeta cfg) (p ++ [n]) kind g) := by
  have : ∃ b', editAsset cfg kind true p n (onInfo g) b = .ok b' := by
    unfold editAsset
    rcases inDirPath_put' (fun n k => rd_new cfg n k) hg.field (kind := kind) (force := true) (name := n) p hx.exp hx.func hx.tidy hx.dir with
      ⟨x', w', r, k1, -⟩ | ⟨e, -, k1, -⟩
    · rw [hx.root] at k1
      rw [k1]; exact ⟨_, rfl⟩
    · cases k1
  obtain ⟨b', hb⟩ := this
  exact ⟨b', hb, becomes_to (hx.edit hg hb) (editAsset_store hb)⟩

theorem inv_deleteAny (hx : Inv cfg.hash S b G F x) {p : List Name} {n : Name} :
    ∃ b', deleteAsset cfg p n b = .ok b' ∧ To cfg S G p x b b' (F.delete (p ++ [n])) := by
  have : ∃ b', deleteAsset cfg p n b = .ok b' := by
    unfold deleteAsset
    rcases inDirPath_delete' (cfg := cfg) (fun n k => rd_new cfg n k) (name := n) p hx.exp hx.func hx.tidy hx.dir with
      ⟨x', w', r, k1, -⟩ | ⟨e, k1, k2, -⟩
    · rw [hx.root] at k1
      rw [k1]; exact ⟨_, rfl⟩
    · rw [hx.root] at k1
      rw [k1]
      rcases k2 with rfl | rfl <;> exact ⟨_, rfl⟩
  obtain ⟨b', hb⟩ := this
  exact ⟨b', hb, becomes_to (hx.delete hb) (deleteAsset_store hb)⟩

/-! ### The loops of `ApplyOperations` -/

theorem deleteAll_ok (p : List Name) : ∀ (ops : List Oper) {b : Builder} {F : Tree} {x : Part}, Inv cfg.hash S b G F x →
    ∃ b' F', deleteAll cfg p ops b = .ok b' ∧ To cfg S G p x b b' F' ∧
      (∀ r i, .delete i ∈ ops → p ++ [i.name] <+: r → F' r = none) ∧
      (∀ r, (∀ i, .delete i ∈ ops → ¬ p ++ [i.name] <+: r) → F' r = F r) ∧ ∀ r, F' r = none ∨ F' r = F r := by
  intro ops
  induction ops with
  | nil => intro b F x hx; exact ⟨b, F, rfl, ⟨x, hx, .refl ..⟩, by simp, fun _ _ => rfl, fun _ => .inr rfl⟩
  | cons o ops ih =>
    intro b F x hx
    by_cases ho : ∃ i, o = .delete i
    · obtain ⟨i, rfl⟩ := ho
      obtain ⟨b1, e1, x1, hx1, g1⟩ := inv_deleteAny (p := p) (n := i.name) hx
      obtain ⟨b2, F2, e2, ⟨x2, hx2, g2⟩, k1, k2, k3⟩ := ih hx1
      refine ⟨b2, F2, ?_, ⟨x2, hx2, g1.trans g2⟩, ?_, ?_, ?_⟩
      · rw [deleteAll, e1]; exact e2
      · intro r j hj hp
        rcases List.mem_cons.mp hj with h | h
        · cases h
          rcases k3 r with h | h
          · exact h
          · rw [h]; unfold Tree.delete; rw [if_pos hp]
        · exact k1 r j h hp
      · intro r hr
        rw [k2 r fun j hj => hr j (by simp [hj])]
        unfold Tree.delete
        rw [if_neg (hr i (by simp))]
      · intro r
        rcases k3 r with h | h
        · exact .inl h
        · rw [h]; unfold Tree.delete; split
          · exact .inl rfl
          · exact .inr rfl
    · obtain ⟨b2, F2, e2, h2, k1, k2, k3⟩ := ih hx
      refine ⟨b2, F2, ?_, h2, ?_, ?_, k3⟩
      · rw [← e2]
        cases o with
        | delete i => exact absurd ⟨i, rfl⟩ ho
        | _ => rfl
      · intro r j hj hp
        rcases List.mem_cons.mp hj with h | h
        · exact absurd ⟨j, h.symm⟩ ho
        · exact k1 r j h hp
      · intro r hr
        exact k2 r fun j hj => hr j (by simp [hj])

/-- The assets that an operation puts into the queue. -/
def toQ (p : List Name) : Oper → Todo
  | .add i => toQueueAt p i
  | .update i => toQueueAt p i
  | _ => []

/-- The fields of a new asset and everything else that `GetOrCreateAsset` finds. -/
def base (cfg : Cfg) (F : Tree) (p : List Name) (i : Info) : Meta :=
  if F.isKind (p ++ [i.name]) i.kind then (F (p ++ [i.name])).getD default else newMeta cfg i.name i.kind

/-- `o` creates or changes an asset. -/
def Oper.writes : Oper → Prop
  | .add _ => True
  | .update _ => True
  | _ => False

theorem setMeta_name (i : Info) (m : Meta) : (setMeta i m).name = m.name := (setMeta_change i).name m

theorem setMeta_fields (i : Info) (m : Meta) (hm : m.chunks = []) (hi : m.indirect = []) : (setMeta i m).chunks = [] ∧ (setMeta i m).indirect = [] := by
  unfold setMeta setters
  simp only [Asset.info_mk]
  split
  · exact ⟨rfl, rfl⟩
  · split
    · exact ⟨hm, hi⟩
    · exact ⟨hm, hi⟩

theorem not_prefix_self (p : List Name) (n : Name) : ¬ p ++ [n] <+: p := fun h => by
  have := h.length_le
  simp at this; omega

theorem prefix_names {p : List Name} {n k : Name} {r : List Name} (h : p ++ [n] <+: p ++ k :: r) : n = k := by
  rw [List.prefix_append_right_inj] at h
  obtain ⟨t, h⟩ := h
  exact (List.cons.inj h).1

theorem isKind_congr {F F' : Tree} {t : List Name} {k : Kind} (h : F t = F' t) : F.isKind t k ↔ F'.isKind t k := by
  unfold Tree.isKind; rw [h]

theorem base_congr {F F' : Tree} {p : List Name} {i : Info} (h : F (p ++ [i.name]) = F' (p ++ [i.name])) : base cfg F p i = base cfg F' p i := by
  unfold base
  rw [h]
  exact if_congr (isKind_congr h) rfl rfl

theorem addAll_ok (p : List Name) : ∀ (ops : List Oper) {b : Builder} {F : Tree} {x : Part} (q : Todo), Inv cfg.hash S b G F x → F.isDir p →
    (ops.map fun o => o.info.name).Nodup → (∀ i, .add i ∈ ops → F (p ++ [i.name]) = none) →
    ∃ b' F', addAll cfg p ops b q = .ok (b', q ++ ops.flatMap (toQ p)) ∧ To cfg S G p x b b' F' ∧
      (∀ r, (∀ o ∈ ops, o.writes → ¬ p ++ [o.info.name] <+: r) → F' r = F r) ∧
      (∀ i, .add i ∈ ops → F' (p ++ [i.name]) = some (setMeta i { name := i.name, kind := i.kind }) ∧ ∀ r, r ≠ [] → F' (p ++ i.name :: r) = none) ∧
      (∀ i, .update i ∈ ops → F' (p ++ [i.name]) = some (setMeta i (base cfg F p i)) ∧
        ∀ r, r ≠ [] → F' (p ++ i.name :: r) = if F.isKind (p ++ [i.name]) i.kind then F (p ++ i.name :: r) else none) := by
  intro ops
  induction ops with
  | nil => intro b F x q hx _ _ _; exact ⟨b, F, by simp [addAll], ⟨x, hx, .refl ..⟩, fun _ _ => rfl, by simp, by simp⟩
  | cons o ops ih =>
    intro b F x q hx hd hn ha
    rw [List.map_cons, List.nodup_cons] at hn
    have hne : ∀ o' ∈ ops, o'.info.name ≠ o.info.name := fun o' ho' e => hn.1 (List.mem_map.mpr ⟨o', ho', e⟩)
    have hcl := inv_closed hx
    -- one operation, then the rest
    have step : ∀ (b1 : Builder) (F1 : Tree) (x1 : Part) (q1 : Todo), Inv cfg.hash S b1 G F1 x1 → Goes p x b x1 b1 →
        (∀ r, ¬ p ++ [o.info.name] <+: r → F1 r = F r) → addAll cfg p (o :: ops) b q = addAll cfg p ops b1 (q ++ toQ p o) →
        (¬ o.writes → F1 = F) →
        (∀ i, o = .add i → F1 (p ++ [i.name]) = some (setMeta i { name := i.name, kind := i.kind }) ∧ ∀ r, r ≠ [] → F1 (p ++ i.name :: r) = none) →
        (∀ i, o = .update i → F1 (p ++ [i.name]) = some (setMeta i (base cfg F p i)) ∧
          ∀ r, r ≠ [] → F1 (p ++ i.name :: r) = if F.isKind (p ++ [i.name]) i.kind then F (p ++ i.name :: r) else none) →
        ∃ b' F', addAll cfg p (o :: ops) b q = .ok (b', q ++ (o :: ops).flatMap (toQ p)) ∧ To cfg S G p x b b' F' ∧
          (∀ r, (∀ o' ∈ o :: ops, o'.writes → ¬ p ++ [o'.info.name] <+: r) → F' r = F r) ∧
          (∀ i, .add i ∈ o :: ops → F' (p ++ [i.name]) = some (setMeta i { name := i.name, kind := i.kind }) ∧
            ∀ r, r ≠ [] → F' (p ++ i.name :: r) = none) ∧
          (∀ i, .update i ∈ o :: ops → F' (p ++ [i.name]) = some (setMeta i (base cfg F p i)) ∧
            ∀ r, r ≠ [] → F' (p ++ i.name :: r) = if F.isKind (p ++ [i.name]) i.kind then F (p ++ i.name :: r) else none) := by
      intro b1 F1 x1 q1 hx1 g1 hrest hrun hkeep hadd hupd
      have hsame : ∀ o' ∈ ops, ∀ r, F1 (p ++ o'.info.name :: r) = F (p ++ o'.info.name :: r) := fun o' ho' r =>
        hrest _ fun hp => hne o' ho' (prefix_names hp).symm
      have hd1 : F1.isDir p := by unfold Tree.isDir; rw [hrest p (not_prefix_self p _)]; exact hd
      obtain ⟨b2, F2, e2, ⟨x2, hx2, g2⟩, k1, k2, k3⟩ := ih (q ++ toQ p o) hx1 hd1 hn.2 (fun i hi => by
        exact (hsame _ hi []).trans (ha i (by simp [hi])))
      have hkeepo : ∀ r, F2 (p ++ o.info.name :: r) = F1 (p ++ o.info.name :: r) := fun r =>
        k1 _ fun o' ho' _ hp => hne o' ho' (prefix_names hp)
      refine ⟨b2, F2, ?_, ⟨x2, hx2, g1.trans g2⟩, ?_, ?_, ?_⟩
      · rw [hrun, e2, List.flatMap_cons, List.append_assoc]
      · intro r hr
        rw [k1 r fun o' ho' hw => hr o' (by simp [ho']) hw]
        by_cases hw : o.writes
        · exact hrest r (hr o (by simp) hw)
        · rw [hkeep hw]
      · intro i hi
        rcases List.mem_cons.mp hi with h | h
        · subst h
          exact ⟨(hkeepo []).trans (hadd i rfl).1, fun r hr => (hkeepo r).trans ((hadd i rfl).2 r hr)⟩
        · exact k2 i h
      · intro i hi
        rcases List.mem_cons.mp hi with h | h
        · subst h
          exact ⟨(hkeepo []).trans (hupd i rfl).1, fun r hr => (hkeepo r).trans ((hupd i rfl).2 r hr)⟩
        · obtain ⟨j1, j2⟩ := k3 i h
          have h0 : F1 (p ++ [i.name]) = F (p ++ [i.name]) := hsame _ h []
          have hb : base cfg F1 p i = base cfg F p i := base_congr h0
          rw [hb] at j1
          refine ⟨j1, fun r hr => ?_⟩
          rw [j2 r hr]
          have h1 : F1 (p ++ i.name :: r) = F (p ++ i.name :: r) := hsame _ h r
          rw [h1]
          exact if_congr (isKind_congr h0) rfl rfl
    cases o with
    | delete i => exact step b F x q hx (.refl ..) (fun _ _ => rfl) (by simp [addAll, toQ]) (fun _ => rfl) (by simp) (by simp)
    | keep i => exact step b F x q hx (.refl ..) (fun _ _ => rfl) (by simp [addAll, toQ]) (fun _ => rfl) (by simp) (by simp)
    | add i =>
      have hf := setMeta_fields i { name := i.name, kind := i.kind } rfl rfl
      have hnm : (setMeta i { name := i.name, kind := i.kind }).name = i.name := setMeta_name ..
      have hnone : F (p ++ [i.name]) = none := ha i (by simp)
      obtain ⟨b1, e1, h1⟩ := hx.append (path := p) (m := setMeta i { name := i.name, kind := i.kind }) hd (by rw [hnm]; exact hnone) hf.1 hf.2
      obtain ⟨x1, hx1, g1⟩ := becomes_to h1 (atDir_store e1)
      rw [hnm] at hx1
      have hnd : ¬ F.isDir (p ++ [i.name]) := by rintro ⟨m, hm, -⟩; rw [hnone] at hm; cases hm
      refine step b1 _ x1 q hx1 g1 (fun r hr => ?_) ?_ (fun h => absurd trivial h) ?_ (by simp)
      · unfold Tree.add
        rw [if_neg (by rintro rfl; exact hr List.prefix_rfl)]
      · rw [addAll, e1]; rfl
      · rintro j hj
        cases hj
        refine ⟨by unfold Tree.add; rw [if_pos rfl], fun r hr => ?_⟩
        unfold Tree.add
        rw [if_neg (by simpa using hr)]
        have := hx.below hnd hr
        rwa [List.append_assoc] at this
    | update i =>
      obtain ⟨b1, e1, x1, hx1, g1⟩ := inv_putForce (kind := i.kind) (p := p) (n := i.name) hx (setMeta_change i)
      rw [← setters_eq] at e1
      have hput := fun q => put_in (new := newMeta cfg) hcl hd i.name i.kind (setMeta i) q
      refine step b1 _ x1 q hx1 g1 (fun r hr => ?_) ?_ (fun h => absurd trivial h) (by simp) ?_
      · have hr : ¬ p ++ [i.name] <+: r := hr
        rw [hput, if_neg (by rintro rfl; exact hr List.prefix_rfl), if_neg hr]
      · rw [addAll, e1]; rfl
      · rintro j hj
        cases hj
        refine ⟨by rw [hput, if_pos rfl]; rfl, fun r hr => ?_⟩
        rw [hput, if_neg (by simpa using hr), if_pos]
        rw [List.prefix_append_right_inj]
        exact ⟨r, rfl⟩

/-! ### What the scanner sees -/

theorem findDir_ok (hx : Inv cfg.hash S b G F x) {p : List Name} (hd : F.isDir p) (hu : Untouched cfg.hash x b p) :
    ∃ b' x', findDir cfg p b = .ok b' ∧ Inv cfg.hash S b' G F x' ∧ Goes p x b x' b' ∧ Untouched cfg.hash x' b' p := by
  rcases List.eq_nil_or_concat p with rfl | ⟨p0, n, rfl⟩
  · exact ⟨b, x, rfl, hx, .refl .., hu⟩
  · rw [List.concat_eq_append] at *
    obtain ⟨b1, e1, x1, hx1, g1⟩ := inv_putForce (kind := .directory) (p := p0) (n := n) (g := fun m => m) hx ⟨fun _ => rfl, fun _ => rfl, .inl fun _ _ _ => rfl⟩
    rw [put_same (inv_closed hx) hd] at hx1
    refine ⟨b1, x1, ?_, hx1, g1.weaken (List.prefix_append ..), g1.untouched (not_prefix_self p0 n) hu⟩
    unfold findDir
    rw [List.getLast?_append]
    simp only [List.getLast?_singleton, Option.some_or, List.dropLast_concat]
    exact e1

/-- `AssetInfo` of an asset. -/
def infoMeta (n : Name) (m : Meta) : Info := ⟨n, m.kind, m.mtime, if m.kind = .directory then 0 else m.fileSize⟩

theorem infoMeta_seen {hash : Stored → Id} {m m' : Meta} (n : Name) (h : seen hash S (.mk m [] []) = some m') : infoMeta n m' = infoMeta n m := by
  unfold seen at h
  obtain ⟨cs, -, rfl⟩ := Option.map_eq_some_iff.mp h
  rfl

theorem scan_sees (hx : Inv cfg.hash S b G F x) {p : List Name} (hd : F.isDir p) (hu : Untouched cfg.hash x b p) (listing : List Info) :
    ∃ d man, dirAt cfg.hash ⟨b.lists, b.store⟩ p b.root = some d ∧ (d.indirect.filter fun id => (findAssets cfg.hash b.store id).isNone) = [] ∧
      (scan cfg listing d b.store).2 = compareAssets (sortInfos listing) (sortInfos man) ∧ (man.map Info.name).Nodup ∧
      ∀ i, i ∈ man ↔ ∃ m, F (p ++ [i.name]) = some m ∧ i = infoMeta i.name m := by
  have hl : look x.t p ≠ none := by
    obtain ⟨m, hm, -⟩ := (hx.isDir p).mpr hd
    rw [hm]; simp
  obtain ⟨y, y1, y2, y3, y4, y5⟩ := part_at p hx.exp hx.tidy hl
  obtain ⟨m0, ds, gs, rfl, hok⟩ := y2.cases'
  have hst : ∀ g ∈ gs, findAssets cfg.hash b.store g.1 = some (g.2.map Part.a) := by
    intro g hg
    have h1 := hu (p ++ [], g.1) (y5 ([], g.1) (mem_u_own hg)) (List.prefix_append ..)
    rw [← h1]
    exact hok.lists g hg
  have hsome : ∀ id ∈ gs.map Prod.fst, (findAssets cfg.hash b.store id).isSome := by
    intro id hid
    obtain ⟨g, hg, rfl⟩ := List.mem_map.mp hid
    rw [hst g hg]; rfl
  rw [hx.root] at y1
  have hF : ∀ n, F (p ++ [n]) = (look (dirPart m0 ds gs).t [n]).bind fun m => seen cfg.hash S (.mk m [] []) := by
    intro n
    rw [← hx.reads]
    unfold reads
    rw [y4]
  refine ⟨(dirPart m0 ds gs).a, (allParts ds gs).map fun y => infoOf y.a, y1, ?_, ?_, ?_, ?_⟩
  · rw [List.filter_eq_nil_iff]
    intro id hid
    have := hsome id hid
    simp only [Option.isNone_iff_eq_none]
    intro h0; rw [h0] at this; cases this
  · unfold scan
    simp only
    have hfil : (dirPart m0 ds gs).a.indirect.filter (fun id => (findAssets cfg.hash b.store id).isSome) = gs.map Prod.fst := by
      show (gs.map Prod.fst).filter _ = _
      rw [List.filter_eq_self]
      intro id hid; exact hsome id hid
    rw [hfil, filterMap_groups hst]
    congr 2
    show List.map infoOf (ds.map Part.a ++ _) = _
    rw [allParts, List.map_append, List.map_append, List.map_map, List.map_map]; rfl
  · have hD := distinct_of_tidy hok y3
    unfold Distinct at hD
    rw [List.map_map]; exact hD
  · intro i
    rw [hF]
    constructor
    · intro hi
      obtain ⟨z, hz, rfl⟩ := List.mem_map.mp hi
      have h1 : look (dirPart m0 ds gs).t [z.a.name] = some z.a.info := by
        rw [look_part hok y3 hz, look_nil, (hok.all z hz).info]
      have h1 : look (dirPart m0 ds gs).t [(infoOf z.a).name] = some z.a.info := h1
      rw [h1]
      obtain ⟨m', hm'⟩ := rd_seen (hash := cfg.hash) (S := S) (m := z.a.info) (by
        have := (tidy_part y3 hz).fields; rwa [(hok.all z hz).info] at this)
      refine ⟨m', hm', ?_⟩
      rw [infoMeta_seen _ hm']; rfl
    · rintro ⟨m, hm, hi⟩
      obtain ⟨m1, h1, h2⟩ := Option.bind_eq_some_iff.mp hm
      have hex : ∃ z ∈ allParts ds gs, z.a.name = i.name := by
        apply Decidable.byContradiction
        intro hne
        rw [look_absent hok (fun z hz e => hne ⟨z, hz, e⟩) []] at h1
        cases h1
      obtain ⟨z, hz, he⟩ := hex
      have h3 : look (dirPart m0 ds gs).t [z.a.name] = some z.a.info := by
        rw [look_part hok y3 hz, look_nil, (hok.all z hz).info]
      rw [he, h1] at h3
      cases h3
      refine List.mem_map.mpr ⟨z, hz, ?_⟩
      rw [hi, infoMeta_seen _ h2, ← he]; rfl

/-! ### A scan -/

/-- The file `i` was not changed since it was put into the manifest. -/
def Kept (F : Tree) (p : List Name) (i : Info) : Prop := ∃ m, F (p ++ [i.name]) = some m ∧ same i (infoMeta i.name m) = true

/-- What a scan of `p` makes of the tree, and what is queued. -/
structure Scanned (cfg : Cfg) (listing : List Info) (p : List Name) (F F' : Tree) (q : Todo) : Prop where
  other : ∀ r, ¬ p <+: r → F' r = F r
  self : F' p = (F p).map (setInProgress false)
  gone : ∀ n, (∀ i ∈ listing, i.name ≠ n) → ∀ r, F' (p ++ n :: r) = none
  kept : ∀ i ∈ listing, Kept F p i → ∀ r, F' (p ++ i.name :: r) = F (p ++ i.name :: r)
  new : ∀ i ∈ listing, ¬ Kept F p i → i.kind = .file ∨ i.kind = .directory → F' (p ++ [i.name]) = some (setMeta i (base cfg F p i)) ∧
    ∀ r, r ≠ [] → F' (p ++ i.name :: r) = if F.isKind (p ++ [i.name]) i.kind then F (p ++ i.name :: r) else none
  queue : ∀ e, e ∈ q ↔ ∃ i ∈ listing, ¬ Kept F p i ∧ (i.kind = .file ∨ i.kind = .directory) ∧ e = (p ++ [i.name], i.kind)
  nodup : q.Nodup

theorem queue_nodup (p : List Name) (ops : List Oper) (h : (ops.map fun o => o.info.name).Nodup) : (ops.flatMap (toQ p)).Nodup := by
  have hmem : ∀ o e, e ∈ toQ p o → e.1 = p ++ [o.info.name] := by
    intro o e he
    cases o <;> simp only [toQ, toQueueAt, List.not_mem_nil] at he
    all_goals
      split at he
      · rw [List.mem_singleton] at he; rw [he]; rfl
      · cases he
  induction ops with
  | nil => exact .nil
  | cons o ops ih =>
    rw [List.map_cons, List.nodup_cons] at h
    rw [List.flatMap_cons, List.nodup_append]
    refine ⟨?_, ih h.2, ?_⟩
    · cases o <;> simp only [toQ, toQueueAt, List.nodup_nil]
      all_goals split <;> simp
    · intro e he e' he' hee
      subst hee
      obtain ⟨o', ho', h2⟩ := List.mem_flatMap.mp he'
      have h1 := hmem o e he
      rw [hmem o' e h2] at h1
      have := (List.cons.inj (List.append_cancel_left h1)).1
      exact h.1 (List.mem_map.mpr ⟨o', ho', this⟩)

theorem setMeta_new (i : Info) (hk : i.kind = .file ∨ i.kind = .directory) :
    setMeta i { name := i.name, kind := i.kind } = setMeta i (newMeta cfg i.name i.kind) := by
  unfold setMeta setters newMeta
  rcases hk with hk | hk <;> rw [hk] <;> rfl

theorem scanDir_ok (hx : Inv cfg.hash S b G F x) {p : List Name} (hd : F.isDir p) (hu : Untouched cfg.hash x b p) {listing : List Info}
    (hl : (listing.map Info.name).Nodup) :
    ∃ b' q F' x', scanDir cfg listing p b = .ok (b', q) ∧ Inv cfg.hash S b' G F' x' ∧ Goes p x b x' b' ∧ Scanned cfg listing p F F' q := by
  obtain ⟨b1, x1, e1, hx1, g1, hu1⟩ := findDir_ok hx hd hu
  obtain ⟨d, man, e2, e3, e4, hm, hman⟩ := scan_sees hx1 hd hu1 listing
  obtain ⟨b2, e5, h2⟩ := hx1.atDir_id (path := p) (f := dropIds []) (fun a => by cases a; simp [dropIds]) hd
  obtain ⟨x2, hx2, g2⟩ := becomes_to h2 (atDir_store e5)
  have hsl := sortInfos_sorted hl
  have hsm := sortInfos_sorted hm
  have hops := fun o => compare_decided hsl hsm (o := o)
  have hnd := compare_nodup hsl hsm
  have hml : ∀ i, i ∈ sortInfos listing ↔ i ∈ listing := fun i => (Util.isort_perm listing).mem_iff
  have hmm : ∀ i, i ∈ sortInfos man ↔ i ∈ man := fun i => (Util.isort_perm man).mem_iff
  generalize hO : compareAssets (sortInfos listing) (sortInfos man) = ops at *
  obtain ⟨b3, F3, e6, ⟨x3, hx3, g3⟩, d1, d2, d3⟩ := deleteAll_ok p ops hx2
  -- what the manifest has
  have hman' : ∀ n, (∀ m ∈ man, m.name ≠ n) ↔ F (p ++ [n]) = none := by
    intro n
    constructor
    · intro h
      cases hf : F (p ++ [n]) with
      | none => rfl
      | some m => exact absurd rfl (h (infoMeta n m) ((hman _).mpr ⟨m, hf, rfl⟩))
    · intro h m hm' e
      obtain ⟨m', h1, -⟩ := (hman m).mp hm'
      rw [e, h] at h1; cases h1
  have hself : F3 p = F p := d2 p fun i _ => not_prefix_self p _
  have hd3 : F3.isDir p := by unfold Tree.isDir; rw [hself]; exact hd
  -- entries that are listed are not deleted
  have hlist : ∀ i ∈ listing, ∀ r, F3 (p ++ i.name :: r) = F (p ++ i.name :: r) := by
    intro i hi r
    refine d2 _ fun j hj hp => ?_
    have h1 := ((hops _).mp hj).2 i ((hml i).mpr hi)
    exact h1 (prefix_names hp).symm
  have hadd3 : ∀ i, .add i ∈ ops → F3 (p ++ [i.name]) = none := by
    intro i hi
    have h1 := (hops _).mp hi
    rw [hlist i ((hml i).mp h1.1) []]
    exact (hman' i.name).mp fun m hm' => h1.2 m ((hmm m).mpr hm')
  obtain ⟨b4, F4, e7, ⟨x4, hx4, g4⟩, a1, a2, a3⟩ := addAll_ok p ops [] hx3 hd3 hnd hadd3
  have hself4 : F4 p = F p := (a1 p fun o _ _ => not_prefix_self p _).trans hself
  have hd4 : F4.isDir p := by unfold Tree.isDir; rw [hself4]; exact hd
  obtain ⟨b5, e8, h5⟩ := hx4.modify (g := setInProgress false) (setInProgress_change false) hd4
  obtain ⟨x5, hx5, g5⟩ := becomes_to h5 (atDir_store e8)
  have hbelow : ∀ n r, F4.modify p (setInProgress false) (p ++ n :: r) = F4 (p ++ n :: r) := fun n r => by
    unfold Tree.modify; rw [if_neg (by simp)]
  -- which operation there is for an entry
  have hkeep : ∀ i ∈ listing, Kept F p i → ∀ o ∈ ops, o.writes → o.info.name ≠ i.name := by
    rintro i hi ⟨m, hm', hs⟩ o ho hw e
    have hdec := (hops o).mp ho
    cases o with
    | add j =>
      have := (hman' j.name).mp fun m hm' => hdec.2 m ((hmm m).mpr hm')
      rw [show j.name = i.name from e, hm'] at this; cases this
    | update j =>
      obtain ⟨h1, m', h2, h3, h4⟩ := hdec
      have hji : j = i := hsl.inj h1 ((hml i).mpr hi) e
      subst hji
      obtain ⟨m'', h5, h6⟩ := (hman m').mp ((hmm m').mp h2)
      rw [h3] at h5 h6
      rw [hm'] at h5
      cases h5
      rw [h6, hs] at h4; cases h4
    | delete j => exact hw
    | keep j => exact hw
  have hnew : ∀ i ∈ listing, ¬ Kept F p i → (.add i ∈ ops ∧ F (p ++ [i.name]) = none) ∨ .update i ∈ ops := by
    intro i hi hk
    cases hf : F (p ++ [i.name]) with
    | none => exact .inl ⟨(hops _).mpr ⟨(hml i).mpr hi, fun m hm' => (hman' i.name).mpr hf m ((hmm m).mp hm')⟩, rfl⟩
    | some m =>
      refine .inr ((hops _).mpr ⟨(hml i).mpr hi, infoMeta i.name m, (hmm _).mpr ((hman _).mpr ⟨m, hf, rfl⟩), rfl, ?_⟩)
      cases hs : same i (infoMeta i.name m) with
      | false => rfl
      | true => exact absurd ⟨m, hf, hs⟩ hk
  refine ⟨b5, ops.flatMap (toQ p), _, x5, ?_, hx5, g1.trans (g2.trans (g3.trans (g4.trans g5))), ?_⟩
  · unfold scanDir
    rw [e1]
    dsimp only
    rw [e2]
    dsimp only
    rw [e3, e4, e5]
    dsimp only
    rw [e6]
    dsimp only
    rw [e7]
    dsimp only
    rw [e8, List.nil_append]
  · refine ⟨?_, ?_, ?_, ?_, ?_, ?_, queue_nodup p ops hnd⟩
    · intro r hr
      unfold Tree.modify
      rw [if_neg (by rintro rfl; exact hr List.prefix_rfl)]
      have hn : ∀ n, ¬ p ++ [n] <+: r := fun n h => hr ((List.prefix_append ..).trans h)
      rw [a1 r fun o _ _ => hn _, d2 r fun i _ => hn _]
    · unfold Tree.modify
      rw [if_pos rfl, hself4]
    · intro n hn r
      rw [hbelow]
      rw [a1 _ fun o ho hw hp => ?_]
      · by_cases hf : F (p ++ [n]) = none
        · have hnd : ¬ F.isDir (p ++ [n]) := by rintro ⟨m, hm', -⟩; rw [hf] at hm'; cases hm'
          have hF : F (p ++ n :: r) = none := by
            cases r with
            | nil => exact hf
            | cons k r =>
              have := (inv_closed hx).below (q := k :: r) (by simp) hnd
              rwa [List.append_assoc] at this
          rcases d3 (p ++ n :: r) with h | h
          · exact h
          · rw [h, hF]
        · obtain ⟨m, hm'⟩ := Option.ne_none_iff_exists'.mp hf
          refine d1 _ (infoMeta n m) ((hops _).mpr ⟨(hmm _).mpr ((hman _).mpr ⟨m, hm', rfl⟩), fun s hs => hn s ((hml s).mp hs)⟩) ?_
          show p ++ [n] <+: p ++ n :: r
          rw [List.prefix_append_right_inj]; exact ⟨r, rfl⟩
      · have he := prefix_names hp
        have hdec := (hops o).mp ho
        cases o with
        | add j => exact hn j ((hml j).mp hdec.1) he
        | update j => exact hn j ((hml j).mp hdec.1) he
        | delete j => exact hw
        | keep j => exact hw
    · intro i hi hk r
      rw [hbelow, a1 _ fun o ho hw hp => hkeep i hi hk o ho hw (prefix_names hp), hlist i hi]
    · intro i hi hk hkind
      have hb : base cfg F3 p i = base cfg F p i := base_congr (hlist i hi [])
      rcases hnew i hi hk with ⟨h1, h2⟩ | h1
      · have hnk : ¬ F.isKind (p ++ [i.name]) i.kind := by rintro ⟨m, hm', -⟩; rw [h2] at hm'; cases hm'
        obtain ⟨k1, k2⟩ := a2 i h1
        refine ⟨?_, fun r hr => ?_⟩
        · rw [hbelow, k1, setMeta_new (cfg := cfg) i hkind]
          unfold base; rw [if_neg hnk]
        · rw [hbelow, k2 r hr, if_neg hnk]
      · obtain ⟨k1, k2⟩ := a3 i h1
        refine ⟨?_, fun r hr => ?_⟩
        · rw [hbelow, k1, hb]
        · rw [hbelow, k2 r hr, hlist i hi]
          exact if_congr (isKind_congr (hlist i hi [])) rfl rfl
    · intro e
      rw [List.mem_flatMap]
      constructor
      · rintro ⟨o, ho, he⟩
        have hkey : ∀ j, o.info = j → o.writes → j ∈ listing → e ∈ toQueueAt p j →
            ∃ i ∈ listing, ¬ Kept F p i ∧ (i.kind = .file ∨ i.kind = .directory) ∧ e = (p ++ [i.name], i.kind) := by
          intro j hj hw hjl hej
          unfold toQueueAt at hej
          split at hej
          · rename_i hk
            exact ⟨j, hjl, fun hkept => hkeep j hjl hkept o ho hw (by rw [hj]), hk, List.mem_singleton.mp hej⟩
          · cases hej
        have hdec := (hops o).mp ho
        cases o with
        | add j => exact hkey j rfl trivial ((hml j).mp hdec.1) he
        | update j => exact hkey j rfl trivial ((hml j).mp hdec.1) he
        | delete j => cases he
        | keep j => cases he
      · rintro ⟨i, hi, hk, hkind, rfl⟩
        have : (p ++ [i.name], i.kind) ∈ toQueueAt p i := by unfold toQueueAt; rw [if_pos hkind]; simp
        rcases hnew i hi hk with ⟨h1, -⟩ | h1
        · exact ⟨_, h1, this⟩
        · exact ⟨_, h1, this⟩

end
end Verif.Updater
