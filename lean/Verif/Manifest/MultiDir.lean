import Verif.Manifest.MultiHist

/-! # Changing a directory through a pointer to it

`GetOrCreateAsset` returns an `AssetBuilder`, a pointer to the asset in the manifest, which the manifest updater keeps while a directory is
scanned. A change through the pointer is modelled by a change of the directory at its path. -/
namespace Verif.Manifest

/-! ### Model -/

/-- The directory at a path, as an `AssetBuilder` points to it: the entries are searched directly in the directory and then in its asset lists,
manifest_builder.cc:185-236. Nothing is created. -/
def dirAt (hash : Stored → Id) (w : Work) : List Name → Asset → Option Asset
  | [], d => some d
  | n :: p, d => (((d.children ++ (d.indirect.filterMap (view hash w)).flatten).find? fun a => a.name = n)).bind (dirAt hash w p)

/-- Change the directory at `path`, to which there is an `AssetBuilder`, with `h`. -/
def atDir (cfg : Cfg) (path : List Name) (h : Asset → Asset) (b : Builder) : Except Err Builder :=
  match inDirPath cfg .noCreate (fun d w => .ok (h d, w, (none : Option Unit))) path b.root ⟨b.lists, b.store⟩ with
  | .error e => .error e
  | .ok (root, w, _) => .ok { root := root, lists := w.lists, store := w.store }

/-- `AppendAsset` and the setters used after it, asset_builder.cc:78-86: a new entry at the end of the directory. -/
def appendTo (m : Meta) (d : Asset) : Asset := .mk d.info (d.children ++ [.mk m [] []]) d.indirect

/-! ### Specification -/

/-- `m` is at `t`. -/
def Tree.add (t : List Name) (m : Meta) (F : Tree) : Tree := fun q => if q = t then some m else F q

/-- What is at `t` is changed with `g`. -/
def Tree.modify (t : List Name) (g : Meta → Meta) (F : Tree) : Tree := fun q => if q = t then (F t).map g else F q

/-! ### Finding a directory -/

section
variable {hash : Stored → Id}

theorem filterMap_groups {get : Id → Option (List Asset)} {gs : List (Id × List Part)} (h : ∀ g ∈ gs, get g.1 = some (g.2.map Part.a)) :
    ((gs.map Prod.fst).filterMap get).flatten = (gs.flatMap Prod.snd).map Part.a := by
  induction gs with
  | nil => rfl
  | cons g gs ih =>
    rw [List.map_cons, List.filterMap_cons, h g (by simp)]
    dsimp only
    rw [List.flatten_cons, ih (fun g hg => h g (by simp [hg])), List.flatMap_cons, List.map_append]

theorem DirOk.entries {nm w m ds gs} (h : DirOk hash nm w m ds gs) :
    (dirPart m ds gs).a.children ++ ((dirPart m ds gs).a.indirect.filterMap (view hash w)).flatten = (allParts ds gs).map Part.a := by
  show ds.map Part.a ++ ((gs.map Prod.fst).filterMap _).flatten = _
  rw [filterMap_groups h.lists, allParts, List.map_append]

/-- The part of the manifest at a path. -/
theorem part_at {P : Meta → Prop} {nm w} (p : List Name) : ∀ {x : Part}, Exp hash nm w x → Tidy P x.t → look x.t p ≠ none →
    ∃ y : Part, dirAt hash w p x.a = some y.a ∧ Exp hash nm w y ∧ Tidy P y.t ∧ (∀ q, look x.t (p ++ q) = look y.t q) ∧
      ∀ e ∈ y.u, (p ++ e.1, e.2) ∈ x.u := by
  induction p with
  | nil => intro x h ht _; exact ⟨x, rfl, h, ht, fun _ => rfl, fun _ he => he⟩
  | cons n p ih =>
    intro x h ht hl
    obtain ⟨m, ds, gs, rfl, hok⟩ := h.cases'
    by_cases hex : ∃ y ∈ allParts ds gs, y.a.name = n
    · obtain ⟨y, hy, rfl⟩ := hex
      have hs := look_part hok ht hy
      rw [hs] at hl
      obtain ⟨z, z1, z2, z3, z4, z5⟩ := ih (hok.all y hy) (tidy_part ht hy) hl
      refine ⟨z, ?_, z2, z3, fun q => ?_, fun e he => mem_u_sub hy (z5 e he)⟩
      · unfold dirAt
        rw [hok.entries]
        have hf : ((allParts ds gs).map Part.a).find? (fun a => a.name = y.a.name) = some y.a := by
          have hD := distinct_of_tidy hok ht
          unfold Distinct at hD
          rw [find_iff (by rw [List.map_map]; exact hD)]
          exact ⟨List.mem_map_of_mem hy, rfl⟩
        rw [hf]; exact z1
      · rw [List.cons_append, hs]; exact z4 q
    · exact absurd (look_absent hok (fun x hx e => hex ⟨x, hx, e⟩) p) hl

/-! ### Changing a directory -/

theorem inDirPath_at {P : Meta → Prop} {cfg : Cfg} (hP : ∀ n k, P (newMeta cfg n k)) {nm : Id → List Name} {f : Asset → Asset} {pre : Tree → Prop} {ψ : Tree → Tree}
    (hf : ∀ {z : Part} {w : Work}, Exp cfg.hash nm w z → Tidy P z.t → z.t.info.kind = .directory → pre (look z.t) →
      ∃ z', z'.a = f z.a ∧ Edit cfg.hash nm z w z' w ∧ Tidy P z'.t ∧ z'.t.info.name = z.t.info.name ∧ z'.t.info.kind = .directory ∧ look z'.t = ψ (look z.t))
    (path : List Name) : ∀ {w} {x : Part}, Exp cfg.hash nm w x → Func x.u → Tidy P x.t → x.t.info.kind = .directory → (look x.t).isDir path →
      pre (fun q => look x.t (path ++ q)) →
    ∃ x' w' r, inDirPath cfg .noCreate (fun d w => .ok (f d, w, (none : Option Unit))) path x.a w = .ok (x'.a, w', r) ∧ Edit cfg.hash nm x w x' w' ∧
      Tidy P x'.t ∧ x'.t.info.name = x.t.info.name ∧ x'.t.info.kind = .directory ∧ (∀ q, look x'.t (path ++ q) = ψ (fun q => look x.t (path ++ q)) q) ∧
      (∀ q, ¬ path <+: q → look x'.t q = look x.t q) ∧ PFrame x path w w' := by
  induction path with
  | nil =>
    intro w x h hF ht hd _ hp
    obtain ⟨x', k1, k2, k3, k4, k5, k6⟩ := hf h ht hd hp
    refine ⟨x', w, none, by rw [inDirPath, k1], k2, k3, k4, k5, fun q => ?_, fun q hq => absurd List.nil_prefix hq, fun _ _ _ => rfl⟩
    show look x'.t q = ψ (look x.t) q
    rw [k6]
  | cons n path ih =>
    intro w x h hF ht hd hdir hp
    have hdn : (look x.t).isDir [n] := by
      cases path with
      | nil => exact hdir
      | cons k path =>
        apply Decidable.byContradiction
        intro hnd
        obtain ⟨m, hm, -⟩ := hdir
        rw [look_sub ht n hnd _ (by simp)] at hm; cases hm
    rcases inDirPath_step hP (n := n) (path := path) (mode := .noCreate) (f := fun d w => .ok (f d, w, (none : Option Unit))) h hF ht hd
      (pre := fun T => T.isDir path ∧ pre (fun q => T (path ++ q)))
      (ok := fun T _ T' => (∀ q, T' (path ++ q) = ψ (fun q => T (path ++ q)) q) ∧ (∀ q, ¬ path <+: q → T' q = T q)) (bad := fun _ _ => False)
      (by rw [if_pos hdn]; exact ⟨hdir, hp⟩)
      (fun a b c d e => by
        obtain ⟨z', w2, r, k1, k2, k3, k4, k5, k6, k7, k8⟩ := ih a b c d e.1 e.2
        exact .inl ⟨z', w2, r, k1, k2, k3, k4, ⟨k6, k7⟩, k8⟩) with ⟨x', w', r, T, h1, h2, h3, h4, h5, h6, -, h7⟩ | ⟨e, -, h2⟩
    · rw [if_pos hdn] at h5
      refine ⟨x', w', r, h1, h2, h3, congrArg Meta.name h4, by rw [h4]; exact hd, fun q => ?_, fun q hq => ?_, h7⟩
      · rw [h6, List.cons_append, graft, if_pos rfl]; exact h5.1 q
      · rw [h6]
        cases q with
        | nil => rfl
        | cons k q =>
          rw [graft]
          split
          · rename_i e
            subst e
            exact h5.2 q fun hh => hq ((List.prefix_cons_inj _).mpr hh)
          · rfl
    · rcases h2 with ⟨h2, -, -⟩ | ⟨⟨m, h2, hk⟩, -, -⟩ | h2
      · obtain ⟨m, hm, -⟩ := hdn; rw [h2] at hm; cases hm
      · obtain ⟨m', hm, hk'⟩ := hdn; rw [h2] at hm; cases hm; exact absurd hk' hk
      · exact h2.elim

end

section
variable {cfg : Cfg} {S : List Stored} {b : Builder} {G F : Tree} {x : Part}

theorem atDir_store {path : List Name} {h : Asset → Asset} {b' : Builder} (he : atDir cfg path h b = .ok b') : b'.store = b.store := by
  unfold atDir at he
  split at he
  · cases he
  · rename_i root w r hx
    cases he
    exact inDirPath_store (f := fun d w => .ok (h d, w, (none : Option Unit))) (fun _ _ _ _ _ e => by cases e; rfl) path _ _ _ _ _ hx

theorem reads_some {F : Tree} (hash : Stored → Id) (hF : ∀ p m, F p = some m → Rd hash S m) (p : List Name) : reads hash S F p = none ↔ F p = none := by
  unfold reads
  cases h : F p with
  | none => simp
  | some m =>
    obtain ⟨m', hm⟩ := rd_seen (hF p m h)
    rw [Option.bind_some, hm]; simp

theorem Inv.fields (hx : Inv cfg.hash S b G F x) : ∀ p m, look x.t p = some m → Rd cfg.hash S m := fun _ _ hm => look_fields hx.tidy hm

theorem Inv.isDir (hx : Inv cfg.hash S b G F x) (p : List Name) : (look x.t).isDir p ↔ F.isDir p := by
  rw [← hx.reads]; exact (reads_isDir hx.fields p).symm

/-- Below what is not a directory there is nothing. -/
theorem look_below {P : Meta → Prop} (p : List Name) : ∀ {a : Asset}, Tidy P a → ¬ (look a).isDir p → ∀ q, q ≠ [] → look a (p ++ q) = none := by
  induction p with
  | nil =>
    intro a h hd q hq
    have hk : a.info.kind ≠ .directory := fun hk => hd ⟨_, look_nil a, hk⟩
    rw [List.nil_append, look_leaf h hk, Tree.root, if_neg hq]
  | cons n p ih =>
    intro a h hd q hq
    rw [List.cons_append, look_cons]
    cases hf : a.children.find? fun c => c.name = n with
    | none => rfl
    | some c =>
      have hc := (find_iff h.nodup n c).mp hf
      refine ih (h.children c hc.1) (fun hh => hd ?_) q hq
      obtain ⟨m, hm, hk⟩ := hh
      exact ⟨m, by rw [look_cons, hf]; exact hm, hk⟩

theorem Inv.below (hx : Inv cfg.hash S b G F x) {p : List Name} (hd : ¬ F.isDir p) {q : List Name} (hq : q ≠ []) : F (p ++ q) = none := by
  rw [← hx.reads, reads_some _ hx.fields]
  exact look_below p hx.tidy (fun h => hd ((hx.isDir p).mp h)) q hq

theorem Inv.atDir {path : List Name} {f : Asset → Asset} {pre : Tree → Prop} {ψ : Tree → Tree} (hx : Inv cfg.hash S b G F x)
    (hf : ∀ {z : Part} {w : Work}, Exp cfg.hash (nmS cfg.hash S) w z → Tidy (Rd cfg.hash S) z.t → z.t.info.kind = .directory → pre (look z.t) →
      ∃ z', z'.a = f z.a ∧ Edit cfg.hash (nmS cfg.hash S) z w z' w ∧ Tidy (Rd cfg.hash S) z'.t ∧ z'.t.info.name = z.t.info.name ∧ z'.t.info.kind = .directory ∧
        look z'.t = ψ (look z.t)) (hdir : F.isDir path) (hpre : pre (fun q => look x.t (path ++ q))) :
    ∃ b' x', Manifest.atDir cfg path f b = .ok b' ∧ x'.a = b'.root ∧ Exp cfg.hash (nmS cfg.hash S) ⟨b'.lists, b'.store⟩ x' ∧ Tidy (Rd cfg.hash S) x'.t ∧
      x'.t.info.kind = .directory ∧ (∀ e ∈ x'.u, e ∈ x.u) ∧ PFrame x path ⟨b.lists, b.store⟩ ⟨b'.lists, b'.store⟩ ∧
      (∀ q, look x'.t (path ++ q) = ψ (fun q => look x.t (path ++ q)) q) ∧ (∀ q, ¬ path <+: q → look x'.t q = look x.t q) := by
  obtain ⟨x', w', r, k1, k2, k3, k4, k5, k6, k7, k8⟩ := inDirPath_at (cfg := cfg) (fun n k => rd_new cfg n k) hf path hx.exp hx.func hx.tidy hx.dir
    ((hx.isDir path).mpr hdir) hpre
  rw [hx.root] at k1
  refine ⟨{ root := x'.a, lists := w'.lists, store := w'.store }, x', ?_, rfl, k2.exp, k3, k5, k2.sub, k8, k6, k7⟩
  unfold Manifest.atDir
  rw [k1]

/-- Setting fields of the directory. -/
theorem Inv.modify {path : List Name} {g : Meta → Meta} (hx : Inv cfg.hash S b G F x) (hg : Change g) (hdir : F.isDir path) :
    ∃ b', Manifest.atDir cfg path (onInfo g) b = .ok b' ∧ Becomes cfg.hash S G x b b' (F.modify path g) path := by
  obtain ⟨b', x', k1, k2, k3, k4, k5, k6, k7, k8, k9⟩ := hx.atDir (path := path) (f := onInfo g) (pre := fun _ => True)
    (ψ := fun T q => if q = [] then (T []).map g else T q) (fun {z w} h ht hd _ => by
      obtain ⟨z', a1, a2, a3⟩ := edit_info h hg.kind
      refine ⟨z', a1, a3, ?_, ?_, ?_, ?_⟩
      · rw [a2]; exact tidy_onInfo hg.field ht
      · rw [a2]; exact hg.name _
      · rw [a2]; exact (hg.kind _).trans hd
      · rw [a2, look_onInfo]; funext q; rw [look_nil]; rfl) hdir trivial
  refine ⟨b', k1, x', ⟨k2, k3, k4, k5, fun e he => hx.own e (k6 e he), ?_, hx.twins⟩, k6, k7⟩
  have hR := hx.reads
  funext q
  unfold Tree.modify
  have hRq : ∀ q, F q = Manifest.reads cfg.hash S (look x.t) q := fun q => by rw [hR]
  rw [hRq, hRq]
  unfold Manifest.reads
  by_cases hp : path <+: q
  · obtain ⟨r, rfl⟩ := hp
    rw [k8]
    by_cases hr : r = []
    · subst hr
      rw [List.append_nil, if_pos rfl, if_pos rfl]
      show (Option.map g (look x.t (path ++ []))).bind _ = _
      rw [List.append_nil]
      cases hl : look x.t path with
      | none => rfl
      | some m => exact hg.seen (hx.fields _ _ hl)
    · rw [if_neg hr, if_neg (by simpa using hr)]
  · rw [k9 q hp, if_neg (by rintro rfl; exact hp List.prefix_rfl)]

/-- Nothing is changed. -/
theorem Inv.atDir_id {path : List Name} {f : Asset → Asset} (hf : ∀ a, f a = a) (hx : Inv cfg.hash S b G F x) (hdir : F.isDir path) :
    ∃ b', Manifest.atDir cfg path f b = .ok b' ∧ Becomes cfg.hash S G x b b' F path := by
  have hfe : f = onInfo (fun m => m) := by funext a; rw [hf]; cases a; rfl
  obtain ⟨b', h1, h2⟩ := hx.modify (g := fun m => m) ⟨fun _ => rfl, fun _ => rfl, .inl fun _ _ _ => rfl⟩ hdir
  have : F.modify path (fun m => m) = F := by
    funext q; unfold Tree.modify
    split
    · rename_i e; rw [e]; cases F path <;> rfl
    · rfl
  rw [this] at h2
  rw [hfe]; exact ⟨b', h1, h2⟩

/-- A new entry. -/
theorem Inv.append {path : List Name} {m : Meta} (hx : Inv cfg.hash S b G F x) (hdir : F.isDir path) (hn : F (path ++ [m.name]) = none)
    (hm : m.chunks = []) (hi : m.indirect = []) :
    ∃ b', Manifest.atDir cfg path (appendTo m) b = .ok b' ∧ Becomes cfg.hash S G x b b' (F.add (path ++ [m.name]) m) path := by
  have hR := hx.reads
  have hseen : seen cfg.hash S (.mk m [] []) = some m := by
    cases m; cases hm; cases hi; rfl
  have hrd : Rd cfg.hash S m := by
    obtain ⟨cs, hcs, -⟩ := Option.map_eq_some_iff.mp hseen
    exact ⟨by unfold Ascends; rw [hm]; exact .nil, (by intro i h; rw [hi] at h; cases h), cs, hcs⟩
  obtain ⟨b', x', k1, k2, k3, k4, k5, k6, k7, k8, k9⟩ := hx.atDir (path := path) (f := appendTo m) (pre := fun T => T [m.name] = none)
    (ψ := fun T => graft m.name (Tree.root m) T) (fun {z w} h ht hd hp => by
      obtain ⟨m0, ds, gs, rfl, hok⟩ := h.cases'
      have habs : ∀ y ∈ allParts ds gs, y.a.name ≠ (dirPart m [] []).t.name := by
        intro y hy e
        have hl := look_part hok ht hy []
        rw [look_nil, e] at hl
        rw [show look (dirPart m0 ds gs).t [m.name] = _ from hl] at hp
        cases hp
      obtain ⟨a1, a2⟩ := added hok hd ht habs (y := dirPart m [] []) (.of rfl hrd (by simp [dirPart]) (by simp [dirPart]) (fun _ => rfl))
      refine ⟨dirPart m0 (ds ++ [dirPart m [] []]) gs, ?_, (edit_added hok hd dirOk_new.exp rfl).edit, a1, rfl, hd, ?_⟩
      · unfold appendTo dirPart; simp
      · rw [a2, look_leafPart]; rfl) hdir ((reads_some _ hx.fields _).mp (by rw [hR]; exact hn))
  refine ⟨b', k1, x', ⟨k2, k3, k4, k5, fun e he => hx.own e (k6 e he), ?_, hx.twins⟩, k6, k7⟩
  funext q
  unfold Tree.add
  have hRq : ∀ q, F q = Manifest.reads cfg.hash S (look x.t) q := fun q => by rw [hR]
  by_cases hp : path <+: q
  · obtain ⟨r, rfl⟩ := hp
    unfold Manifest.reads
    rw [k8]
    cases r with
    | nil => rw [graft, if_neg (by simp), List.append_nil]; exact (hRq _).symm
    | cons k r =>
      rw [graft]
      by_cases hk : k = m.name
      · rw [if_pos hk]
        subst hk
        unfold Tree.root
        by_cases hr : r = []
        · rw [if_pos hr, hr, if_pos rfl]; exact hseen
        · rw [if_neg hr, if_neg (by simpa using hr)]
          have hnd : ¬ F.isDir (path ++ [m.name]) := by rintro ⟨m', h', -⟩; rw [hn] at h'; cases h'
          have := hx.below hnd hr
          rw [List.append_assoc] at this
          exact this.symm
      · rw [if_neg hk, if_neg (by simp [hk])]; exact (hRq _).symm
  · rw [if_neg (by rintro rfl; exact hp (List.prefix_append ..)), hRq]
    unfold Manifest.reads
    rw [k9 q hp]

end
end Verif.Manifest
