import Verif.Manifest.Chunks
import Mathlib.Data.List.Forall2
import Mathlib.Data.List.Perm.Basic

/-! # C28: moving the entries of a directory to indirect lists -/
namespace Verif.Manifest

/-! ### Specification -/

/-- The entries of the given asset lists; `none` if one of them is missing. -/
def flatAssets (get : Id → Option (List Asset)) : List Id → Option (List Asset)
  | [] => some []
  | id :: ids =>
    match get id, flatAssets get ids with
    | some l, some r => some (l ++ r)
    | _, _ => none

/-- All entries of a directory, the direct ones first. -/
def entries (get : Id → Option (List Asset)) (dir : Asset) : Option (List Asset) :=
  (flatAssets get dir.indirect).map (dir.children ++ ·)

/-- No two different protos in the store have the same content id. -/
def NoCollision (hash : Stored → Id) (store : List Stored) : Prop :=
  ∀ p q, p ∈ store → q ∈ store → hash p = hash q → p = q

/-- `b` in the store `S'` is the same entry as `a` in the store `S`, except that chunks may have been moved to indirect
chunk lists. -/
structure SameEntry (hash : Stored → Id) (S S' : List Stored) (a b : Asset) : Prop where
  info : { b.info with chunks := [], indirect := [] } = { a.info with chunks := [], indirect := [] }
  children : b.children = a.children
  indirect : b.indirect = a.indirect
  chunks : ∀ cs, flatChunks (findChunks hash S) a.info = some cs → flatChunks (findChunks hash S') b.info = some cs

/-- The last part of `FlushDir`, manifest_builder.cc:443-446: `over` are the entries that did not fit in the lists
already flushed. -/
def splitDir (cfg : Cfg) (dir : Asset) (over : List Asset) (w : Work) : Option (Asset × Work) :=
  match enforceDir cfg dir over w with
  | none => none
  | some (dir, over, w) => appendOverflow cfg dir over w

/-- The size of an asset list with two bytes per entry for tag and length. -/
def estimate (l : List Asset) : Nat := (l.map fun a => assetSize a + overhead).sum

/-! ### The store -/

theorem NoCollision.chunks {hash : Stored → Id} {store : List Stored} (h : NoCollision hash store) :
    NoChunkCollision hash store := fun l l' h1 h2 e => by
  have := h _ _ h1 h2 e; cases this; rfl

theorem NoCollision.mono {hash : Stored → Id} {store store' : List Stored} (h : NoCollision hash store')
    (hs : store <+: store') : NoCollision hash store :=
  fun p q hp hq e => h p q (hs.subset hp) (hs.subset hq) e

theorem findAssets_some {hash : Stored → Id} {store : List Stored} {id : Id} {l : List Asset}
    (h : findAssets hash store id = some l) : .assets l ∈ store ∧ hash (.assets l) = id := by
  unfold findAssets at h
  obtain ⟨l₁, a, l₂, rfl, ha, -⟩ := List.findSome?_eq_some_iff.mp h
  cases a with
  | assets l' =>
    dsimp only at ha
    split at ha
    · cases ha; exact ⟨by simp, by assumption⟩
    · cases ha
  | chunks => cases ha
  | manifest => cases ha

theorem findAssets_exists {hash : Stored → Id} {store : List Stored} {l : List Asset}
    (h : .assets l ∈ store) : ∃ l', findAssets hash store (hash (.assets l)) = some l' := by
  rw [← Option.isSome_iff_exists]
  unfold findAssets
  rw [List.findSome?_isSome_iff]
  exact ⟨_, h, by simp⟩

theorem findAssets_of_mem {hash : Stored → Id} {store : List Stored} (hc : NoCollision hash store) {l : List Asset}
    (h : .assets l ∈ store) : findAssets hash store (hash (.assets l)) = some l := by
  obtain ⟨l', hl'⟩ := findAssets_exists (hash := hash) h
  obtain ⟨h1, h2⟩ := findAssets_some hl'
  have := hc _ _ h1 h h2
  cases this; exact hl'

theorem findAssets_mono {hash : Stored → Id} {S S' : List Stored} (hc : NoCollision hash S') (hs : S <+: S') {id : Id}
    {l : List Asset} (h : findAssets hash S id = some l) : findAssets hash S' id = some l := by
  obtain ⟨h1, rfl⟩ := findAssets_some h
  exact findAssets_of_mem hc (hs.subset h1)

theorem findChunks_mono {hash : Stored → Id} {S S' : List Stored} (hc : NoCollision hash S') (hs : S <+: S') {id : Id}
    {l : List Ref} (h : findChunks hash S id = some l) : findChunks hash S' id = some l := by
  obtain ⟨h1, rfl⟩ := findChunks_some h
  exact findChunks_of_mem hc.chunks (hs.subset h1)

theorem flatIndirect_mono {g g' : Id → Option (List Ref)} (h : ∀ id l, g id = some l → g' id = some l) {is : List Indirect}
    {cs : List Ref} (hf : flatIndirect g is = some cs) : flatIndirect g' is = some cs := by
  induction is generalizing cs with
  | nil => exact hf
  | cons i is ih =>
    unfold flatIndirect at hf ⊢
    split at hf
    · rename_i l r h1 h2
      rw [h _ _ h1, ih h2]; exact hf
    · cases hf

theorem flatChunks_mono {g g' : Id → Option (List Ref)} (h : ∀ id l, g id = some l → g' id = some l) {m : Meta}
    {cs : List Ref} (hf : flatChunks g m = some cs) : flatChunks g' m = some cs := by
  unfold flatChunks at hf ⊢
  cases hi : flatIndirect g m.indirect with
  | none => rw [hi] at hf; cases hf
  | some r => rw [hi] at hf; rw [flatIndirect_mono h hi]; exact hf

theorem flatAssets_mono {g g' : Id → Option (List Asset)} (h : ∀ id l, g id = some l → g' id = some l) {ids : List Id}
    {as : List Asset} (hf : flatAssets g ids = some as) : flatAssets g' ids = some as := by
  induction ids generalizing as with
  | nil => exact hf
  | cons i is ih =>
    unfold flatAssets at hf ⊢
    split at hf
    · rename_i l r h1 h2
      rw [h _ _ h1, ih h2]; exact hf
    · cases hf

theorem flatAssets_append (g : Id → Option (List Asset)) (a b : List Id) :
    flatAssets g (a ++ b) = match flatAssets g a, flatAssets g b with
      | some l, some r => some (l ++ r)
      | _, _ => none := by
  induction a with
  | nil => cases h : flatAssets g b <;> simp [flatAssets, h]
  | cons i a ih =>
    simp only [List.cons_append, flatAssets, ih]
    cases g i <;> cases flatAssets g a <;> cases flatAssets g b <;> simp

theorem SameEntry.refl {hash : Stored → Id} {S S' : List Stored} (hc : NoCollision hash S') (hs : S <+: S') (a : Asset) :
    SameEntry hash S S' a a :=
  ⟨rfl, rfl, rfl, fun _ h => flatChunks_mono (fun _ _ => findChunks_mono hc hs) h⟩

theorem SameEntry.trans_store {hash : Stored → Id} {S S' S'' : List Stored} (hc : NoCollision hash S'') (hs : S' <+: S'')
    {a b : Asset} (h : SameEntry hash S S' a b) : SameEntry hash S S'' a b :=
  { h with chunks := fun cs hcs => flatChunks_mono (fun _ _ => findChunks_mono hc hs) (h.chunks cs hcs) }

/-! ### The loops -/

/-- The offsets of the direct chunks ascend. -/
def Ascending (a : Asset) : Prop := a.info.chunks.Pairwise fun a b => a.offset ≤ b.offset

theorem SameEntry.trans {hash : Stored → Id} {S S' S'' : List Stored} {a b c : Asset}
    (h : SameEntry hash S S' a b) (h' : SameEntry hash S' S'' b c) : SameEntry hash S S'' a c :=
  ⟨h'.info.trans h.info, h'.children.trans h.children, h'.indirect.trans h.indirect,
    fun cs hcs => h'.chunks cs (h.chunks cs hcs)⟩

theorem enforceFile_lists {cfg : Cfg} {limit : Nat} {file file' : Asset} {w w' : Work}
    (h : enforceFile cfg limit file w = some (file', w')) : w'.lists = w.lists ∧ w.store <+: w'.store := by
  unfold enforceFile at h
  dsimp only at h
  split at h
  · cases h; exact ⟨rfl, List.prefix_rfl⟩
  split at h
  · cases h
  split at h
  · cases h; exact ⟨rfl, List.prefix_rfl⟩
  · cases h; exact ⟨rfl, _, rfl⟩

theorem enforceFiles_lists {cfg : Cfg} {limit size : Nat} {cs : List Asset} {w : Work} {r}
    (h : enforceFiles cfg limit size cs w = some r) : r.2.2.lists = w.lists ∧ w.store <+: r.2.2.store := by
  induction cs generalizing size w r with
  | nil => cases h; exact ⟨rfl, List.prefix_rfl⟩
  | cons a as ih =>
    unfold enforceFiles at h
    split at h
    · cases h; exact ⟨rfl, List.prefix_rfl⟩
    split at h
    · obtain ⟨r', hr, rfl⟩ := Option.map_eq_some_iff.mp h
      exact ih (r := r') hr
    · split at h
      · cases h
      · rename_i b w1 hb
        obtain ⟨r', hr, rfl⟩ := Option.map_eq_some_iff.mp h
        obtain ⟨h1, h2⟩ := enforceFile_lists hb
        obtain ⟨h3, h4⟩ := ih (r := r') hr
        exact ⟨h3.trans h1, h2.trans h4⟩

theorem enforceFiles_spec {cfg : Cfg} {limit size : Nat} {cs : List Asset} {w : Work} {r}
    (h : enforceFiles cfg limit size cs w = some r) (hasc : ∀ a ∈ cs, Ascending a)
    {S'' : List Stored} (hc : NoCollision cfg.hash S'') (hs : r.2.2.store <+: S'') :
    List.Forall₂ (SameEntry cfg.hash w.store S'') cs r.1 := by
  induction cs generalizing size w r with
  | nil => cases h; exact .nil
  | cons a as ih =>
    have hpre := enforceFiles_lists h
    unfold enforceFiles at h
    split at h
    · cases h
      have : ∀ l : List Asset, List.Forall₂ (SameEntry cfg.hash w.store S'') l l := fun l => by
        induction l with
        | nil => exact .nil
        | cons x l ih' => exact .cons (SameEntry.refl hc hs x) ih'
      exact this _
    split at h
    · obtain ⟨r', hr, rfl⟩ := Option.map_eq_some_iff.mp h
      exact .cons (SameEntry.refl hc (hpre.2.trans hs) a) (ih hr (fun x hx => hasc x (by simp [hx])) hs)
    · split at h
      · cases h
      · rename_i b w1 hb
        obtain ⟨r', hr, rfl⟩ := Option.map_eq_some_iff.mp h
        obtain ⟨h1, h2⟩ := enforceFile_lists hb
        obtain ⟨h3, h4⟩ := enforceFiles_lists hr
        have hc1 : NoCollision cfg.hash w1.store := hc.mono (h4.trans hs)
        refine .cons ?_ ?_
        · refine SameEntry.trans_store hc (h4.trans hs) ?_
          have key := fun chunks hold => C27_same_chunks cfg limit a b w w1 (hasc a (by simp)) hb hc1.chunks chunks hold
          rcases enforceFile_spec cfg limit a b w w1 (hasc a (by simp)) hb with ⟨rfl, rfl⟩ | ⟨hni, direct, es, rfl, rfl, -⟩
          · exact SameEntry.refl hc1 List.prefix_rfl _
          · exact ⟨rfl, rfl, rfl, fun cs hcs => (key cs hcs).1⟩
        · have := ih hr (fun x hx => hasc x (by simp [hx])) hs
          refine this.imp fun x y hxy => ?_
          exact (SameEntry.refl hc1 h2 x).trans hxy

theorem takeAssets_perm (cfg : Cfg) (full : List Asset → Nat) (rev : List Asset) (size : Nat) (over : List Asset) :
    ((takeAssets cfg full rev size over).1 ++ (takeAssets cfg full rev size over).2).Perm (rev ++ over) := by
  induction rev generalizing size over with
  | nil => simp [takeAssets]
  | cons a rev ih =>
    unfold takeAssets
    dsimp only
    split
    · refine (ih _ _).trans ?_
      have : (over ++ [a]).Perm (a :: over) := List.perm_append_singleton a over
      exact (this.append_left rev).trans List.perm_middle
    · exact List.Perm.refl _

/-- `enforceDir` on a directory with the given lists. -/
theorem enforceDir_spec {cfg : Cfg} (hsort : ∀ l, (cfg.sort l).Perm l) {dir dir' : Asset} {over over' : List Asset} {w w' : Work}
    (h : enforceDir cfg dir over w = some (dir', over', w')) (hasc : ∀ a ∈ dir.children, Ascending a)
    {S'' : List Stored} (hc : NoCollision cfg.hash S'') (hs : w'.store <+: S'') :
    dir'.info = dir.info ∧ dir'.indirect = dir.indirect ∧ w'.lists = w.lists ∧ w.store <+: w'.store ∧
    ∃ p, p.Perm (dir'.children ++ over') ∧ List.Forall₂ (SameEntry cfg.hash w.store S'') (dir.children ++ over) p := by
  have refl : ∀ (_ : w.store <+: S'') (l : List Asset), List.Forall₂ (SameEntry cfg.hash w.store S'') l l := fun hs l => by
    induction l with
    | nil => exact .nil
    | cons x l ih' => exact .cons (SameEntry.refl hc hs x) ih'
  unfold enforceDir at h
  split at h
  · cases h
    exact ⟨rfl, rfl, rfl, List.prefix_rfl, _, List.Perm.refl _, refl hs _⟩
  dsimp only at h
  split at h
  · cases h
  rename_i cs size w1 hfiles
  simp only [Option.some.injEq, Prod.mk.injEq] at h
  obtain ⟨rfl, rfl, rfl⟩ := h
  have hf : w1.lists = w.lists ∧ w.store <+: w1.store ∧
      List.Forall₂ (SameEntry cfg.hash w.store S'') (cfg.sort dir.children) cs := by
    split at hfiles
    · simp only [Option.some.injEq, Prod.mk.injEq] at hfiles
      obtain ⟨rfl, rfl, rfl⟩ := hfiles
      exact ⟨rfl, List.prefix_rfl, refl hs _⟩
    · obtain ⟨h1, h2⟩ := enforceFiles_lists hfiles
      exact ⟨h1, h2, enforceFiles_spec hfiles (fun a ha => hasc a ((hsort _).mem_iff.mp ha)) hc hs⟩
  obtain ⟨h1, h2, h3⟩ := hf
  refine ⟨rfl, rfl, h1, h2, ?_⟩
  have h4 := List.rel_append h3 (refl (h2.trans hs) over)
  obtain ⟨p, hp1, hp2⟩ : ∃ p, p.Perm (cs ++ over) ∧
      List.Forall₂ (SameEntry cfg.hash w.store S'') (dir.children ++ over) p := by
    obtain ⟨p, q1, q2⟩ := (List.perm_comp_forall₂ ((hsort dir.children).symm.append_right over) h4)
    exact ⟨p, q2, q1⟩
  refine ⟨p, hp1.trans ?_, hp2⟩
  have := takeAssets_perm cfg (fun l => assetSize (.mk dir.info l dir.indirect)) cs.reverse size over
  simp only [Asset.children_mk]
  have h5 := (List.reverse_perm (takeAssets cfg (fun l => assetSize (.mk dir.info l dir.indirect)) cs.reverse size over).1).append_right
    (takeAssets cfg (fun l => assetSize (.mk dir.info l dir.indirect)) cs.reverse size over).2
  exact (h5.trans (this.trans ((List.reverse_perm cs).append_right over))).symm

theorem packAssets_flatten (cfg : Cfg) (rev cur : List Asset) (size : Nat) :
    (packAssets cfg rev cur size).flatten = cur ++ rev := by
  induction rev generalizing cur size with
  | nil => simp [packAssets]
  | cons a rev ih =>
    unfold packAssets
    dsimp only
    split
    · simp [ih]
    · rw [ih]; simp

theorem writeBack_store (cfg : Cfg) (ls : List (List Asset)) (w : Work) :
    (writeBack cfg ls w).store = w.store ++ ls.map .assets := by
  induction ls generalizing w with
  | nil => simp [writeBack]
  | cons l ls ih => simp [writeBack, ih]

theorem flatAssets_written {hash : Stored → Id} {S : List Stored} (hc : NoCollision hash S) (ls : List (List Asset))
    (h : ∀ l ∈ ls, .assets l ∈ S) : flatAssets (findAssets hash S) (ls.map fun l => hash (.assets l)) = some ls.flatten := by
  induction ls with
  | nil => rfl
  | cons l ls ih =>
    simp only [List.map_cons, flatAssets]
    rw [findAssets_of_mem hc (h l (by simp)), ih fun x hx => h x (by simp [hx])]
    simp

theorem getList_store {cfg : Cfg} {w w' : Work} {id : Id} {l : List Asset} (h : getList cfg w id = some (l, w')) :
    w'.store = w.store ∧ (w.lists.find id = some l ∨ findAssets cfg.hash w.store id = some l) := by
  unfold getList at h
  split at h
  · cases h; exact ⟨rfl, .inl (by assumption)⟩
  · split at h
    · cases h
    · cases h; exact ⟨rfl, .inr (by assumption)⟩

theorem appendOverflow_spec {cfg : Cfg} {dir dir' : Asset} {over : List Asset} {w w' : Work}
    (h : appendOverflow cfg dir over w = some (dir', w'))
    (hclean : ∀ id l, id ∈ dir.indirect → w.lists.find id = some l → findAssets cfg.hash w.store id = some l)
    (hc : NoCollision cfg.hash w'.store) {es : List Asset} (hes : entries (findAssets cfg.hash w.store) dir = some es) :
    dir'.info = dir.info ∧ w.store <+: w'.store ∧
    ∃ es', entries (findAssets cfg.hash w'.store) dir' = some es' ∧ es'.Perm (es ++ over) := by
  unfold appendOverflow at h
  split at h
  · rename_i h0; cases h; subst h0; exact ⟨rfl, List.prefix_rfl, es, hes, by simp⟩
  dsimp only at h
  split at h
  · cases h
  rename_i ids l size w1 hstart
  cases h
  obtain ⟨hst, r, hr, hes2⟩ : w1.store = w.store ∧ ∃ r, flatAssets (findAssets cfg.hash w.store) ids = some r ∧
      dir.children ++ r ++ l = es := by
    unfold entries at hes
    split at hstart
    · rename_i id hlast
      split at hstart
      · cases hstart
      · rename_i l' w2 hget
        cases hstart
        obtain ⟨g1, g2⟩ := getList_store hget
        have hl : findAssets cfg.hash w.store id = some l :=
          g2.elim (hclean id l (List.mem_of_getLast? hlast)) (fun h => h)
        refine ⟨g1, ?_⟩
        have hd : dir.indirect = dir.indirect.dropLast ++ [id] := by
          have hne : dir.indirect ≠ [] := by rintro e; rw [e] at hlast; cases hlast
          rw [List.getLast?_eq_some_getLast hne] at hlast
          simp only [Option.some.injEq] at hlast
          rw [← hlast, List.dropLast_concat_getLast]
        rw [hd, flatAssets_append] at hes
        cases hfl : flatAssets (findAssets cfg.hash w.store) dir.indirect.dropLast with
        | none => rw [hfl] at hes; simp at hes
        | some r =>
          rw [hfl] at hes
          simp only [flatAssets, hl, Option.map_some, Option.some.injEq, List.append_nil] at hes
          exact ⟨r, rfl, by rw [← hes]; simp⟩
    · rename_i hlast
      cases hstart
      have : dir.indirect = [] := List.getLast?_eq_none_iff.mp hlast
      rw [this] at hes
      simp only [flatAssets, Option.map_some, Option.some.injEq] at hes
      exact ⟨rfl, [], rfl, by simp [← hes]⟩
  rw [writeBack_store, hst] at hc
  have hpre : w.store <+: w.store ++ (packAssets cfg over.reverse l size).map Stored.assets := ⟨_, rfl⟩
  refine ⟨rfl, ?_, ?_⟩
  · rw [writeBack_store, hst]; exact hpre
  · refine ⟨dir.children ++ (r ++ (l ++ over.reverse)), ?_, ?_⟩
    · unfold entries
      simp only [Asset.indirect_mk, Asset.children_mk]
      rw [writeBack_store, hst, flatAssets_append,
        flatAssets_mono (fun _ _ => findAssets_mono hc hpre) hr,
        flatAssets_written hc _ (fun l hl => List.mem_append_right _ (List.mem_map.mpr ⟨l, hl, rfl⟩)),
        packAssets_flatten]
      rfl
    · rw [← hes2]
      simp only [List.append_assoc]
      exact ((((List.reverse_perm over).append_left l).append_left r).append_left dir.children)

/-- C28: enforcing the size limit of a directory moves entries between the directory and its lists, but loses, adds and
changes none (apart from the layout of the chunks of its files, see C27). `over` are the entries taken from lists that
were too long; the directory's own lists are those in the store. -/
theorem C28_same_entries (cfg : Cfg) (hsort : ∀ l, (cfg.sort l).Perm l) (dir dir' : Asset) (over : List Asset) (w w' : Work)
    (h : splitDir cfg dir over w = some (dir', w')) (hasc : ∀ a ∈ dir.children, Ascending a)
    (hclean : ∀ id l, id ∈ dir.indirect → w.lists.find id = some l → findAssets cfg.hash w.store id = some l)
    (hc : NoCollision cfg.hash w'.store) (es : List Asset) (hes : entries (findAssets cfg.hash w.store) dir = some es) :
    dir'.info = dir.info ∧ w.store <+: w'.store ∧
    ∃ es' p, entries (findAssets cfg.hash w'.store) dir' = some es' ∧ p.Perm es' ∧
      List.Forall₂ (SameEntry cfg.hash w.store w'.store) (es ++ over) p := by
  unfold splitDir at h
  split at h
  · cases h
  rename_i dir1 over1 w1 h1
  have hpre1 : w1.store <+: w'.store := by
    unfold appendOverflow at h
    split at h
    · cases h; exact List.prefix_rfl
    dsimp only at h
    split at h
    · cases h
    rename_i ids l size w2 hstart
    cases h
    rw [writeBack_store]
    have : w2.store = w1.store := by
      split at hstart
      · split at hstart
        · cases hstart
        · rename_i hget; cases hstart; exact (getList_store hget).1
      · cases hstart; rfl
    rw [this]; exact ⟨_, rfl⟩
  obtain ⟨a1, a2, a3, a4, p, hp1, hp2⟩ := enforceDir_spec hsort h1 hasc hc hpre1
  -- the entries after the first step
  unfold entries at hes
  cases hfl : flatAssets (findAssets cfg.hash w.store) dir.indirect with
  | none => rw [hfl] at hes; cases hes
  | some r =>
    rw [hfl] at hes
    simp only [Option.map_some, Option.some.injEq] at hes
    have hc1 := hc.mono hpre1
    have hr1 : flatAssets (findAssets cfg.hash w1.store) dir1.indirect = some r := by
      rw [a2]; exact flatAssets_mono (fun _ _ => findAssets_mono hc1 a4) hfl
    obtain ⟨b1, b2, es', b3, b4⟩ := appendOverflow_spec h
      (fun id l hid hl => findAssets_mono hc1 a4 (hclean id l (a2 ▸ hid) (a3 ▸ hl))) hc
      (es := dir1.children ++ r) (by unfold entries; rw [hr1]; rfl)
    refine ⟨b1.trans a1, a4.trans b2, es', ?_⟩
    -- reorder
    have refl : ∀ (l : List Asset), List.Forall₂ (SameEntry cfg.hash w.store w'.store) l l := fun l => by
      induction l with
      | nil => exact .nil
      | cons x l ih' => exact .cons (SameEntry.refl hc (a4.trans b2) x) ih'
    have h5 := List.rel_append hp2 (refl r)
    have hperm : (es ++ over).Perm (dir.children ++ over ++ r) := by
      rw [← hes]
      simp only [List.append_assoc]
      exact (List.perm_append_comm).append_left _
    obtain ⟨q, q1, q2⟩ := List.perm_comp_forall₂ hperm h5
    refine ⟨q, b3, q2.trans ?_, q1⟩
    refine List.Perm.trans ?_ b4.symm
    refine (hp1.append_right r).trans ?_
    simp only [List.append_assoc]
    exact (List.perm_append_comm).append_left _

/-! ### Sizes -/

theorem lenField_ge (n : Nat) : n + overhead ≤ lenField n := by
  have := varintLen_pos n; unfold lenField overhead; omega

theorem assetListSize_append (l l' : List Asset) : assetListSize (l ++ l') = assetListSize l + assetListSize l' := by
  induction l with
  | nil => simp [assetListSize]
  | cons a l ih => simp only [List.cons_append, assetListSize, ih]; omega

theorem estimate_le (l : List Asset) : estimate l ≤ assetListSize l := by
  induction l with
  | nil => simp [estimate, assetListSize]
  | cons a l ih =>
    have := lenField_ge (assetSize a)
    simp only [estimate, List.map_cons, List.sum_cons, assetListSize] at ih ⊢
    omega

theorem estimate_append (l l' : List Asset) : estimate (l ++ l') = estimate l + estimate l' := by
  simp [estimate]

theorem packAssets_sizes (cfg : Cfg) (hmax : 0 < cfg.maxSize) (rev cur : List Asset) (size : Nat) (old : List Asset)
    (h1 : estimate cur ≤ size) (h2 : cur = old ∨ cur.length = 1 ∨ size ≤ cfg.maxSize) (h3 : size = 0 → cur = []) :
    ∀ l ∈ packAssets cfg rev cur size, l = old ∨ l.length = 1 ∨ estimate l ≤ cfg.maxSize := by
  induction rev generalizing cur size with
  | nil =>
    intro l hl
    simp only [packAssets, List.mem_singleton] at hl
    subst hl
    rcases h2 with h | h | h
    · exact .inl h
    · exact .inr (.inl h)
    · exact .inr (.inr (by omega))
  | cons a rev ih =>
    unfold packAssets
    dsimp only
    split
    · intro l hl
      rcases List.mem_cons.mp hl with rfl | hl
      · rcases h2 with h | h | h
        · exact .inl h
        · exact .inr (.inl h)
        · exact .inr (.inr (by omega))
      · refine ih [a] _ ?_ (.inr (.inl rfl)) ?_ l hl
        · simp [estimate]
        · intro h; unfold overhead at h; omega
    · rename_i hcond
      refine ih _ _ ?_ ?_ ?_
      · rw [estimate_append]; simp only [estimate, List.map_cons, List.map_nil, List.sum_cons, List.sum_nil] at h1 ⊢; omega
      · rcases Nat.eq_zero_or_pos size with h0 | h0
        · rw [h3 h0]; exact .inr (.inl rfl)
        · right; right
          by_contra hgt
          exact hcond ⟨hmax, h0, by omega⟩
      · intro h; unfold overhead at h; omega

theorem assetListSize_eq_zero {l : List Asset} (h : assetListSize l = 0) : l = [] := by
  cases l with
  | nil => rfl
  | cons a l =>
    have := lenField_ge (assetSize a)
    simp only [assetListSize, overhead] at h this; omega

theorem enforceFile_assets {cfg : Cfg} {limit : Nat} {file file' : Asset} {w w' : Work}
    (h : enforceFile cfg limit file w = some (file', w')) (l : List Asset) :
    .assets l ∈ w'.store → .assets l ∈ w.store := by
  unfold enforceFile at h
  dsimp only at h
  split at h
  · cases h; exact fun h => h
  split at h
  · cases h
  split at h
  · cases h; exact fun h => h
  · cases h
    intro hm
    rcases List.mem_append.mp hm with hm | hm
    · exact hm
    · obtain ⟨_, _, e⟩ := List.mem_map.mp hm; cases e

theorem enforceFiles_assets {cfg : Cfg} {limit size : Nat} {cs : List Asset} {w : Work} {r}
    (h : enforceFiles cfg limit size cs w = some r) (l : List Asset) :
    .assets l ∈ r.2.2.store → .assets l ∈ w.store := by
  induction cs generalizing size w r with
  | nil => cases h; exact fun h => h
  | cons a as ih =>
    unfold enforceFiles at h
    split at h
    · cases h; exact fun h => h
    split at h
    · obtain ⟨r', hr, rfl⟩ := Option.map_eq_some_iff.mp h
      exact ih (r := r') hr
    · split at h
      · cases h
      · rename_i b w1 hb
        obtain ⟨r', hr, rfl⟩ := Option.map_eq_some_iff.mp h
        exact fun hm => enforceFile_assets hb l (ih (r := r') hr hm)

theorem enforceDir_assets {cfg : Cfg} {dir dir' : Asset} {over over' : List Asset} {w w' : Work}
    (h : enforceDir cfg dir over w = some (dir', over', w')) (l : List Asset) :
    .assets l ∈ w'.store → .assets l ∈ w.store := by
  unfold enforceDir at h
  split at h
  · cases h; exact fun h => h
  dsimp only at h
  split at h
  · cases h
  rename_i hf
  cases h
  split at hf
  · cases hf; exact fun h => h
  · exact enforceFiles_assets hf l

theorem enforceDir_indirect {cfg : Cfg} {dir dir' : Asset} {over over' : List Asset} {w w' : Work}
    (h : enforceDir cfg dir over w = some (dir', over', w')) :
    dir'.indirect = dir.indirect ∧ w'.lists = w.lists ∧ w.store <+: w'.store := by
  unfold enforceDir at h
  split at h
  · cases h; exact ⟨rfl, rfl, List.prefix_rfl⟩
  dsimp only at h
  split at h
  · cases h
  rename_i hf
  cases h
  split at hf
  · cases hf; exact ⟨rfl, rfl, List.prefix_rfl⟩
  · exact ⟨rfl, enforceFiles_lists hf⟩

/-- C28: every asset list that is written when a directory is split either holds a single entry, was in the store before,
or fits the size limit, counting two bytes of framing per entry. -/
theorem C28_lists_fit (cfg : Cfg) (hmax : 0 < cfg.maxSize) (dir dir' : Asset) (over : List Asset) (w w' : Work)
    (h : splitDir cfg dir over w = some (dir', w'))
    (hclean : ∀ id l, id ∈ dir.indirect → w.lists.find id = some l → findAssets cfg.hash w.store id = some l)
    (l : List Asset) (hl : .assets l ∈ w'.store) :
    .assets l ∈ w.store ∨ l.length = 1 ∨ estimate l ≤ cfg.maxSize := by
  unfold splitDir at h
  split at h
  · cases h
  rename_i dir1 over1 w1 h1
  obtain ⟨d1, d2, d3⟩ := enforceDir_indirect h1
  unfold appendOverflow at h
  split at h
  · cases h; exact .inl (enforceDir_assets h1 l hl)
  dsimp only at h
  split at h
  · cases h
  rename_i ids l0 size w2 hstart
  cases h
  rw [writeBack_store] at hl
  have hw : w2.store = w1.store ∧ size = assetListSize l0 ∧ (l0 = [] ∨ .assets l0 ∈ w1.store) := by
    split at hstart
    · rename_i id hlast
      split at hstart
      · cases hstart
      · rename_i hget
        cases hstart
        obtain ⟨g1, g2⟩ := getList_store hget
        refine ⟨g1, rfl, .inr ?_⟩
        rcases g2 with g2 | g2
        · exact d3.subset (findAssets_some (hclean id _ (d1 ▸ List.mem_of_getLast? hlast) (d2 ▸ g2))).1
        · exact (findAssets_some g2).1
    · cases hstart; exact ⟨rfl, rfl, .inl rfl⟩
  obtain ⟨e1, e2, e3⟩ := hw
  rcases List.mem_append.mp hl with hl | hl
  · rw [e1] at hl; exact .inl (enforceDir_assets h1 l hl)
  · obtain ⟨l', hl', e⟩ := List.mem_map.mp hl
    cases e
    rcases packAssets_sizes cfg hmax _ l0 size l0 (by rw [e2]; exact estimate_le l0) (.inl rfl)
      (fun h0 => assetListSize_eq_zero (by omega)) l hl' with h | h | h
    · rcases e3 with e3 | e3
      · right; right; rw [h, e3]; simp [estimate]
      · left; rw [h]; exact enforceDir_assets h1 _ e3
    · exact .inr (.inl h)
    · exact .inr (.inr h)

theorem takeAssets_full (cfg : Cfg) (full : List Asset → Nat) (rev : List Asset) (size : Nat) (over : List Asset)
    (h : size ≤ cfg.maxSize → full rev.reverse ≤ cfg.maxSize) (h0 : full [] ≤ cfg.maxSize) :
    full (takeAssets cfg full rev size over).1.reverse ≤ cfg.maxSize := by
  induction rev generalizing size over with
  | nil => exact h0
  | cons a rev ih =>
    unfold takeAssets
    dsimp only
    split
    · refine ih _ _ ?_
      split
      · exact fun h => h
      · intro h; omega
    · exact h (by omega)

/-- C28: shortening an asset list of a directory makes it fit and keeps its entries, in the list or among those that
are moved elsewhere (`over`). -/
theorem C28_list_shortened (cfg : Cfg) (hmax : 0 < cfg.maxSize) (l over : List Asset) :
    assetListSize (enforceList cfg l over).1 ≤ cfg.maxSize ∧
    ((enforceList cfg l over).1 ++ (enforceList cfg l over).2).Perm (l ++ over) := by
  have h : enforceList cfg l over = ((takeAssets cfg assetListSize l.reverse (assetListSize l) over).1.reverse,
      (takeAssets cfg assetListSize l.reverse (assetListSize l) over).2) := by
    unfold enforceList; rw [if_neg (by omega)]
  rw [h]
  refine ⟨takeAssets_full cfg _ _ _ _ (by simp) (by simp [assetListSize]), ?_⟩
  have := takeAssets_perm cfg assetListSize l.reverse (assetListSize l) over
  exact ((List.reverse_perm _).append_right _).trans (this.trans ((List.reverse_perm l).append_right over))

/-! ### What remains in the directory fits -/

theorem varintLen_mono {a b : Nat} (h : a ≤ b) : varintLen a ≤ varintLen b := by
  induction b using Nat.strongRecOn generalizing a with
  | _ b ih =>
    rw [varintLen, varintLen.eq_def b]
    split
    · split <;> omega
    · rw [if_neg (by omega)]
      have := ih (b / 128) (by omega) (a := a / 128) (Nat.div_le_div_right h)
      omega

theorem lenField_mono {a b : Nat} (h : a ≤ b) : lenField a + (b - a) ≤ lenField b := by
  have : varintLen a ≤ varintLen b := varintLen_mono h
  unfold lenField; omega

theorem assetListSize_perm {a b : List Asset} (h : a.Perm b) : assetListSize a = assetListSize b := by
  induction h with
  | nil => rfl
  | cons x _ ih => simp only [assetListSize, ih]
  | swap x y l => simp only [assetListSize]; omega
  | trans _ _ h1 h2 => exact h1.trans h2

/-- The bytes of a reference with an id of `N` bytes. -/
private def entrySize (N offset : Nat) : Nat := lenField (intField offset + lenField (bytesField N))

theorem packChunks_bytes {hash : Stored → Id} {N : Nat} (hN : ∀ x, (hash x).length = N) (limit : Nat) (over : List Ref)
    (base : Nat) (cur : List Ref) (size : Nat) :
    ((packChunks hash limit over base cur size).1.map fun i => lenField (indirectSize i)).sum ≤
      entrySize N base + (over.map fun r => entrySize N r.offset).sum := by
  induction over generalizing base cur size with
  | nil => simp [packChunks, indirectSize, idSize, hN, entrySize]
  | cons r over ih =>
    unfold packChunks
    dsimp only
    split
    · have := ih r.offset [{ r with offset := 0 }] (if refSize { r with offset := 0 } + overhead > limit then chunkListSize [{ r with offset := 0 }] else refSize { r with offset := 0 } + overhead)
      simp only [List.map_cons, List.sum_cons, indirectSize, idSize, hN] at this ⊢
      simp only [entrySize] at this ⊢
      omega
    · refine Nat.le_trans (ih _ _ _) ?_
      simp only [List.map_cons, List.sum_cons]
      omega

theorem enforceFile_size {cfg : Cfg} {N limit : Nat} (hN : ∀ x, (cfg.hash x).length = N) {a b : Asset} {w w' : Work}
    (ha : ∀ r ∈ a.info.chunks, r.id.length = N) (h : enforceFile cfg limit a w = some (b, w')) :
    assetSize b ≤ assetSize a := by
  unfold enforceFile at h
  dsimp only at h
  split at h
  · cases h; exact Nat.le_refl _
  split at h
  · cases h
  rename_i hind
  have hind : a.info.indirect = [] := by simpa using hind
  have hsp := takeChunks_spec limit (fun l => assetSize (.mk { a.info with chunks := l } a.children a.indirect))
    a.info.chunks.reverse (assetSize a) []
  generalize takeChunks limit (fun l => assetSize (.mk { a.info with chunks := l } a.children a.indirect))
    a.info.chunks.reverse (assetSize a) [] = t at h hsp
  obtain ⟨rev, over⟩ := t
  dsimp only at h hsp
  simp only [List.reverse_reverse, List.append_nil] at hsp
  cases over with
  | nil => cases h; exact Nat.le_refl _
  | cons r over =>
    dsimp only at h
    simp only [Option.some.injEq, Prod.mk.injEq] at h
    obtain ⟨rfl, -⟩ := h
    have hr : ∀ x ∈ a.info.chunks, lenField (refSize x) = entrySize N x.offset := fun x hx => by
      simp [refSize, idSize, entrySize, ha x hx]
    have hp : ((packChunks cfg.hash cfg.maxSize (r :: over) r.offset [] 0).1.map fun i => lenField (indirectSize i)).sum ≤
        ((r :: over).map fun x => entrySize N x.offset).sum := by
      unfold packChunks
      dsimp only
      rw [if_neg (by omega)]
      refine Nat.le_trans (packChunks_bytes hN _ _ _ _ _) ?_
      simp
    have e : (a.info.chunks.map fun x => lenField (refSize x)).sum =
        (rev.reverse.map fun x => lenField (refSize x)).sum + ((r :: over).map fun x => entrySize N x.offset).sum := by
      rw [← hsp, List.map_append, List.sum_append]
      congr 2
      exact List.map_congr_left fun x hx => hr x (by rw [← hsp]; exact List.mem_append_right _ hx)
    obtain ⟨m, cs, ids⟩ := a
    simp only [Asset.info_mk, Asset.children_mk, Asset.indirect_mk] at *
    simp only [assetSize, metaSize, hind, e, List.map_nil, List.sum_nil]
    omega

theorem enforceFiles_size {cfg : Cfg} {N limit : Nat} (hN : ∀ x, (cfg.hash x).length = N) {size : Nat} {cs : List Asset}
    {w : Work} {r} (hcs : ∀ a ∈ cs, ∀ c ∈ a.info.chunks, c.id.length = N)
    (h : enforceFiles cfg limit size cs w = some r) : assetListSize r.1 + size ≤ assetListSize cs + r.2.1 := by
  induction cs generalizing size w r with
  | nil => cases h; simp [assetListSize]
  | cons a as ih =>
    unfold enforceFiles at h
    split at h
    · cases h; exact Nat.le_refl _
    split at h
    · obtain ⟨r', hr, rfl⟩ := Option.map_eq_some_iff.mp h
      have := ih (r := r') (fun x hx => hcs x (by simp [hx])) hr
      simp only [assetListSize]; omega
    · split at h
      · cases h
      · rename_i b w1 hb
        obtain ⟨r', hr, rfl⟩ := Option.map_eq_some_iff.mp h
        have h1 := ih (r := r') (fun x hx => hcs x (by simp [hx])) hr
        have h2 := enforceFile_size hN (hcs a (by simp)) hb
        have h3 := lenField_mono h2
        simp only [assetListSize]
        omega

theorem takeAssets_fits (cfg : Cfg) (full : List Asset → Nat) (rev : List Asset) (size : Nat) (over : List Asset)
    (h : size ≤ cfg.maxSize → full rev.reverse ≤ cfg.maxSize) :
    (takeAssets cfg full rev size over).1 = [] ∨ full (takeAssets cfg full rev size over).1.reverse ≤ cfg.maxSize := by
  induction rev generalizing size over with
  | nil => exact .inl rfl
  | cons a rev ih =>
    unfold takeAssets
    dsimp only
    split
    · refine ih _ _ ?_
      split
      · exact fun h => h
      · intro h; omega
    · exact .inr (h (by omega))

/-- C28: the entries that stay in the directory itself fit: together with the directory's own data and the ids of the
lists it had before they respect the limit, unless no entry stays. (Content ids all have the same length, 20 bytes in
the code.) -/
theorem C28_directory_fits (cfg : Cfg) (hsort : ∀ l, (cfg.sort l).Perm l) (hmax : 0 < cfg.maxSize) (N : Nat)
    (hN : ∀ x, (cfg.hash x).length = N) (dir dir' : Asset) (over : List Asset) (w w' : Work)
    (hk : dir.info.kind = .directory) (hids : ∀ a ∈ dir.children, ∀ r ∈ a.info.chunks, r.id.length = N)
    (h : splitDir cfg dir over w = some (dir', w')) :
    dir'.children = [] ∨ assetSize (.mk dir.info dir'.children dir.indirect) ≤ cfg.maxSize := by
  unfold splitDir at h
  split at h
  · cases h
  rename_i dir1 over1 w1 h1
  have hch : dir'.children = dir1.children := by
    unfold appendOverflow at h
    split at h
    · cases h; rfl
    dsimp only at h
    split at h
    · cases h
    · cases h; simp
  rw [hch]
  clear h hch
  unfold enforceDir at h1
  split at h1
  · rename_i hc
    cases h1
    right
    rcases hc with hc | hc | hc
    · omega
    · exact absurd hk hc
    · obtain ⟨m, cs, ids⟩ := dir; exact hc
  dsimp only at h1
  split at h1
  · cases h1
  rename_i cs size w2 hfiles
  simp only [Option.some.injEq, Prod.mk.injEq] at h1
  obtain ⟨rfl, -, -⟩ := h1
  have hd : ∀ l, assetSize (.mk dir.info l dir.indirect) + assetListSize dir.children =
      assetSize dir + assetListSize l := fun l => by
    obtain ⟨m, cs, ids⟩ := dir
    simp only [assetSize, Asset.info_mk, Asset.children_mk, Asset.indirect_mk]; omega
  have hsz : assetSize (.mk dir.info cs dir.indirect) ≤ size := by
    have hs := assetListSize_perm (hsort dir.children)
    have := hd cs
    split at hfiles
    · simp only [Option.some.injEq, Prod.mk.injEq] at hfiles
      obtain ⟨rfl, rfl, -⟩ := hfiles
      omega
    · have := enforceFiles_size hN (fun a ha => hids a ((hsort _).mem_iff.mp ha)) hfiles
      dsimp only at this
      omega
  simp only [Asset.children_mk]
  rcases takeAssets_fits cfg (fun l => assetSize (.mk dir.info l dir.indirect)) cs.reverse size over
    (fun hle => by simp only [List.reverse_reverse]; omega) with h | h
  · left; rw [h]; rfl
  · exact .inr h

/-! ### Example: a directory with five entries, a limit of 20 bytes -/

namespace Example

def entry (c : UInt8) : Asset := .mk { name := [c, c, c], kind := .file } [] []

def hash2 : Stored → Id
  | .assets l => l.map fun a => a.name.headD 0
  | _ => [255]

def cfg2 : Cfg := { maxSize := 20, hash := hash2, sort := id, now := 0 }

def dir : Asset := .mk { kind := .directory } [entry 1, entry 2, entry 3] [[9]]

def w0 : Work := ⟨[], [.assets [entry 9]]⟩

def dir2 : Asset := .mk { kind := .directory } [entry 1] [[9, 2], [3]]

def w2 : Work := ⟨[([3], [entry 3]), ([9, 2], [entry 9, entry 2])],
  [.assets [entry 9], .assets [entry 9, entry 2], .assets [entry 3]]⟩

theorem split : splitDir cfg2 dir [] w0 = some (dir2, w2) := by with_unfolding_all rfl

theorem noCollision2 : NoCollision hash2 w2.store := by
  intro p q hp hq e
  simp only [w2, List.mem_cons, List.not_mem_nil, or_false] at hp hq
  rcases hp with rfl | rfl | rfl <;> rcases hq with rfl | rfl | rfl <;> first | rfl | exact absurd e (by decide)

example : ∃ es' p, entries (findAssets hash2 w2.store) dir2 = some es' ∧ p.Perm es' ∧
    List.Forall₂ (SameEntry hash2 w0.store w2.store) [entry 1, entry 2, entry 3, entry 9] p :=
  (C28_same_entries cfg2 (fun _ => .refl _) dir dir2 [] w0 w2 split (by
    intro a ha
    simp only [dir, Asset.children_mk, List.mem_cons, List.not_mem_nil, or_false] at ha
    rcases ha with rfl | rfl | rfl <;> exact List.Pairwise.nil) (by intro id l _ h; cases h) noCollision2
    [entry 1, entry 2, entry 3, entry 9] rfl).2.2

/-- The hypotheses of `C28_directory_fits` with ids of one byte: two of the three entries leave the directory. -/
def hash3 : Stored → Id
  | .assets l => [(l.map fun a => a.name.headD 0).sum]
  | _ => [255]

def cfg3 : Cfg := { cfg2 with hash := hash3 }

example : ∃ d w, splitDir cfg3 dir [] w0 = some (d, w) ∧ d.children = [entry 1] ∧ cfg3.maxSize < assetSize dir ∧
    (d.children = [] ∨ assetSize (.mk dir.info d.children dir.indirect) ≤ cfg3.maxSize) := by
  have h : splitDir cfg3 dir [] w0 = some (.mk { kind := .directory } [entry 1] [[11], [3]], ⟨[([3], [entry 3]),
    ([11], [entry 9, entry 2])], [.assets [entry 9], .assets [entry 9, entry 2], .assets [entry 3]]⟩) := by
    with_unfolding_all rfl
  refine ⟨_, _, h, rfl, by with_unfolding_all decide, C28_directory_fits cfg3 (fun _ => .refl _) (by decide) 1 ?_ dir _ []
    w0 _ rfl ?_ h⟩
  · intro x; cases x <;> rfl
  · intro a ha
    simp only [dir, Asset.children_mk, List.mem_cons, List.not_mem_nil, or_false] at ha
    rcases ha with rfl | rfl | rfl <;> intro r hr <;> cases hr

end Example

end Verif.Manifest
