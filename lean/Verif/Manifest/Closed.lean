import Verif.Manifest.Dirs

/-! # The store never holds a reference to something that is not there (part of C32)

Everything the builder writes only refers to protos that were written before, in any history of loading,
changing, deleting and flushing. So whenever the process stops, every manifest in the store is complete. -/
namespace Verif.Manifest

/-! ### Specification -/

/-- `Reach hash S a x`: the asset `x` is `a` or below it, following the lists in the store `S`. -/
inductive Reach (hash : Stored → Id) (S : List Stored) : Asset → Asset → Prop where
  | self (a : Asset) : Reach hash S a a
  | child {a x c : Asset} : Reach hash S a x → c ∈ x.children → Reach hash S a c
  | indirect {a x c : Asset} {id : Id} {l : List Asset} : Reach hash S a x → id ∈ x.indirect →
      findAssets hash S id = some l → c ∈ l → Reach hash S a c

/-- Every list that is referred to by `a` or anything below is in the store. -/
def Complete (hash : Stored → Id) (S : List Stored) (a : Asset) : Prop :=
  ∀ x, Reach hash S a x →
    (∀ i ∈ x.info.indirect, ∃ l, findChunks hash S i.listId = some l) ∧
    (∀ id ∈ x.indirect, ∃ l, findAssets hash S id = some l)

/-! ### Invariant -/

section
variable (hash : Stored → Id)

mutual
/-- The ids in the asset and its direct descendants are in the store. -/
def Held (S : List Stored) : Asset → Prop
  | .mk m cs ids => (∀ i ∈ m.indirect, ∃ l, .chunks l ∈ S ∧ hash (.chunks l) = i.listId) ∧
    (∀ id ∈ ids, ∃ l, .assets l ∈ S ∧ hash (.assets l) = id) ∧ HeldL S cs

def HeldL (S : List Stored) : List Asset → Prop
  | [] => True
  | a :: as => Held S a ∧ HeldL S as
end

theorem heldL_iff (S : List Stored) (l : List Asset) : HeldL hash S l ↔ ∀ a ∈ l, Held hash S a := by
  induction l with
  | nil => simp [HeldL]
  | cons a l ih => simp [HeldL, ih]

theorem held_iff (S : List Stored) (a : Asset) : Held hash S a ↔
    (∀ i ∈ a.info.indirect, ∃ l, .chunks l ∈ S ∧ hash (.chunks l) = i.listId) ∧
    (∀ id ∈ a.indirect, ∃ l, .assets l ∈ S ∧ hash (.assets l) = id) ∧ ∀ c ∈ a.children, Held hash S c := by
  cases a with
  | mk m cs ids => simp only [Held, heldL_iff]; rfl

mutual
theorem Held.mono {S S' : List Stored} (h : ∀ p ∈ S, p ∈ S') : (a : Asset) → Held hash S a → Held hash S' a
  | .mk m cs ids, ha => by
    simp only [Held] at ha ⊢
    exact ⟨fun i hi => (ha.1 i hi).imp fun l hl => ⟨h _ hl.1, hl.2⟩, fun i hi => (ha.2.1 i hi).imp fun l hl => ⟨h _ hl.1, hl.2⟩,
      HeldL.mono h cs ha.2.2⟩

theorem HeldL.mono {S S' : List Stored} (h : ∀ p ∈ S, p ∈ S') : (l : List Asset) → HeldL hash S l → HeldL hash S' l
  | [], _ => trivial
  | a :: as, hl => ⟨Held.mono h a hl.1, HeldL.mono h as hl.2⟩
end

/-- What a stored proto refers to is in the store. -/
def HeldP (S : List Stored) : Stored → Prop
  | .chunks _ => True
  | .assets l => HeldL hash S l
  | .manifest a => Held hash S a

theorem HeldP.mono {S S' : List Stored} (h : ∀ p ∈ S, p ∈ S') {p : Stored} (hp : HeldP hash S p) : HeldP hash S' p := by
  cases p with
  | chunks => trivial
  | assets l => exact HeldL.mono hash h l hp
  | manifest a => exact Held.mono hash h a hp

/-- Everything refers to protos that were written earlier. -/
inductive Closed : List Stored → Prop where
  | nil : Closed []
  | snoc {S : List Stored} {p : Stored} : Closed S → HeldP hash S p → Closed (S ++ [p])

end

variable {hash : Stored → Id}

theorem Closed.mem {S : List Stored} (h : Closed hash S) {p : Stored} (hp : p ∈ S) : HeldP hash S p := by
  induction h with
  | nil => cases hp
  | snoc _ hq ih =>
    rcases List.mem_append.mp hp with hp | hp
    · exact (ih hp).mono hash fun p hp => List.mem_append_left _ hp
    · rw [List.mem_singleton.mp hp]; exact hq.mono hash fun p hp => List.mem_append_left _ hp

theorem Closed.prefix {S P : List Stored} (h : Closed hash S) (hp : P <+: S) : Closed hash P := by
  induction h with
  | nil => rw [List.prefix_nil.mp hp]; exact .nil
  | @snoc S p h1 h2 ih =>
    obtain ⟨t, ht⟩ := hp
    rcases List.eq_nil_or_concat t with rfl | ⟨t', x, rfl⟩
    · rw [List.append_nil] at ht; rw [ht]; exact h1.snoc h2
    · rw [List.concat_eq_append, ← List.append_assoc] at ht
      have := List.append_inj_left' ht rfl
      exact ih ⟨t', this⟩

theorem Closed.append {S : List Stored} (h : Closed hash S) {ps : List Stored} (hp : ∀ p ∈ ps, HeldP hash S p) :
    Closed hash (S ++ ps) := by
  induction ps generalizing S with
  | nil => simpa using h
  | cons p ps ih =>
    have := ih (h.snoc (hp p (by simp))) fun q hq => (hp q (by simp [hq])).mono hash fun x hx => List.mem_append_left _ hx
    simpa using this

theorem held_of_reach {S : List Stored} (h : Closed hash S) {a x : Asset} (ha : Held hash S a) (hx : Reach hash S a x) :
    Held hash S x := by
  induction hx with
  | self => exact ha
  | child _ hc ih => exact ((held_iff hash S _).mp ih).2.2 _ hc
  | indirect _ _ hl hc _ =>
    have := h.mem (findAssets_some hl).1
    exact (heldL_iff hash S _).mp this _ hc

theorem complete_of_held {S : List Stored} (h : Closed hash S) {a : Asset} (ha : Held hash S a) : Complete hash S a := by
  intro x hx
  have := (held_iff hash S x).mp (held_of_reach h ha hx)
  constructor
  · intro i hi
    obtain ⟨l, hl, e⟩ := this.1 i hi
    rw [← e]; exact findChunks_exists hl
  · intro i hi
    obtain ⟨l, hl, e⟩ := this.2.1 i hi
    rw [← e]; exact findAssets_exists hl

/-! ### Preservation -/

/-- The invariant of the builder's working state. -/
structure Good (hash : Stored → Id) (w : Work) : Prop where
  closed : Closed hash w.store
  lists : ∀ id l, (id, l) ∈ w.lists → HeldL hash w.store l

theorem mem_of_find {ls : Lists} {id : Id} {l : List Asset} (h : ls.find id = some l) : (id, l) ∈ ls := by
  unfold Lists.find at h
  obtain ⟨e, he, rfl⟩ := Option.map_eq_some_iff.mp h
  have h1 := List.mem_of_find?_eq_some he
  have h2 := List.find?_some he
  simp only [decide_eq_true_eq] at h2
  rw [← h2]; exact h1

theorem mem_erase {ls : Lists} {id k : Id} {l : List Asset} (h : (k, l) ∈ ls.erase id) : (k, l) ∈ ls :=
  (List.mem_filter.mp h).1

theorem mem_set {ls : Lists} {id k : Id} {l l' : List Asset} (h : (k, l') ∈ ls.set id l) : l' = l ∨ (k, l') ∈ ls := by
  rcases List.mem_cons.mp h with h | h
  · exact .inl (Prod.mk.inj h).2
  · exact .inr (mem_erase h)

theorem Good.setList {w : Work} (h : Good hash w) (id : Id) {l : List Asset} (hl : HeldL hash w.store l) :
    Good hash { w with lists := w.lists.set id l } :=
  ⟨h.closed, fun k l' hm => (mem_set hm).elim (fun e => e ▸ hl) (h.lists k l')⟩

theorem Good.eraseList {w : Work} (h : Good hash w) (id : Id) : Good hash { w with lists := w.lists.erase id } :=
  ⟨h.closed, fun k l' hm => h.lists k l' (mem_erase hm)⟩

theorem Good.write {w : Work} (h : Good hash w) {ps : List Stored} (hp : ∀ p ∈ ps, HeldP hash w.store p) :
    Good hash { w with store := w.store ++ ps } :=
  ⟨h.closed.append hp, fun k l hm => HeldL.mono hash (fun _ hx => List.mem_append_left _ hx) _ (h.lists k l hm)⟩

/-- `Ext w w'`: the store of `w'` extends that of `w`. -/
def Ext (w w' : Work) : Prop := w.store <+: w'.store

theorem Ext.trans {a b c : Work} (h : Ext a b) (h' : Ext b c) : Ext a c := List.IsPrefix.trans h h'

theorem Ext.held {w w' : Work} (h : Ext w w') {a : Asset} (ha : Held hash w.store a) : Held hash w'.store a :=
  Held.mono hash (fun _ hx => h.subset hx) a ha

theorem Ext.heldL {w w' : Work} (h : Ext w w') {l : List Asset} (ha : HeldL hash w.store l) : HeldL hash w'.store l :=
  HeldL.mono hash (fun _ hx => h.subset hx) l ha

theorem heldL_append {S : List Stored} {a b : List Asset} : HeldL hash S (a ++ b) ↔ HeldL hash S a ∧ HeldL hash S b := by
  simp only [heldL_iff, List.mem_append]
  exact ⟨fun h => ⟨fun x hx => h x (.inl hx), fun x hx => h x (.inr hx)⟩, fun h x hx => hx.elim (h.1 x) (h.2 x)⟩

theorem heldL_perm {S : List Stored} {a b : List Asset} (h : a.Perm b) (hb : HeldL hash S b) : HeldL hash S a := by
  rw [heldL_iff] at hb ⊢; exact fun x hx => hb x (h.mem_iff.mp hx)

theorem packChunks_ids (limit : Nat) (over : List Ref) (base : Nat) (cur : List Ref) (size : Nat) :
    ∀ i ∈ (packChunks hash limit over base cur size).1, ∃ l ∈ (packChunks hash limit over base cur size).2,
      hash (.chunks l) = i.listId := by
  induction over generalizing base cur size with
  | nil => intro i hi; simp only [packChunks, List.mem_singleton] at hi; exact ⟨cur, by simp [packChunks], by rw [hi]⟩
  | cons r over ih =>
    unfold packChunks
    dsimp only
    split
    · intro i hi
      rcases List.mem_cons.mp hi with rfl | hi
      · exact ⟨cur, List.mem_cons_self, rfl⟩
      · obtain ⟨l, hl, e⟩ := ih _ _ _ i hi
        exact ⟨l, List.mem_cons_of_mem _ hl, e⟩
    · exact ih _ _ _

theorem enforceFile_good {cfg : Cfg} {limit : Nat} {file file' : Asset} {w w' : Work}
    (h : enforceFile cfg limit file w = some (file', w')) (hg : Good cfg.hash w) (hf : Held cfg.hash w.store file) :
    Good cfg.hash w' ∧ Ext w w' ∧ Held cfg.hash w'.store file' := by
  unfold enforceFile at h
  dsimp only at h
  split at h
  · cases h; exact ⟨hg, List.prefix_rfl, hf⟩
  split at h
  · cases h
  split at h
  · cases h; exact ⟨hg, List.prefix_rfl, hf⟩
  · rename_i r tl heq
    cases h
    have hx : Good cfg.hash { w with store := w.store ++
        (packChunks cfg.hash cfg.maxSize (takeChunks limit (fun l => assetSize (.mk { file.info with chunks := l } file.children file.indirect))
          file.info.chunks.reverse (assetSize file) []).2 r.offset [] 0).2.map .chunks } := by
      refine hg.write ?_
      intro p hp
      obtain ⟨l, _, rfl⟩ := List.mem_map.mp hp
      trivial
    refine ⟨hx, ⟨_, rfl⟩, ?_⟩
    have h1 := (held_iff _ _ _).mp hf
    rw [held_iff]
    refine ⟨?_, ?_, ?_⟩
    · intro i hi
      obtain ⟨l, hl, e⟩ := packChunks_ids _ _ _ _ _ i hi
      exact ⟨l, List.mem_append_right _ (List.mem_map.mpr ⟨l, hl, rfl⟩), e⟩
    · intro i hi
      obtain ⟨l, hl, e⟩ := h1.2.1 i hi
      exact ⟨l, List.mem_append_left _ hl, e⟩
    · intro c hc
      exact Held.mono _ (fun _ hx => List.mem_append_left _ hx) _ (h1.2.2 c hc)

theorem enforceFiles_good {cfg : Cfg} {limit size : Nat} {cs : List Asset} {w : Work} {r}
    (h : enforceFiles cfg limit size cs w = some r) (hg : Good cfg.hash w) (hf : HeldL cfg.hash w.store cs) :
    Good cfg.hash r.2.2 ∧ Ext w r.2.2 ∧ HeldL cfg.hash r.2.2.store r.1 := by
  induction cs generalizing size w r with
  | nil => cases h; exact ⟨hg, List.prefix_rfl, hf⟩
  | cons a as ih =>
    unfold enforceFiles at h
    split at h
    · cases h; exact ⟨hg, List.prefix_rfl, hf⟩
    split at h
    · obtain ⟨r', hr, rfl⟩ := Option.map_eq_some_iff.mp h
      obtain ⟨h1, h2, h3⟩ := ih (r := r') hr hg hf.2
      exact ⟨h1, h2, h2.held hf.1, h3⟩
    · split at h
      · cases h
      · rename_i b w1 hb
        obtain ⟨r', hr, rfl⟩ := Option.map_eq_some_iff.mp h
        obtain ⟨g1, g2, g3⟩ := enforceFile_good hb hg hf.1
        obtain ⟨h1, h2, h3⟩ := ih (r := r') hr g1 (g2.heldL hf.2)
        exact ⟨h1, g2.trans h2, h2.held g3, h3⟩

theorem enforceDir_good {cfg : Cfg} (hsort : ∀ l, (cfg.sort l).Perm l) {dir dir' : Asset} {over over' : List Asset} {w w' : Work}
    (h : enforceDir cfg dir over w = some (dir', over', w')) (hg : Good cfg.hash w)
    (hd : Held cfg.hash w.store dir) (ho : HeldL cfg.hash w.store over) :
    Good cfg.hash w' ∧ Ext w w' ∧ Held cfg.hash w'.store dir' ∧ HeldL cfg.hash w'.store over' := by
  unfold enforceDir at h
  split at h
  · cases h; exact ⟨hg, List.prefix_rfl, hd, ho⟩
  dsimp only at h
  split at h
  · cases h
  rename_i cs size w1 hf
  cases h
  have h1 := (held_iff _ _ _).mp hd
  have hcs : HeldL cfg.hash w.store (cfg.sort dir.children) := heldL_perm (hsort _) ((heldL_iff _ _ _).mpr h1.2.2)
  have key : Good cfg.hash w' ∧ Ext w w' ∧ HeldL cfg.hash w'.store cs := by
    split at hf
    · cases hf; exact ⟨hg, List.prefix_rfl, hcs⟩
    · exact enforceFiles_good hf hg hcs
  obtain ⟨k1, k2, k3⟩ := key
  have hp := takeAssets_perm cfg (fun l => assetSize (.mk dir.info l dir.indirect)) cs.reverse size over
  have hall := heldL_append.mp (heldL_perm hp (heldL_append.mpr ⟨heldL_perm (List.reverse_perm cs) k3, k2.heldL ho⟩))
  refine ⟨k1, k2, ?_, hall.2⟩
  have h2 := (held_iff _ _ _).mp (k2.held hd)
  rw [held_iff]
  exact ⟨h2.1, h2.2.1, (heldL_iff _ _ _).mp (heldL_perm (List.reverse_perm _) hall.1)⟩

theorem writeBack_good {cfg : Cfg} {ls : List (List Asset)} {w : Work} (hg : Good cfg.hash w)
    (hl : ∀ l ∈ ls, HeldL cfg.hash w.store l) : Good cfg.hash (writeBack cfg ls w) ∧ Ext w (writeBack cfg ls w) := by
  induction ls generalizing w with
  | nil => exact ⟨hg, List.prefix_rfl⟩
  | cons l ls ih =>
    have hl0 := hl l (by simp)
    have hg1 : Good cfg.hash ⟨w.lists.set (cfg.hash (.assets l)) l, w.store ++ [.assets l]⟩ :=
      (hg.setList _ hl0).write (by intro p hp; rw [List.mem_singleton.mp hp]; exact hl0)
    have he : Ext w ⟨w.lists.set (cfg.hash (.assets l)) l, w.store ++ [.assets l]⟩ := ⟨_, rfl⟩
    obtain ⟨h1, h2⟩ := ih hg1 fun l' hl' => he.heldL (hl l' (by simp [hl']))
    exact ⟨h1, he.trans h2⟩

theorem getList_good {cfg : Cfg} {w w' : Work} {id : Id} {l : List Asset} (h : getList cfg w id = some (l, w'))
    (hg : Good cfg.hash w) : Good cfg.hash w' ∧ w'.store = w.store ∧ HeldL cfg.hash w.store l := by
  unfold getList at h
  split at h
  · rename_i hf; cases h; exact ⟨hg, rfl, hg.lists _ _ (mem_of_find hf)⟩
  · split at h
    · cases h
    · rename_i hf
      cases h
      have : HeldL cfg.hash w.store l := hg.closed.mem (findAssets_some hf).1
      exact ⟨hg.setList _ this, rfl, this⟩

theorem appendOverflow_good {cfg : Cfg} {dir dir' : Asset} {over : List Asset} {w w' : Work}
    (h : appendOverflow cfg dir over w = some (dir', w')) (hg : Good cfg.hash w)
    (hd : Held cfg.hash w.store dir) (ho : HeldL cfg.hash w.store over) :
    Good cfg.hash w' ∧ Ext w w' ∧ Held cfg.hash w'.store dir' := by
  unfold appendOverflow at h
  split at h
  · cases h; exact ⟨hg, List.prefix_rfl, hd⟩
  dsimp only at h
  split at h
  · cases h
  rename_i ids l size w1 hstart
  cases h
  have h1 := (held_iff _ _ _).mp hd
  obtain ⟨s1, s2, s3, s4⟩ : Good cfg.hash w1 ∧ w1.store = w.store ∧ HeldL cfg.hash w.store l ∧ ∀ id ∈ ids, id ∈ dir.indirect := by
    split at hstart
    · split at hstart
      · cases hstart
      · rename_i hget
        cases hstart
        obtain ⟨g1, g2, g3⟩ := getList_good hget hg
        exact ⟨g1.eraseList _, g2, g3, fun id hid => List.dropLast_subset _ hid⟩
    · cases hstart; exact ⟨hg, rfl, trivial, by simp⟩
  have hls : ∀ l' ∈ packAssets cfg over.reverse l size, HeldL cfg.hash w1.store l' := by
    intro l' hl'
    rw [s2, heldL_iff]
    intro a ha
    have : a ∈ (packAssets cfg over.reverse l size).flatten := List.mem_flatten.mpr ⟨l', hl', ha⟩
    rw [packAssets_flatten] at this
    rcases List.mem_append.mp this with h | h
    · exact (heldL_iff _ _ _).mp s3 a h
    · exact (heldL_iff _ _ _).mp ho a (List.mem_reverse.mp h)
  obtain ⟨w1g, w1e⟩ := writeBack_good s1 hls
  have he : Ext w (writeBack cfg (packAssets cfg over.reverse l size) w1) := by
    unfold Ext at w1e ⊢; rw [← s2]; exact w1e
  refine ⟨w1g, he, ?_⟩
  have h2 := (held_iff _ _ _).mp (he.held hd)
  rw [held_iff]
  refine ⟨h2.1, ?_, h2.2.2⟩
  intro id hid
  rcases List.mem_append.mp hid with hid | hid
  · exact h2.2.1 id (s4 id hid)
  · obtain ⟨l', hl', rfl⟩ := List.mem_map.mp hid
    refine ⟨l', ?_, rfl⟩
    rw [writeBack_store]
    exact List.mem_append_right _ (List.mem_map.mpr ⟨l', hl', rfl⟩)

theorem enforceList_perm (cfg : Cfg) (l over : List Asset) :
    ((enforceList cfg l over).1 ++ (enforceList cfg l over).2).Perm (l ++ over) := by
  rcases Nat.eq_zero_or_pos cfg.maxSize with h | h
  · unfold enforceList; rw [if_pos h]
  · exact (C28_list_shortened cfg h l over).2

theorem flushOneList_good {cfg : Cfg} {id : Id} {l over : List Asset} {w : Work} (hg : Good cfg.hash w)
    (hl : HeldL cfg.hash w.store l) (ho : HeldL cfg.hash w.store over) :
    let r := flushOneList cfg id l over w
    Good cfg.hash r.2.2 ∧ Ext w r.2.2 ∧ HeldL cfg.hash r.2.2.store r.2.1 ∧
      ∀ id ∈ r.1.toList, ∃ l, .assets l ∈ r.2.2.store ∧ cfg.hash (.assets l) = id := by
  have hall := heldL_append.mp (heldL_perm (enforceList_perm cfg l over) (heldL_append.mpr ⟨hl, ho⟩))
  unfold flushOneList
  dsimp only
  split
  · refine ⟨hg.setList _ hall.1, List.prefix_rfl, hall.2, by simp⟩
  · have hg1 : Good cfg.hash ⟨(w.lists.erase id).set (cfg.hash (.assets (enforceList cfg l over).1)) (enforceList cfg l over).1,
        w.store ++ [.assets (enforceList cfg l over).1]⟩ :=
      ((hg.eraseList id).setList _ hall.1).write (by intro p hp; rw [List.mem_singleton.mp hp]; exact hall.1)
    have he : Ext w ⟨(w.lists.erase id).set (cfg.hash (.assets (enforceList cfg l over).1)) (enforceList cfg l over).1,
        w.store ++ [.assets (enforceList cfg l over).1]⟩ := ⟨_, rfl⟩
    refine ⟨hg1, he, he.heldL hall.2, ?_⟩
    intro id hid
    simp only [Option.toList_some, List.mem_singleton] at hid
    exact ⟨_, List.mem_append_right _ (List.mem_singleton.mpr rfl), hid.symm⟩

theorem flush_good {cfg : Cfg} (hsort : ∀ l, (cfg.sort l).Perm l) (fuel : Nat) :
    (∀ dir w dir' w', flushDir cfg fuel dir w = some (dir', w') → Good cfg.hash w → Held cfg.hash w.store dir →
      Good cfg.hash w' ∧ Ext w w' ∧ Held cfg.hash w'.store dir') ∧
    (∀ l w l' w', flushList cfg fuel l w = some (l', w') → Good cfg.hash w → HeldL cfg.hash w.store l →
      Good cfg.hash w' ∧ Ext w w' ∧ HeldL cfg.hash w'.store l') ∧
    (∀ ids over w ids' over' w', flushIndirect cfg fuel ids over w = some (ids', over', w') → Good cfg.hash w →
      (∀ id ∈ ids, ∃ l, .assets l ∈ w.store ∧ cfg.hash (.assets l) = id) → HeldL cfg.hash w.store over →
      Good cfg.hash w' ∧ Ext w w' ∧ (∀ id ∈ ids', ∃ l, .assets l ∈ w'.store ∧ cfg.hash (.assets l) = id) ∧
      HeldL cfg.hash w'.store over') := by
  induction fuel with
  | zero =>
    refine ⟨?_, ?_, ?_⟩ <;> intros <;> simp_all [flushDir, flushList, flushIndirect]
  | succ fuel ih =>
    obtain ⟨ihD, ihL, ihI⟩ := ih
    refine ⟨?_, ?_, ?_⟩
    · intro dir w dir' w' h hg hd
      have h1 := (held_iff _ _ _).mp hd
      unfold flushDir at h
      split at h
      · cases h
      rename_i cs w1 hl
      obtain ⟨a1, a2, a3⟩ := ihL _ _ _ _ hl hg ((heldL_iff _ _ _).mpr h1.2.2)
      split at h
      · cases h
      rename_i ids over w2 hi
      have h1' := (held_iff _ _ _).mp (a2.held hd)
      obtain ⟨b1, b2, b3, b4⟩ := ihI _ _ _ _ _ _ hi a1 h1'.2.1 trivial
      split at h
      · cases h
      rename_i dir2 over2 w3 he
      have h1'' := (held_iff _ _ _).mp ((a2.trans b2).held hd)
      obtain ⟨c1, c2, c3, c4⟩ := enforceDir_good hsort he b1
        ((held_iff _ _ _).mpr ⟨h1''.1, b3, (heldL_iff _ _ _).mp (b2.heldL a3)⟩) b4
      obtain ⟨d1, d2, d3⟩ := appendOverflow_good h c1 c3 c4
      exact ⟨d1, (a2.trans b2).trans (c2.trans d2), d3⟩
    · intro l w l' w' h hg hl
      cases l with
      | nil => simp only [flushList] at h; cases h; exact ⟨hg, List.prefix_rfl, hl⟩
      | cons a as =>
        simp only [flushList] at h
        split at h
        · cases h
        rename_i b w1 hb
        have key : Good cfg.hash w1 ∧ Ext w w1 ∧ Held cfg.hash w1.store b := by
          split at hb
          · exact ihD _ _ _ _ hb hg hl.1
          · cases hb; exact ⟨hg, List.prefix_rfl, hl.1⟩
        obtain ⟨a1, a2, a3⟩ := key
        split at h
        · cases h
        rename_i bs w2 hbs
        cases h
        obtain ⟨b1, b2, b3⟩ := ihL _ _ _ _ hbs a1 (a2.heldL hl.2)
        exact ⟨b1, a2.trans b2, b2.held a3, b3⟩
    · intro ids over w ids' over' w' h hg hids ho
      cases ids with
      | nil => simp only [flushIndirect] at h; cases h; exact ⟨hg, List.prefix_rfl, by simp, ho⟩
      | cons id ids =>
        simp only [flushIndirect] at h
        split at h
        · split at h
          · cases h
          rename_i ids1 over1 w1 h1
          cases h
          obtain ⟨a1, a2, a3, a4⟩ := ihI _ _ _ _ _ _ h1 hg (fun i hi => hids i (by simp [hi])) ho
          refine ⟨a1, a2, ?_, a4⟩
          intro i hi
          rcases List.mem_cons.mp hi with rfl | hi
          · obtain ⟨l, hl, e⟩ := hids i (by simp)
            exact ⟨l, a2.subset hl, e⟩
          · exact a3 i hi
        · rename_i l hfind
          split at h
          · cases h
          rename_i l1 w1 hl1
          obtain ⟨a1, a2, a3⟩ := ihL _ _ _ _ hl1 hg (hg.lists _ _ (mem_of_find hfind))
          have hone := flushOneList_good (id := id) a1 a3 (a2.heldL ho)
          dsimp only at hone
          split at h
          · cases h
          rename_i ids1 over1 w2 h1
          cases h
          obtain ⟨b1, b2, b3, b4⟩ := hone
          obtain ⟨c1, c2, c3, c4⟩ := ihI _ _ _ _ _ _ h1 b1
            (fun i hi => by
              obtain ⟨l, hl, e⟩ := hids i (by simp [hi])
              exact ⟨l, b2.subset (a2.subset hl), e⟩) b3
          refine ⟨c1, (a2.trans b2).trans c2, ?_, c4⟩
          intro i hi
          rcases List.mem_append.mp hi with hi | hi
          · obtain ⟨l, hl, e⟩ := b4 i hi
            exact ⟨l, c2.subset hl, e⟩
          · exact c3 i hi

/-- The invariant of the builder. -/
def GoodB (hash : Stored → Id) (b : Builder) : Prop := Good hash ⟨b.lists, b.store⟩ ∧ Held hash b.store b.root

theorem goodB_flush {cfg : Cfg} (hsort : ∀ l, (cfg.sort l).Perm l) {fuel : Nat} {b b' : Builder} {id : Id}
    (h : flush cfg fuel b = some (id, b')) (hg : GoodB cfg.hash b) :
    GoodB cfg.hash b' ∧ b.store <+: b'.store ∧ .manifest b'.root ∈ b'.store ∧ cfg.hash (.manifest b'.root) = id := by
  unfold flush at h
  split at h
  · cases h
  rename_i root w hf
  cases h
  obtain ⟨a1, a2, a3⟩ := (flush_good hsort fuel).1 _ _ _ _ hf hg.1 hg.2
  have hw := a1.write (ps := [.manifest root]) (by intro p hp; rw [List.mem_singleton.mp hp]; exact a3)
  refine ⟨⟨hw, Held.mono _ (fun _ hx => List.mem_append_left _ hx) _ a3⟩, ?_, by simp, rfl⟩
  exact List.IsPrefix.trans a2 ⟨[.manifest root], rfl⟩

theorem goodB_load {cfg : Cfg} {store : List Stored} {id : Id} {b : Builder} (h : loadManifest cfg store id = some b)
    (hc : Closed cfg.hash store) : GoodB cfg.hash b ∧ b.store = store := by
  unfold loadManifest at h
  obtain ⟨root, hr, rfl⟩ := Option.map_eq_some_iff.mp h
  refine ⟨⟨⟨hc, by simp⟩, ?_⟩, rfl⟩
  unfold findManifest at hr
  obtain ⟨l₁, p, l₂, rfl, hp, -⟩ := List.findSome?_eq_some_iff.mp hr
  cases p with
  | chunks => cases hp
  | assets => cases hp
  | manifest r =>
    dsimp only at hp
    split at hp
    · cases hp; exact hc.mem (p := .manifest root) (by simp)
    · cases hp

/-! ### Changing and deleting assets -/

/-- A step on an asset found in a list keeps the invariant. -/
def Keeps {α : Type} (hash : Stored → Id) (f : Asset → Work → Except Err (Asset × Work × α)) : Prop :=
  ∀ a w a' w' r, f a w = .ok (a', w', r) → Good hash w → Held hash w.store a →
    Good hash w' ∧ Ext w w' ∧ Held hash w'.store a'

theorem inList_good {α : Type} {name : Name} {f : Asset → Work × Option α → Except Err (Asset × Work × Option α)}
    (hf : Keeps hash fun a w => f a (w, none)) {l : List Asset} {w : Work} {l' : List Asset} {w' : Work} {r : Option α}
    (h : inList name f l (w, none) = some (.ok (l', w', r))) (hg : Good hash w) (hl : HeldL hash w.store l) :
    Good hash w' ∧ Ext w w' ∧ HeldL hash w'.store l' := by
  induction l generalizing l' w' r with
  | nil => cases h
  | cons a as ih =>
    unfold inList at h
    split at h
    · simp only [Option.some.injEq] at h
      split at h
      · cases h
      · rename_i b s hb
        cases h
        obtain ⟨h1, h2, h3⟩ := hf _ _ _ _ _ hb hg hl.1
        exact ⟨h1, h2, h3, h2.heldL hl.2⟩
    · obtain ⟨r', hr, e⟩ := Option.map_eq_some_iff.mp h
      cases r' with
      | error => cases e
      | ok v =>
        obtain ⟨bs, w1, r1⟩ := v
        cases e
        obtain ⟨h1, h2, h3⟩ := ih hr hl.2
        exact ⟨h1, h2, h2.held hl.1, h3⟩

theorem inIndirect_good {α : Type} {cfg : Cfg} {name : Name} {f : Asset → Work × Option α → Except Err (Asset × Work × Option α)}
    (hf : Keeps cfg.hash fun a w => f a (w, none)) {ids : List Id} {w w' : Work} {r : Option α} {b : Bool}
    (h : inIndirect cfg name f ids w = .ok (r, w', b)) (hg : Good cfg.hash w) : Good cfg.hash w' ∧ Ext w w' := by
  induction ids generalizing w with
  | nil => simp only [inIndirect] at h; cases h; exact ⟨hg, List.prefix_rfl⟩
  | cons id ids ih =>
    unfold inIndirect at h
    split at h
    · cases h
    rename_i l w1 hget
    obtain ⟨g1, g2, g3⟩ := getList_good hget hg
    have he : Ext w w1 := by unfold Ext; rw [g2]; exact List.prefix_rfl
    split at h
    · cases h
    · rename_i l2 w2 a hin
      cases h
      obtain ⟨i1, i2, i3⟩ := inList_good hf hin g1 (g2 ▸ g3)
      exact ⟨i1.setList _ i3, he.trans i2⟩
    · obtain ⟨i1, i2⟩ := ih h g1
      exact ⟨i1, he.trans i2⟩

theorem inDir_good {α : Type} {cfg : Cfg} {name : Name} {f : Asset → Work × Option α → Except Err (Asset × Work × Option α)}
    (hf : Keeps cfg.hash fun a w => f a (w, none)) {dir dir' : Asset} {w w' : Work} {r : Option α} {b : Bool}
    (h : inDir cfg name f dir w = .ok (dir', w', r, b)) (hg : Good cfg.hash w) (hd : Held cfg.hash w.store dir) :
    Good cfg.hash w' ∧ Ext w w' ∧ Held cfg.hash w'.store dir' := by
  have h1 := (held_iff _ _ _).mp hd
  unfold inDir at h
  split at h
  · cases h
  · rename_i cs w1 a hin
    cases h
    obtain ⟨i1, i2, i3⟩ := inList_good hf hin hg ((heldL_iff _ _ _).mpr h1.2.2)
    have h2 := (held_iff _ _ _).mp (i2.held hd)
    exact ⟨i1, i2, (held_iff _ _ _).mpr ⟨h2.1, h2.2.1, (heldL_iff _ _ _).mp i3⟩⟩
  · split at h
    · cases h
    · rename_i a w1 found hin
      cases h
      obtain ⟨i1, i2⟩ := inIndirect_good hf hin hg
      exact ⟨i1, i2, i2.held hd⟩

theorem held_new (cfg : Cfg) (S : List Stored) (name : Name) (kind : Kind) : Held hash S (newAsset cfg name kind) := by
  rw [held_iff]; simp [newAsset]

theorem held_addChild {S : List Stored} {dir c : Asset} (hd : Held hash S dir) (hc : Held hash S c) :
    Held hash S (.mk dir.info (dir.children ++ [c]) dir.indirect) := by
  have h1 := (held_iff _ _ _).mp hd
  rw [held_iff]
  refine ⟨h1.1, h1.2.1, ?_⟩
  intro x hx
  rcases List.mem_append.mp hx with hx | hx
  · exact h1.2.2 x hx
  · rw [List.mem_singleton.mp hx]; exact hc

theorem inDirPath_good {α : Type} {cfg : Cfg} {mode : CreateMode} {f : Asset → Work → Except Err (Asset × Work × Option α)}
    (hf : Keeps cfg.hash f) (path : List Name) : Keeps cfg.hash (inDirPath cfg mode f path) := by
  induction path with
  | nil => intro a w a' w' r h; simp only [inDirPath] at h; exact hf _ _ _ _ _ h
  | cons name path ih =>
    intro dir w dir' w' r h hg hd
    unfold inDirPath at h
    dsimp only at h
    have hk : Keeps cfg.hash fun (a : Asset) (w : Work) =>
        (fun (a : Asset) (s : Work × Option α) =>
          if a.info.kind ≠ .directory ∧ mode ≠ .forceCreate then (.error .invalid : Except Err (Asset × Work × Option α))
          else inDirPath cfg mode f path (if a.info.kind ≠ .directory then newAsset cfg a.name .directory else a) s.1)
          a (w, none) := by
      intro a w a' w' r h hg ha
      dsimp only at h
      split at h
      · cases h
      · refine ih _ _ _ _ _ h hg ?_
        split
        · exact held_new _ _ _ _
        · exact ha
    split at h
    · cases h
    · rename_i hin
      cases h
      exact inDir_good hk hin hg hd
    · rename_i dir1 w1 r1 hin
      obtain ⟨i1, i2, i3⟩ := inDir_good hk hin hg hd
      split at h
      · cases h
      split at h
      · cases h
      · rename_i child w2 r2 hch
        cases h
        obtain ⟨j1, j2, j3⟩ := ih _ _ _ _ _ hch i1 (held_new _ _ _ _)
        exact ⟨j1, i2.trans j2, held_addChild (j2.held i3) j3⟩

theorem deleteFromList_subset {name : Name} {l l' : List Asset} (h : deleteFromList name l = some l') :
    ∀ a ∈ l', a ∈ l := by
  unfold deleteFromList at h
  split at h
  · cases h
  · split at h
    · cases h
    · rename_i z hz
      cases h
      intro a ha
      have := List.dropLast_subset _ ha
      rcases List.mem_or_eq_of_mem_set this with h | rfl
      · exact h
      · exact List.mem_of_getLast? hz

theorem deleteFromIndirect_good {cfg : Cfg} {name : Name} {ids : List Id} {w w' : Work}
    (h : deleteFromIndirect cfg name ids w = .ok w') (hg : Good cfg.hash w) : Good cfg.hash w' ∧ Ext w w' := by
  induction ids generalizing w with
  | nil => simp only [deleteFromIndirect] at h; cases h; exact ⟨hg, List.prefix_rfl⟩
  | cons id ids ih =>
    unfold deleteFromIndirect at h
    split at h
    · cases h
    rename_i l w1 hget
    obtain ⟨g1, g2, g3⟩ := getList_good hget hg
    have he : Ext w w1 := by unfold Ext; rw [g2]; exact List.prefix_rfl
    split at h
    · rename_i l2 hd
      cases h
      refine ⟨g1.setList _ ?_, he⟩
      rw [g2, heldL_iff]
      exact fun a ha => (heldL_iff _ _ _).mp g3 a (deleteFromList_subset hd a ha)
    · obtain ⟨i1, i2⟩ := ih h g1
      exact ⟨i1, he.trans i2⟩

theorem deleteFromDir_good {cfg : Cfg} {name : Name} : Keeps cfg.hash (deleteFromDir cfg name) := by
  intro dir w dir' w' r h hg hd
  have h1 := (held_iff _ _ _).mp hd
  unfold deleteFromDir at h
  split at h
  · cases h
  split at h
  · rename_i cs hcs
    cases h
    exact ⟨hg, List.prefix_rfl, (held_iff _ _ _).mpr ⟨h1.1, h1.2.1, fun a ha => h1.2.2 a (deleteFromList_subset hcs a ha)⟩⟩
  · split at h
    · cases h
    · rename_i w1 hw
      cases h
      obtain ⟨i1, i2⟩ := deleteFromIndirect_good hw hg
      exact ⟨i1, i2, i2.held hd⟩

theorem goodB_delete {cfg : Cfg} {path : List Name} {name : Name} {b b' : Builder}
    (h : deleteAsset cfg path name b = .ok b') (hg : GoodB cfg.hash b) : GoodB cfg.hash b' ∧ b.store <+: b'.store := by
  unfold deleteAsset at h
  split at h
  · cases h; exact ⟨hg, List.prefix_rfl⟩
  · cases h; exact ⟨hg, List.prefix_rfl⟩
  · cases h
  · rename_i root w r hr
    cases h
    obtain ⟨h1, h2, h3⟩ := inDirPath_good deleteFromDir_good path _ _ _ _ _ hr hg.1 hg.2
    exact ⟨⟨h1, h3⟩, h2⟩

/-- A change made through an `AssetBuilder`: it never adds references to lists. -/
def NoNewLists (f : Asset → Asset) : Prop :=
  ∀ a, (∀ i ∈ (f a).info.indirect, i ∈ a.info.indirect) ∧ (∀ i ∈ (f a).indirect, i ∈ a.indirect) ∧
    ∀ c ∈ (f a).children, c ∈ a.children ∨ (c.info.indirect = [] ∧ c.indirect = [] ∧ c.children = [])

theorem NoNewLists.held {f : Asset → Asset} (hf : NoNewLists f) {S : List Stored} {a : Asset} (h : Held hash S a) :
    Held hash S (f a) := by
  have h1 := (held_iff _ _ _).mp h
  obtain ⟨f1, f2, f3⟩ := hf a
  rw [held_iff]
  refine ⟨fun i hi => h1.1 i (f1 i hi), fun i hi => h1.2.1 i (f2 i hi), fun c hc => ?_⟩
  rcases f3 c hc with h | ⟨e1, e2, e3⟩
  · exact h1.2.2 c h
  · rw [held_iff, e1, e2, e3]; simp

theorem inAsset_good {cfg : Cfg} {kind : Kind} {force : Bool} {name : Name} {f : Asset → Asset} (hf : NoNewLists f) :
    Keeps cfg.hash (inAsset cfg kind force name f) := by
  intro dir w dir' w' r h hg hd
  unfold inAsset at h
  split at h
  · cases h
  dsimp only at h
  have hk : Keeps cfg.hash fun (a : Asset) (w : Work) => (fun (a : Asset) (s : Work × Option Unit) =>
      if a.info.kind = kind then (.ok (f a, s.1, some ()) : Except Err (Asset × Work × Option Unit)) else .ok (a, s.1, none)) a (w, none) := by
    intro a w a' w' r h hg ha
    dsimp only at h
    split at h <;> cases h
    · exact ⟨hg, List.prefix_rfl, hf.held ha⟩
    · exact ⟨hg, List.prefix_rfl, ha⟩
  split at h
  · cases h
  · rename_i hin
    cases h
    exact inDir_good hk hin hg hd
  · rename_i dir1 w1 hin
    obtain ⟨i1, i2, i3⟩ := inDir_good hk hin hg hd
    split at h
    · split at h
      · cases h
      · rename_i dir2 w2 r2 hdel
        cases h
        obtain ⟨j1, j2, j3⟩ := deleteFromDir_good _ _ _ _ _ hdel i1 i3
        exact ⟨j1, i2.trans j2, held_addChild j3 (hf.held (held_new _ _ _ _))⟩
    · cases h
  · rename_i dir1 w1 hin
    cases h
    obtain ⟨i1, i2, i3⟩ := inDir_good hk hin hg hd
    exact ⟨i1, i2, held_addChild i3 (hf.held (held_new _ _ _ _))⟩

theorem goodB_edit {cfg : Cfg} {kind : Kind} {force : Bool} {path : List Name} {name : Name} {f : Asset → Asset}
    (hf : NoNewLists f) {b b' : Builder} (h : editAsset cfg kind force path name f b = .ok b') (hg : GoodB cfg.hash b) :
    GoodB cfg.hash b' ∧ b.store <+: b'.store := by
  unfold editAsset at h
  split at h
  · cases h
  · rename_i root w r hr
    cases h
    obtain ⟨h1, h2, h3⟩ := inDirPath_good (inAsset_good hf) path _ _ _ _ _ hr hg.1 hg.2
    exact ⟨⟨h1, h3⟩, h2⟩

/-! ### Histories -/

/-- What a program can do with a builder and the store; each `Step` may be followed by a restart from the store. -/
inductive Step (cfg : Cfg) : Builder → Builder → Prop where
  | load {b b' : Builder} (id : Id) : loadManifest cfg b.store id = some b' → Step cfg b b'
  | new (b : Builder) : Step cfg b { root := newAsset cfg [] .directory, store := b.store }
  | edit {b b' : Builder} (kind : Kind) (force : Bool) (path : List Name) (name : Name) (f : Asset → Asset) :
      NoNewLists f → editAsset cfg kind force path name f b = .ok b' → Step cfg b b'
  | delete {b b' : Builder} (path : List Name) (name : Name) : deleteAsset cfg path name b = .ok b' → Step cfg b b'
  | flush {b b' : Builder} (fuel : Nat) (id : Id) : flush cfg fuel b = some (id, b') → Step cfg b b'

inductive Steps (cfg : Cfg) : Builder → Builder → Prop where
  | nil (b : Builder) : Steps cfg b b
  | cons {a b c : Builder} : Steps cfg a b → Step cfg b c → Steps cfg a c

/-- A builder with an empty store. -/
def empty (cfg : Cfg) : Builder := { root := newAsset cfg [] .directory }

theorem goodB_steps {cfg : Cfg} (hsort : ∀ l, (cfg.sort l).Perm l) {b b' : Builder} (h : Steps cfg b b') (hg : GoodB cfg.hash b) :
    GoodB cfg.hash b' := by
  induction h with
  | nil => exact hg
  | cons _ hs ih =>
    cases hs with
    | load id h => exact (goodB_load h ih.1.closed).1
    | new => exact ⟨⟨ih.1.closed, by simp⟩, held_new _ _ _ _⟩
    | edit kind force path name f hf h => exact (goodB_edit hf h ih).1
    | delete path name h => exact (goodB_delete h ih).1
    | flush fuel id h => exact (goodB_flush hsort h ih).1

theorem goodB_empty (cfg : Cfg) : GoodB cfg.hash (empty cfg) :=
  ⟨⟨.nil, by simp [empty]⟩, held_new _ _ _ _⟩

/-- C32 (the part about writing): after any history of loading, changing and flushing manifests, and whenever the process
stops in the middle of one (only a prefix `S` of the writes has happened), every manifest in the store is complete. -/
theorem C32_written_manifests_complete (cfg : Cfg) (hsort : ∀ l, (cfg.sort l).Perm l) (b : Builder)
    (h : Steps cfg (empty cfg) b) (S : List Stored) (hS : S <+: b.store) (root : Asset) (hr : .manifest root ∈ S) :
    Complete cfg.hash S root := by
  have hc := (goodB_steps hsort h (goodB_empty cfg)).1.closed.prefix hS
  exact complete_of_held hc (hc.mem hr)

/-- C32: the id returned by `Flush` refers to a complete manifest in the store. -/
theorem C32_flushed_manifest_complete (cfg : Cfg) (hsort : ∀ l, (cfg.sort l).Perm l) (b b' : Builder)
    (h : Steps cfg (empty cfg) b) (fuel : Nat) (id : Id) (hf : flush cfg fuel b = some (id, b')) :
    ∃ root, .manifest root ∈ b'.store ∧ cfg.hash (.manifest root) = id ∧ Complete cfg.hash b'.store root := by
  obtain ⟨h1, h2, h3, h4⟩ := goodB_flush hsort hf (goodB_steps hsort h (goodB_empty cfg))
  exact ⟨_, h3, h4, complete_of_held h1.1.closed (h1.1.closed.mem h3)⟩

end Verif.Manifest
