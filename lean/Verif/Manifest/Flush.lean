import Verif.Manifest.Alias

/-! # C71: a manifest that is built from scratch reads back as it was built (and what of C30 holds)

The directories of a manifest under construction hold their entries directly until the manifest is flushed. For such trees
finding, creating, changing and deleting assets and flushing are compared with operations on a plain map from paths to
assets. -/
namespace Verif.Manifest

/-! ### Specification -/

/-- A file tree: what is at each path. -/
abbrev Tree := List Name → Option Meta

/-- Only the root directory. -/
def Tree.root (m : Meta) : Tree := fun p => if p = [] then some m else none

def Tree.isDir (F : Tree) (p : List Name) : Prop := ∃ m, F p = some m ∧ m.kind = .directory

instance (F : Tree) (p : List Name) : Decidable (F.isDir p) :=
  match h : F p with
  | none => isFalse (by rintro ⟨m, hm, _⟩; rw [h] at hm; cases hm)
  | some m => if hk : m.kind = .directory then isTrue ⟨m, h, hk⟩ else isFalse (by rintro ⟨m', hm, hk'⟩; rw [h] at hm; cases hm; exact hk hk')

/-- Is there an asset of the given kind at `t`? -/
def Tree.isKind (F : Tree) (t : List Name) (kind : Kind) : Prop := ∃ m, F t = some m ∧ m.kind = kind

instance (F : Tree) (t : List Name) (kind : Kind) : Decidable (F.isKind t kind) :=
  match h : F t with
  | none => isFalse (by rintro ⟨m, hm, _⟩; rw [h] at hm; cases hm)
  | some m => if hk : m.kind = kind then isTrue ⟨m, h, hk⟩ else isFalse (by rintro ⟨m', hm, hk'⟩; rw [h] at hm; cases hm; exact hk hk')

/-- Get the asset at `t`, or create it (with `new`), and change it by `g`. An asset of another kind is replaced, missing parent
directories are created, and an asset that is in the way of a parent directory is replaced by one. -/
def Tree.put (new : Name → Kind → Meta) (t : List Name) (kind : Kind) (g : Meta → Meta) (F : Tree) : Tree := fun p =>
  if p = t then some (g (if F.isKind t kind then (F t).getD default else new (t.getLastD []) kind))
  else if t <+: p then (if F.isKind t kind then F p else none)
  else if p <+: t then (if F.isDir p then F p else some (new (p.getLastD []) .directory))
  else F p

/-- Remove the asset at `t` and everything below. -/
def Tree.delete (t : List Name) (F : Tree) : Tree := fun p => if t <+: p then none else F p

/-- The fields of a new asset, manifest_builder.cc:340-349. -/
def newMeta (cfg : Cfg) (name : Name) (kind : Kind) : Meta :=
  { name := name, kind := kind, mtime := cfg.now, perms := if kind = .directory then 0o755 else 0o644 }

/-- A change of the fields of an asset by the setters of `AssetBuilder`, asset_builder.cc:34-115. -/
def onInfo (g : Meta → Meta) (a : Asset) : Asset := .mk (g a.info) a.children a.indirect

/-- What is known about the fields of any asset: chunks are in order, within the file size, and direct. -/
structure FieldsOk (m : Meta) : Prop where
  asc : m.chunks.Pairwise fun a b => a.offset ≤ b.offset
  size : ∀ r ∈ m.chunks, r.offset ≤ m.fileSize
  direct : m.indirect = []

/-- Changes made through `AssetBuilder` keep name and kind of the asset. -/
structure FieldChange (P : Meta → Prop) (g : Meta → Meta) : Prop where
  name : ∀ m, (g m).name = m.name
  kind : ∀ m, (g m).kind = m.kind
  ok : ∀ m, P m → P (g m)

/-- `Built cfg S b F`: the builder `b` was created for an empty manifest, on a store that holds `S`, and used to create, change
and delete assets; `F` is the file tree that results from the same operations. -/
inductive Built (cfg : Cfg) (S : List Stored) : Builder → Tree → Prop where
  | new : Built cfg S { root := newAsset cfg [] .directory, store := S } (Tree.root (newMeta cfg [] .directory))
  | edit {b b' : Builder} {F : Tree} (kind : Kind) (force : Bool) (path : List Name) (name : Name) (g : Meta → Meta) :
      Built cfg S b F → FieldChange FieldsOk g → editAsset cfg kind force path name (onInfo g) b = .ok b' →
      Built cfg S b' (F.put (newMeta cfg) (path ++ [name]) kind g)
  | delete {b b' : Builder} {F : Tree} (path : List Name) (name : Name) : Built cfg S b F →
      deleteAsset cfg path name b = .ok b' → Built cfg S b' (F.delete (path ++ [name]))

/-! ### Trees without indirect asset lists -/

/-- All entries are direct, names are unique in each directory, only directories have entries, and all fields satisfy `P`. -/
inductive Tidy (P : Meta → Prop) : Asset → Prop where
  | mk {m : Meta} {cs : List Asset} : P m → (∀ c ∈ cs, Tidy P c) → (cs.map Asset.name).Nodup →
      (m.kind ≠ .directory → cs = []) → Tidy P (.mk m cs [])

namespace Tidy
variable {P : Meta → Prop} {a : Asset}

theorem indirect (h : Tidy P a) : a.indirect = [] := by cases h; rfl
theorem fields (h : Tidy P a) : P a.info := by cases h; assumption
theorem children (h : Tidy P a) : ∀ c ∈ a.children, Tidy P c := by cases h; assumption
theorem nodup (h : Tidy P a) : (a.children.map Asset.name).Nodup := by cases h; assumption
theorem leaf (h : Tidy P a) : a.info.kind ≠ .directory → a.children = [] := by cases h; assumption

theorem of {P : Meta → Prop} {a : Asset} (h0 : a.indirect = []) (h1 : P a.info) (h2 : ∀ c ∈ a.children, Tidy P c)
    (h3 : (a.children.map Asset.name).Nodup) (h4 : a.info.kind ≠ .directory → a.children = []) : Tidy P a := by
  cases a with
  | mk m cs ids => cases h0; exact .mk h1 h2 h3 h4

end Tidy

/-- What is at a path, following direct entries. -/
def look : Asset → Tree
  | a, [] => some a.info
  | a, n :: p => match a.children.find? fun c => c.name = n with
    | none => none
    | some c => look c p

theorem look_nil (a : Asset) : look a [] = some a.info := by cases a; rfl

theorem look_cons (a : Asset) (n : Name) (p : List Name) :
    look a (n :: p) = (a.children.find? fun c => c.name = n).bind fun c => look c p := by
  rw [look.eq_def]
  dsimp only
  cases a.children.find? fun c => c.name = n <;> rfl

theorem find_iff {cs : List Asset} (h : (cs.map Asset.name).Nodup) (n : Name) (c : Asset) :
    (cs.find? fun c => c.name = n) = some c ↔ c ∈ cs ∧ c.name = n := by
  induction cs with
  | nil => simp
  | cons a cs ih =>
    simp only [List.map_cons, List.nodup_cons] at h
    rw [List.find?_cons]
    split
    · rename_i ha
      simp only [decide_eq_true_eq] at ha
      simp only [Option.some.injEq, List.mem_cons]
      constructor
      · rintro rfl; exact ⟨.inl rfl, ha⟩
      · rintro ⟨rfl | hc, e⟩
        · rfl
        · exact absurd (show a.name ∈ cs.map Asset.name from List.mem_map.mpr ⟨c, hc, e.trans ha.symm⟩) h.1
    · rename_i ha
      simp only [decide_eq_false_iff_not] at ha
      rw [ih h.2]
      simp only [List.mem_cons]
      constructor
      · rintro ⟨hc, e⟩; exact ⟨.inr hc, e⟩
      · rintro ⟨rfl | hc, e⟩
        · exact absurd e ha
        · exact ⟨hc, e⟩

theorem look_leaf {P : Meta → Prop} {a : Asset} (h : Tidy P a) (hk : a.info.kind ≠ .directory) : look a = Tree.root a.info := by
  funext p
  cases p with
  | nil => rw [look_nil]; rfl
  | cons n p => rw [look_cons, h.leaf hk]; rfl

theorem tidy_new {P : Meta → Prop} {cfg : Cfg} {name : Name} {kind : Kind} (hP : P (newMeta cfg name kind)) :
    Tidy P (newAsset cfg name kind) :=
  .of rfl hP (by simp [newAsset]) (by simp [newAsset]) (fun _ => rfl)

theorem look_new (cfg : Cfg) (name : Name) (kind : Kind) : look (newAsset cfg name kind) = Tree.root (newMeta cfg name kind) := by
  funext p
  cases p with
  | nil => rw [look_nil]; rfl
  | cons n p => rw [look_cons]; rfl

/-! ### Replacing the subtree at one entry -/

/-- `F` with the subtree at the entry `n` replaced by `T`. -/
def graft (n : Name) (T F : Tree) : Tree
  | [] => F []
  | k :: q => if k = n then T q else F (k :: q)

/-- `inList` finds the entry. -/
theorem inList_found {σ ε : Type} {name : Name} {f : Asset → σ → Except ε (Asset × σ)} {l1 l2 : List Asset} {a : Asset} {s : σ}
    (h1 : ∀ x ∈ l1, x.name ≠ name) (ha : a.name = name) :
    inList name f (l1 ++ a :: l2) s = some (match f a s with
      | .error e => .error e
      | .ok (b, s) => .ok (l1 ++ b :: l2, s)) := by
  induction l1 with
  | nil => rw [List.nil_append, inList, if_pos ha]; rfl
  | cons x l1 ih =>
    rw [List.cons_append, inList, if_neg (h1 x (by simp)), ih fun y hy => h1 y (by simp [hy])]
    cases f a s with
    | error => rfl
    | ok v => rfl

theorem inList_none {σ ε : Type} {name : Name} {f : Asset → σ → Except ε (Asset × σ)} {l : List Asset} {s : σ}
    (h : ∀ x ∈ l, x.name ≠ name) : inList name f l s = none := by
  induction l with
  | nil => rfl
  | cons x l ih => rw [inList, if_neg (h x (by simp)), ih fun y hy => h y (by simp [hy])]; rfl

/-- Either there is an entry with the name, or there is none. -/
theorem split_name (l : List Asset) (name : Name) :
    (∀ x ∈ l, x.name ≠ name) ∨ ∃ l1 a l2, l = l1 ++ a :: l2 ∧ a.name = name ∧ ∀ x ∈ l1, x.name ≠ name := by
  induction l with
  | nil => left; simp
  | cons x l ih =>
    by_cases hx : x.name = name
    · right; exact ⟨[], x, l, rfl, hx, by simp⟩
    · rcases ih with h | ⟨l1, a, l2, rfl, ha, h⟩
      · left; intro y hy; rcases List.mem_cons.mp hy with rfl | hy
        · exact hx
        · exact h y hy
      · right; refine ⟨x :: l1, a, l2, rfl, ha, ?_⟩
        intro y hy; rcases List.mem_cons.mp hy with rfl | hy
        · exact hx
        · exact h y hy

theorem find_none {l : List Asset} {name : Name} (h : ∀ x ∈ l, x.name ≠ name) : (l.find? fun c => c.name = name) = none := by
  rw [List.find?_eq_none]; intro x hx; simpa using h x hx

theorem find_found {l1 l2 : List Asset} {a : Asset} {name : Name} (h1 : ∀ x ∈ l1, x.name ≠ name) (ha : a.name = name) :
    ((l1 ++ a :: l2).find? fun c => c.name = name) = some a := by
  rw [List.find?_append, find_none h1]; simp [ha]

theorem find_other {l1 l2 : List Asset} {a b : Asset} {name : Name} (ha : a.name ≠ name) (hb : b.name ≠ name) :
    ((l1 ++ a :: l2).find? fun c => c.name = name) = (l1 ++ b :: l2).find? fun c => c.name = name := by
  rw [List.find?_append, List.find?_append]; simp [ha, hb]

theorem look_replace {m : Meta} {i : List Id} {l1 l2 : List Asset} {a b : Asset} (h1 : ∀ x ∈ l1, x.name ≠ a.name) (hb : b.name = a.name) :
    look (.mk m (l1 ++ b :: l2) i) = graft a.name (look b) (look (.mk m (l1 ++ a :: l2) i)) := by
  funext p
  cases p with
  | nil => rw [look_nil]; simp [graft, look_nil]
  | cons k q =>
    rw [graft, look_cons]
    split
    · rename_i hk
      rw [hk, Asset.children_mk, find_found h1 hb]; rfl
    · rename_i hk
      rw [look_cons, Asset.children_mk, Asset.children_mk, find_other (a := b) (b := a) (by rw [hb]; exact fun h => hk h.symm) (fun h => hk h.symm)]

theorem look_append {m : Meta} {i : List Id} {cs : List Asset} {c : Asset} (h : ∀ x ∈ cs, x.name ≠ c.name) :
    look (.mk m (cs ++ [c]) i) = graft c.name (look c) (look (.mk m cs i)) := by
  funext p
  cases p with
  | nil => rw [look_nil]; simp [graft, look_nil]
  | cons k q =>
    rw [graft, look_cons]
    split
    · rename_i hk
      rw [hk, Asset.children_mk, find_found h rfl]; rfl
    · rename_i hk
      rw [look_cons, Asset.children_mk, Asset.children_mk, List.find?_append]
      simp [show c.name ≠ k from fun h => hk h.symm]

theorem look_perm {m : Meta} {i : List Id} {cs cs' : List Asset} (h : cs'.Perm cs) (hn : (cs.map Asset.name).Nodup) :
    look (.mk m cs' i) = look (.mk m cs i) := by
  have hn' : (cs'.map Asset.name).Nodup := ((h.map Asset.name).nodup_iff).mpr hn
  funext p
  cases p with
  | nil => rw [look_nil, look_nil]; rfl
  | cons k q =>
    rw [look_cons, look_cons]
    congr 1
    apply Option.ext
    intro c
    simp only [Asset.children_mk, find_iff hn, find_iff hn', h.mem_iff]

theorem look_remove {m : Meta} {i : List Id} {l1 l2 : List Asset} {a : Asset} (h1 : ∀ x ∈ l1, x.name ≠ a.name)
    (h2 : ∀ x ∈ l2, x.name ≠ a.name) :
    look (.mk m (l1 ++ l2) i) = graft a.name (fun _ => none) (look (.mk m (l1 ++ a :: l2) i)) := by
  funext p
  cases p with
  | nil => rw [look_nil]; simp [graft, look_nil]
  | cons k q =>
    rw [graft, look_cons]
    split
    · rename_i hk
      rw [hk, Asset.children_mk, find_none (by intro x hx; rcases List.mem_append.mp hx with h | h; exacts [h1 x h, h2 x h])]; rfl
    · rename_i hk
      rw [look_cons, Asset.children_mk, Asset.children_mk, List.find?_append, List.find?_append]
      simp [show a.name ≠ k from fun h => hk h.symm]

theorem graft_none {a : Asset} {n : Name} (h : ∀ x ∈ a.children, x.name ≠ n) : graft n (fun _ => none) (look a) = look a := by
  funext p
  cases p with
  | nil => rfl
  | cons k q =>
    rw [graft]
    split
    · rename_i hk; rw [hk, look_cons, find_none h]; rfl
    · rfl

/-- `deleteFromList` removes the entry. -/
theorem deleteFromList_found {l1 l2 : List Asset} {a : Asset} (h1 : ∀ x ∈ l1, x.name ≠ a.name) :
    ∃ l', deleteFromList a.name (l1 ++ a :: l2) = some l' ∧ l'.Perm (l1 ++ l2) := by
  have hi : (l1 ++ a :: l2).findIdx? (fun x => x.name = a.name) = some l1.length := by
    rw [List.findIdx?_eq_some_iff_getElem]
    refine ⟨by simp, by simp, ?_⟩
    intro j hj
    simpa [List.getElem_append_left hj] using h1 _ (List.getElem_mem hj)
  unfold deleteFromList
  rw [hi]
  dsimp only
  rcases List.eq_nil_or_concat l2 with rfl | ⟨l3, z, rfl⟩
  · have : (l1 ++ [a]).getLast? = some a := by simp
    rw [this]
    refine ⟨_, rfl, ?_⟩
    simp
  · have : (l1 ++ a :: l3.concat z).getLast? = some z := by
      rw [show l1 ++ a :: l3.concat z = (l1 ++ a :: l3) ++ [z] by simp, List.getLast?_concat]
    rw [this]
    refine ⟨_, rfl, ?_⟩
    have e : ((l1 ++ a :: l3.concat z).set l1.length z).dropLast = l1 ++ z :: l3 := by
      rw [List.set_append_right _ _ (Nat.le_refl _)]
      simp only [Nat.sub_self, List.set_cons_zero, List.concat_eq_append]
      rw [show l1 ++ z :: (l3 ++ [z]) = (l1 ++ z :: l3) ++ [z] by simp, List.dropLast_concat]
    rw [e]
    simp only [List.concat_eq_append]
    exact ((List.perm_append_singleton z l3).symm).append_left l1

theorem deleteFromList_none {l : List Asset} {name : Name} (h : ∀ x ∈ l, x.name ≠ name) : deleteFromList name l = none := by
  unfold deleteFromList
  have : (l.findIdx? fun a => a.name = name) = none := by
    rw [List.findIdx?_eq_none_iff]; intro x hx; simpa using h x hx
  rw [this]

/-! ### The operations -/

theorem tidy_replace {P : Meta → Prop} {m : Meta} {l1 l2 : List Asset} {a b : Asset} (h : Tidy P (.mk m (l1 ++ a :: l2) []))
    (hb : Tidy P b) (hn : b.name = a.name) : Tidy P (.mk m (l1 ++ b :: l2) []) := by
  refine .of rfl h.fields ?_ ?_ ?_
  · intro c hc
    simp only [Asset.children_mk, List.mem_append, List.mem_cons] at hc
    rcases hc with hc | rfl | hc
    · exact h.children c (by simp [hc])
    · exact hb
    · exact h.children c (by simp [hc])
  · have := h.nodup
    simpa [hn] using this
  · intro hk
    have := h.leaf hk
    simp at this

theorem tidy_append {P : Meta → Prop} {dir c : Asset} (h : Tidy P dir) (hd : dir.info.kind = .directory) (hc : Tidy P c)
    (hn : ∀ x ∈ dir.children, x.name ≠ c.name) : Tidy P (.mk dir.info (dir.children ++ [c]) dir.indirect) := by
  refine .of h.indirect h.fields ?_ ?_ ?_
  · intro x hx
    simp only [Asset.children_mk, List.mem_append, List.mem_singleton] at hx
    rcases hx with hx | rfl
    · exact h.children x hx
    · exact hc
  · simp only [Asset.children_mk, List.map_append, List.map_cons, List.map_nil]
    rw [List.nodup_append]
    refine ⟨h.nodup, by simp, ?_⟩
    intro x hx y hy
    simp only [List.mem_singleton] at hy
    obtain ⟨z, hz, rfl⟩ := List.mem_map.mp hx
    rw [hy]; exact hn z hz
  · intro hk; exact absurd hd hk

theorem tidy_remove {P : Meta → Prop} {m : Meta} {l1 l2 l' : List Asset} {a : Asset} (h : Tidy P (.mk m (l1 ++ a :: l2) []))
    (hp : l'.Perm (l1 ++ l2)) : Tidy P (.mk m l' []) := by
  have hn : ((l1 ++ l2).map Asset.name).Nodup := by
    have := h.nodup
    simp only [Asset.children_mk, List.map_append, List.map_cons] at this ⊢
    exact this.sublist (by simp)
  refine .of rfl h.fields ?_ (((hp.map Asset.name).nodup_iff).mpr hn) ?_
  · intro c hc
    have := hp.mem_iff.mp hc
    refine h.children c ?_
    simp only [Asset.children_mk, List.mem_append, List.mem_cons] at this ⊢
    exact this.elim .inl (fun h => .inr (.inr h))
  · intro hk
    have := h.leaf hk
    simp at this

theorem mk_eta {P : Meta → Prop} {a : Asset} (h : Tidy P a) : a = .mk a.info a.children [] := by
  cases h; rfl

theorem look_isKind_cons {P : Meta → Prop} {dir : Asset} (h : Tidy P dir) (n : Name) (t : List Name) (kind : Kind) :
    (look dir).isKind (n :: t) kind ↔ ∃ c ∈ dir.children, c.name = n ∧ (look c).isKind t kind := by
  unfold Tree.isKind
  constructor
  · rintro ⟨m, hm, hk⟩
    rw [look_cons] at hm
    obtain ⟨c, hc, hl⟩ := Option.bind_eq_some_iff.mp hm
    obtain ⟨h1, h2⟩ := (find_iff h.nodup n c).mp hc
    exact ⟨c, h1, h2, m, hl, hk⟩
  · rintro ⟨c, h1, h2, m, hl, hk⟩
    refine ⟨m, ?_, hk⟩
    rw [look_cons, (find_iff h.nodup n c).mpr ⟨h1, h2⟩]; exact hl

/-- The specification of `put`, one path component at a time. -/
theorem put_cons (new : Name → Kind → Meta) (n : Name) (t : List Name) (kind : Kind) (g : Meta → Meta) (F : Tree) (ht : t ≠ [])
    (hnew : ∀ n, (new n .directory).kind = .directory) (hroot : F.isDir []) (hF : ¬ F.isDir [n] → ∀ q, q ≠ [] → F (n :: q) = none) :
    F.put new (n :: t) kind g =
      graft n ((if F.isDir [n] then (fun q => F (n :: q)) else Tree.root (new n .directory) : Tree).put new t kind g) F := by
  have hk : (if F.isDir [n] then (fun q => F (n :: q)) else Tree.root (new n .directory) : Tree).isKind t kind ↔ F.isKind (n :: t) kind := by
    by_cases hd : F.isDir [n]
    · rw [if_pos hd]; rfl
    · rw [if_neg hd]
      refine iff_of_false ?_ ?_
      · rintro ⟨m, hm, _⟩; rw [Tree.root, if_neg ht] at hm; cases hm
      · rintro ⟨m, hm, _⟩; rw [hF hd t ht] at hm; cases hm
  have hl : (n :: t).getLastD [] = t.getLastD [] := by cases t with
    | nil => exact absurd rfl ht
    | cons => rfl
  funext p
  cases p with
  | nil =>
    rw [graft, Tree.put, if_neg (by simp), if_neg (by simp), if_pos (by simp), if_pos hroot]
  | cons k q =>
    rw [graft]
    by_cases hkn : k = n
    · subst hkn
      rw [if_pos rfl]
      unfold Tree.put
      simp only [List.cons.injEq, true_and, List.cons_prefix_cons, hk, hl]
      by_cases h1 : q = t
      · rw [if_pos h1, if_pos h1]
        by_cases h2 : F.isKind (k :: t) kind
        · rw [if_pos h2, if_pos h2]
          by_cases hd : F.isDir [k]
          · rw [if_pos hd]
          · obtain ⟨m, hm, _⟩ := h2; rw [hF hd t ht] at hm; cases hm
        · rw [if_neg h2, if_neg h2]
      rw [if_neg h1, if_neg h1]
      by_cases h2 : t <+: q
      · rw [if_pos h2, if_pos h2]
        by_cases h3 : F.isKind (k :: t) kind
        · rw [if_pos h3, if_pos h3]
          by_cases hd : F.isDir [k]
          · rw [if_pos hd]
          · obtain ⟨m, hm, _⟩ := h3; rw [hF hd t ht] at hm; cases hm
        · rw [if_neg h3, if_neg h3]
      rw [if_neg h2, if_neg h2]
      by_cases h3 : q <+: t
      · rw [if_pos h3, if_pos h3]
        by_cases hd : F.isDir [k]
        · rw [if_pos hd]
          have hq : Tree.isDir (fun q => F (k :: q)) q ↔ F.isDir (k :: q) := Iff.rfl
          simp only [hq]
          by_cases h4 : F.isDir (k :: q)
          · rw [if_pos h4, if_pos h4]
          · rw [if_neg h4, if_neg h4]
            cases q with
            | nil => exact absurd hd h4
            | cons => rfl
        · rw [if_neg hd]
          cases q with
          | nil =>
            rw [if_neg hd, if_pos ⟨_, rfl, hnew k⟩]; rfl
          | cons x q =>
            have h5 : ¬ F.isDir (k :: x :: q) := by rintro ⟨m, hm, _⟩; rw [hF hd _ (by simp)] at hm; cases hm
            have h6 : ¬ Tree.isDir (Tree.root (new k .directory)) (x :: q) := by
              rintro ⟨m, hm, _⟩; rw [Tree.root, if_neg (by simp)] at hm; cases hm
            rw [if_neg h5, if_neg h6]; rfl
      · rw [if_neg h3, if_neg h3]
        by_cases hd : F.isDir [k]
        · rw [if_pos hd]
        · rw [if_neg hd]
          cases q with
          | nil => exact absurd (List.nil_prefix) h3
          | cons x q => rw [hF hd _ (by simp)]; rfl
    · rw [if_neg hkn]
      unfold Tree.put
      simp only [List.cons.injEq, hkn, Ne.symm hkn, false_and, List.cons_prefix_cons, if_false]

/-- The part of the tree below the entry `n`, or a new directory. -/
theorem look_sub {P : Meta → Prop} {dir : Asset} (h : Tidy P dir) (n : Name) :
    ¬ (look dir).isDir [n] → ∀ q, q ≠ [] → look dir (n :: q) = none := by
  intro hd q hq
  rw [look_cons]
  cases hf : dir.children.find? fun c => c.name = n with
  | none => rfl
  | some c =>
    have hc := (find_iff h.nodup n c).mp hf
    have hk : c.info.kind ≠ .directory := by
      intro hk; apply hd
      refine ⟨c.info, ?_, hk⟩
      rw [look_cons, hf]; exact look_nil c
    simp only [Option.bind_some]
    rw [look_leaf (h.children c hc.1) hk, Tree.root, if_neg hq]

/-- `DeleteAssetFromDir`. -/
theorem deleteFromDir_look {P : Meta → Prop} {cfg : Cfg} {name : Name} {dir : Asset} {w : Work} (h : Tidy P dir)
    (hd : dir.info.kind = .directory) :
    ∃ dir', deleteFromDir cfg name dir w = .ok (dir', w, none) ∧ Tidy P dir' ∧ dir'.info = dir.info ∧
      (∀ x ∈ dir'.children, x.name ≠ name) ∧ look dir' = graft name (fun _ => none) (look dir) := by
  unfold deleteFromDir
  rw [if_neg (by simp [hd])]
  rcases split_name dir.children name with hn | ⟨l1, a, l2, he, rfl, h1⟩
  · rw [deleteFromList_none hn, h.indirect]
    exact ⟨dir, rfl, h, rfl, hn, (graft_none hn).symm⟩
  · obtain ⟨l', hl, hp⟩ := deleteFromList_found (l2 := l2) h1
    rw [he, hl]
    have h2 : ∀ x ∈ l2, x.name ≠ a.name := by
      have := h.nodup
      rw [he, List.map_append, List.map_cons, List.nodup_append, List.nodup_cons] at this
      intro x hx e
      exact this.2.1.1 (e ▸ List.mem_map.mpr ⟨x, hx, rfl⟩)
    have hT : Tidy P (.mk dir.info (l1 ++ a :: l2) []) := by rw [← he, ← mk_eta h]; exact h
    have hT' := tidy_remove hT hp
    refine ⟨_, rfl, by rw [h.indirect]; exact hT', rfl, ?_, ?_⟩
    · intro x hx
      rcases List.mem_append.mp (hp.mem_iff.mp hx) with hx | hx
      · exact h1 x hx
      · exact h2 x hx
    · have hnd : ((l1 ++ l2).map Asset.name).Nodup := ((hp.map Asset.name).nodup_iff).mp hT'.nodup
      rw [look_perm hp hnd, look_remove h1 h2]
      congr 2
      rw [← he, h.indirect, ← mk_eta h]

/-- The changed asset. -/
theorem look_onInfo (g : Meta → Meta) (a : Asset) : look (onInfo g a) = fun p => if p = [] then some (g a.info) else look a p := by
  funext p
  cases p with
  | nil => rw [look_nil]; rfl
  | cons n p => rw [look_cons, if_neg (by simp), look_cons]; rfl

theorem tidy_onInfo {P : Meta → Prop} {g : Meta → Meta} (hg : FieldChange P g) {a : Asset} (h : Tidy P a) : Tidy P (onInfo g a) :=
  .of h.indirect (hg.ok _ h.fields) h.children h.nodup (fun hk => h.leaf (fun e => hk ((hg.kind _).trans e)))

/-- `put` for a single path component. -/
theorem put_one (new : Name → Kind → Meta) (n : Name) (kind : Kind) (g : Meta → Meta) (F : Tree) (hroot : F.isDir []) :
    F.put new [n] kind g = graft n (if F.isKind [n] kind then (fun q => if q = [] then (F [n]).map g else F (n :: q))
      else Tree.root (g (new n kind))) F := by
  funext p
  cases p with
  | nil => rw [graft, Tree.put, if_neg (by simp), if_neg (by simp), if_pos (by simp), if_pos hroot]
  | cons k q =>
    rw [graft]
    unfold Tree.put
    by_cases hkn : k = n
    · subst hkn
      simp only [List.cons.injEq, true_and, List.cons_prefix_cons, List.nil_prefix, if_true]
      by_cases hk : F.isKind [k] kind
      · simp only [if_pos hk]
        by_cases hq : q = []
        · obtain ⟨m, hm, _⟩ := hk
          rw [if_pos hq, if_pos hq, hm]; rfl
        · rw [if_neg hq, if_neg hq]
      · simp only [if_neg hk]
        by_cases hq : q = []
        · rw [if_pos hq, Tree.root, if_pos hq]; rfl
        · rw [if_neg hq, Tree.root, if_neg hq]
    · simp only [List.cons.injEq, hkn, Ne.symm hkn, false_and, List.cons_prefix_cons, if_false]

/-- `GetOrCreateAsset` in a directory, manifest_builder.cc:111-144. -/
theorem inAsset_look {P : Meta → Prop} {cfg : Cfg} (hP : ∀ n k, P (newMeta cfg n k)) {kind : Kind} {force : Bool} {name : Name}
    {g : Meta → Meta} (hg : FieldChange P g) {dir : Asset} {w : Work} (h : Tidy P dir) (hd : dir.info.kind = .directory) :
    (∃ dir', inAsset cfg kind force name (onInfo g) dir w = .ok (dir', w, some ()) ∧ Tidy P dir' ∧ dir'.info = dir.info ∧
      look dir' = (look dir).put (newMeta cfg) [name] kind g) ∨
    (force = false ∧ inAsset cfg kind force name (onInfo g) dir w = .error .exists_) := by
  have hroot : (look dir).isDir [] := ⟨_, look_nil dir, hd⟩
  have hnewT : Tidy P (onInfo g (newAsset cfg name kind)) := tidy_onInfo hg (tidy_new (hP _ _))
  have hnewN : (onInfo g (newAsset cfg name kind)).name = name := hg.name _
  have hnewL : look (onInfo g (newAsset cfg name kind)) = Tree.root (g (newMeta cfg name kind)) := by
    rw [look_onInfo, look_new]; funext p; by_cases hp : p = []
    · rw [if_pos hp, Tree.root, if_pos hp]; rfl
    · rw [if_neg hp, Tree.root, if_neg hp, Tree.root, if_neg hp]
  unfold inAsset
  rw [if_neg (by simp [hd])]
  dsimp only
  unfold inDir
  rcases split_name dir.children name with hn | ⟨l1, a, l2, he, ha, h1⟩
  · rw [inList_none hn, h.indirect]
    dsimp only [inIndirect]
    left
    refine ⟨_, rfl, ?_, rfl, ?_⟩
    · exact tidy_append h hd hnewT (by rw [hnewN]; exact hn)
    · rw [look_append (by rw [hnewN]; exact hn), put_one _ _ _ _ _ hroot, hnewN, hnewL, h.indirect, ← mk_eta h]
      rw [if_neg]
      rintro ⟨m, hm, _⟩
      rw [look_cons, find_none hn] at hm; cases hm
  · have hmem : a ∈ dir.children := by rw [he]; simp
    have hfind : look dir [name] = some a.info := by
      rw [look_cons, (find_iff h.nodup name a).mpr ⟨hmem, ha⟩]; exact look_nil a
    have hsub : ∀ q, look dir (name :: q) = look a q := by
      intro q; rw [look_cons, (find_iff h.nodup name a).mpr ⟨hmem, ha⟩]; rfl
    have hself : Asset.mk dir.info (l1 ++ a :: l2) dir.indirect = dir := by rw [← he, h.indirect, ← mk_eta h]
    have hT : Tidy P (.mk dir.info (l1 ++ a :: l2) []) := by rw [← he, ← mk_eta h]; exact h
    rw [he, inList_found h1 ha]
    dsimp only
    by_cases hk : a.info.kind = kind
    · rw [if_pos hk]
      dsimp only
      left
      refine ⟨_, rfl, ?_, rfl, ?_⟩
      · rw [h.indirect]
        exact tidy_replace hT (tidy_onInfo hg (h.children a hmem)) (hg.name _)
      · rw [look_replace (a := a) (b := onInfo g a) (by rw [ha]; exact h1) (hg.name _), put_one _ _ _ _ _ hroot, if_pos ⟨_, hfind, hk⟩, look_onInfo, ha, hself]
        congr 1
        funext q
        rw [hfind, hsub]; rfl
    · rw [if_neg hk]
      dsimp only
      cases force with
      | false => right; exact ⟨rfl, rfl⟩
      | true =>
        left
        rw [hself, if_pos rfl]
        obtain ⟨dir', e1, e2, e3, e4, e5⟩ := deleteFromDir_look (cfg := cfg) (name := name) (w := w) h hd
        rw [e1]
        dsimp only
        refine ⟨_, rfl, tidy_append e2 (by rw [e3]; exact hd) hnewT (by rw [hnewN]; exact e4), e3, ?_⟩
        rw [look_append (by rw [hnewN]; exact e4), put_one _ _ _ _ _ hroot, hnewN, hnewL, e2.indirect, ← mk_eta e2, e5,
          if_neg (by rintro ⟨m, hm, hk'⟩; rw [hfind] at hm; cases hm; exact hk hk')]
        funext p
        cases p with
        | nil => rfl
        | cons k q => simp only [graft]; split <;> rfl

/-- The tree in which the next step along the path works. -/
theorem look_next {P : Meta → Prop} {cfg : Cfg} {dir a : Asset} (h : Tidy P dir) {name : Name} (hmem : a ∈ dir.children) (ha : a.name = name) :
    look (if a.info.kind ≠ .directory then newAsset cfg a.name .directory else a) =
      (if (look dir).isDir [name] then (fun q => look dir (name :: q)) else Tree.root (newMeta cfg name .directory) : Tree) := by
  have hsub : ∀ q, look dir (name :: q) = look a q := by
    intro q; rw [look_cons, (find_iff h.nodup name a).mpr ⟨hmem, ha⟩]; rfl
  by_cases hk : a.info.kind = .directory
  · rw [if_neg (by simp [hk]), if_pos ⟨a.info, by rw [hsub]; exact look_nil a, hk⟩]
    funext q; exact (hsub q).symm
  · rw [if_pos hk, look_new, ha, if_neg]
    rintro ⟨m, hm, hk'⟩
    rw [hsub, look_nil] at hm; cases hm; exact hk hk'

/-- The result of `GetOrCreateAsset` below a directory: either it works and the tree is as specified, or it fails because
something is in the way and must not be replaced. -/
theorem inDirPath_put {P : Meta → Prop} {cfg : Cfg} (hP : ∀ n k, P (newMeta cfg n k)) {kind : Kind} {force : Bool} {name : Name}
    {g : Meta → Meta} (hg : FieldChange P g) (path : List Name) : ∀ {dir : Asset} {w : Work}, Tidy P dir → dir.info.kind = .directory →
    (∃ dir', inDirPath cfg (if force then .forceCreate else .create) (inAsset cfg kind force name (onInfo g)) path dir w =
        .ok (dir', w, some ()) ∧ Tidy P dir' ∧ dir'.info = dir.info ∧
      look dir' = (look dir).put (newMeta cfg) (path ++ [name]) kind g) ∨
    (force = false ∧ ∃ e, inDirPath cfg (if force then .forceCreate else .create) (inAsset cfg kind force name (onInfo g)) path dir w = .error e) := by
  induction path with
  | nil =>
    intro dir w h hd
    simp only [inDirPath, List.nil_append]
    rcases inAsset_look hP hg (kind := kind) (force := force) (name := name) (w := w) h hd with h1 | ⟨h1, h2⟩
    · exact .inl h1
    · exact .inr ⟨h1, _, h2⟩
  | cons n path ih =>
    intro dir w h hd
    have hroot : (look dir).isDir [] := ⟨_, look_nil dir, hd⟩
    have hput := put_cons (newMeta cfg) n (path ++ [name]) kind g (look dir) (by simp) (fun _ => rfl) hroot (look_sub h n)
    unfold inDirPath
    dsimp only
    unfold inDir
    rcases split_name dir.children n with hn | ⟨l1, a, l2, he, ha, h1⟩
    · rw [inList_none hn, h.indirect]
      dsimp only [inIndirect]
      rw [if_neg (by cases force <;> simp)]
      have hnd : ¬ (look dir).isDir [n] := by
        rintro ⟨m, hm, _⟩; rw [look_cons, find_none hn] at hm; cases hm
      rcases ih (w := w) (tidy_new (P := P) (cfg := cfg) (name := n) (kind := .directory) (hP _ _)) rfl with ⟨d, e1, e2, e3, e4⟩ | ⟨e1, e, e2⟩
      · rw [e1]
        left
        have hname : d.name = n := by unfold Asset.name; rw [e3]; rfl
        refine ⟨_, rfl, ?_, rfl, ?_⟩
        · exact tidy_append h hd e2 (by rw [hname]; exact hn)
        · rw [List.cons_append, look_append (by rw [hname]; exact hn), hput, if_neg hnd, hname, e4, look_new, h.indirect, ← mk_eta h]
      · rw [e2]; exact .inr ⟨e1, e, rfl⟩
    · have hmem : a ∈ dir.children := by rw [he]; simp
      have hself : Asset.mk dir.info (l1 ++ a :: l2) dir.indirect = dir := by rw [← he, h.indirect, ← mk_eta h]
      have hT : Tidy P (.mk dir.info (l1 ++ a :: l2) []) := by rw [← he, ← mk_eta h]; exact h
      rw [he, inList_found h1 ha]
      dsimp only
      by_cases hbad : a.info.kind ≠ .directory ∧ (if force = true then CreateMode.forceCreate else .create) ≠ .forceCreate
      · rw [if_pos hbad]
        right
        refine ⟨?_, _, rfl⟩
        cases force with
        | false => rfl
        | true => exact absurd rfl hbad.2
      · rw [if_neg hbad]
        have hT' : Tidy P (if a.info.kind ≠ .directory then newAsset cfg a.name .directory else a) := by
          split
          · exact tidy_new (hP _ _)
          · exact h.children a hmem
        have hK' : (if a.info.kind ≠ .directory then newAsset cfg a.name .directory else a).info.kind = .directory := by
          split
          · rfl
          · rename_i hk; exact Decidable.not_not.mp hk
        have hN' : (if a.info.kind ≠ .directory then newAsset cfg a.name .directory else a).name = a.name := by
          split <;> rfl
        rcases ih (w := w) hT' hK' with ⟨d, e1, e2, e3, e4⟩ | ⟨e1, e, e2⟩
        · rw [e1]
          left
          have hname : d.name = a.name := (congrArg Meta.name e3).trans hN'
          refine ⟨_, rfl, ?_, rfl, ?_⟩
          · rw [h.indirect]; exact tidy_replace hT e2 hname
          · rw [List.cons_append, look_replace (a := a) (b := d) (by rw [ha]; exact h1) hname, hput, e4, look_next h hmem ha, ha, hself]
        · rw [e2]; exact .inr ⟨e1, e, rfl⟩

theorem delete_cons (n : Name) (t : List Name) (F : Tree) :
    F.delete (n :: t) = graft n (Tree.delete t fun q => F (n :: q)) F := by
  funext p
  cases p with
  | nil => rw [graft, Tree.delete, if_neg (by simp)]
  | cons k q =>
    rw [graft]
    unfold Tree.delete
    by_cases hkn : k = n
    · subst hkn; simp only [List.cons_prefix_cons, true_and, if_true]
    · simp only [List.cons_prefix_cons, hkn, Ne.symm hkn, false_and, if_false]

theorem delete_absent {P : Meta → Prop} (path : List Name) : ∀ {dir : Asset} {t : List Name}, Tidy P dir → ¬ (look dir).isDir path → t ≠ [] →
    (look dir).delete (path ++ t) = look dir := by
  induction path with
  | nil =>
    intro dir t h hd ht
    have hk : dir.info.kind ≠ .directory := fun hk => hd ⟨_, look_nil dir, hk⟩
    funext p
    rw [Tree.delete, List.nil_append]
    split
    · rename_i hp
      rw [look_leaf h hk, Tree.root, if_neg]
      rintro rfl; exact ht (List.prefix_nil.mp hp)
    · rfl
  | cons n path ih =>
    intro dir t h hd ht
    rw [List.cons_append, delete_cons]
    funext p
    cases p with
    | nil => rfl
    | cons k q =>
      rw [graft]
      split
      · rename_i hk; subst hk
        cases hf : dir.children.find? fun c => c.name = k with
        | none =>
          have : ∀ q, look dir (k :: q) = none := fun q => by rw [look_cons, hf]; rfl
          simp only [Tree.delete, this]; split <;> rfl
        | some c =>
          have hc := (find_iff h.nodup k c).mp hf
          have hsub : (fun q => look dir (k :: q)) = look c := by funext q; rw [look_cons, hf]; rfl
          rw [hsub, ih (h.children c hc.1) (fun ⟨m, hm, hk⟩ => hd ⟨m, by rw [look_cons, hf]; exact hm, hk⟩) ht]
          rw [← hsub]
      · rfl

/-- The result of `DeleteAsset` below a directory. -/
theorem inDirPath_delete {P : Meta → Prop} {cfg : Cfg} {name : Name} (path : List Name) : ∀ {dir : Asset} {w : Work}, Tidy P dir →
    dir.info.kind = .directory →
    (∃ dir', inDirPath cfg .noCreate (deleteFromDir cfg name) path dir w = .ok (dir', w, none) ∧ Tidy P dir' ∧ dir'.info = dir.info ∧
      look dir' = (look dir).delete (path ++ [name])) ∨
    (∃ e, inDirPath cfg .noCreate (deleteFromDir cfg name) path dir w = .error e ∧ (e = .notFound ∨ e = .invalid) ∧
      ¬ (look dir).isDir path) := by
  induction path with
  | nil =>
    intro dir w h hd
    left
    obtain ⟨dir', e1, e2, e3, e4, e5⟩ := deleteFromDir_look (cfg := cfg) (name := name) (w := w) h hd
    refine ⟨dir', by rw [inDirPath]; exact e1, e2, e3, ?_⟩
    rw [List.nil_append, delete_cons, e5]
    congr 1
  | cons n path ih =>
    intro dir w h hd
    unfold inDirPath
    dsimp only
    unfold inDir
    rcases split_name dir.children n with hn | ⟨l1, a, l2, he, ha, h1⟩
    · rw [inList_none hn, h.indirect]
      dsimp only [inIndirect]
      right
      refine ⟨_, rfl, .inl rfl, ?_⟩
      rintro ⟨m, hm, _⟩; rw [look_cons, find_none hn] at hm; cases hm
    · have hmem : a ∈ dir.children := by rw [he]; simp
      have hself : Asset.mk dir.info (l1 ++ a :: l2) dir.indirect = dir := by rw [← he, h.indirect, ← mk_eta h]
      have hT : Tidy P (.mk dir.info (l1 ++ a :: l2) []) := by rw [← he, ← mk_eta h]; exact h
      have hsub : ∀ q, look dir (n :: q) = look a q := by
        intro q; rw [look_cons, (find_iff h.nodup n a).mpr ⟨hmem, ha⟩]; rfl
      rw [he, inList_found h1 ha]
      dsimp only
      by_cases hk : a.info.kind = .directory
      · rw [if_neg (by simp [hk]), if_neg (by simp [hk])]
        rcases ih (w := w) (h.children a hmem) hk with ⟨d, e1, e2, e3, e4⟩ | ⟨e, e1, e2, e3⟩
        · rw [e1]
          left
          have hname : d.name = a.name := by unfold Asset.name; rw [e3]
          refine ⟨_, rfl, ?_, rfl, ?_⟩
          · rw [h.indirect]; exact tidy_replace hT e2 hname
          · rw [List.cons_append, look_replace (a := a) (b := d) (by rw [ha]; exact h1) hname, delete_cons, e4, ha, hself]
            congr 2
            funext q; exact (hsub q).symm
        · rw [e1]
          right
          refine ⟨e, rfl, e2, ?_⟩
          rintro ⟨m, hm, hk'⟩
          rw [hsub] at hm
          exact e3 ⟨m, hm, hk'⟩
      · rw [if_pos ⟨hk, by simp⟩]
        right
        refine ⟨_, rfl, .inr rfl, ?_⟩
        rintro ⟨m, hm, hk'⟩
        rw [hsub] at hm
        cases path with
        | nil => rw [look_nil] at hm; cases hm; exact hk hk'
        | cons x path => rw [look_leaf (h.children a hmem) hk, Tree.root, if_neg (by simp)] at hm; cases hm

/-! ### Whole builders -/

/-- What is known about a builder that was not flushed yet. -/
structure Fresh (P : Meta → Prop) (S : List Stored) (b : Builder) (F : Tree) : Prop where
  tidy : Tidy P b.root
  dir : b.root.info.kind = .directory
  lists : b.lists = []
  store : b.store = S
  tree : look b.root = F

theorem Fresh.edit {P : Meta → Prop} {cfg : Cfg} (hP : ∀ n k, P (newMeta cfg n k)) {S : List Stored} {b b' : Builder} {F : Tree} {kind : Kind} {force : Bool}
    {path : List Name} {name : Name} {g : Meta → Meta} (hg : FieldChange P g) (h : Fresh P S b F)
    (he : editAsset cfg kind force path name (onInfo g) b = .ok b') : Fresh P S b' (F.put (newMeta cfg) (path ++ [name]) kind g) := by
  unfold editAsset at he
  rcases inDirPath_put hP hg (kind := kind) (force := force) (name := name) path (w := ⟨b.lists, b.store⟩) h.tidy h.dir with ⟨d, e1, e2, e3, e4⟩ | ⟨-, e, e1⟩
  · rw [e1] at he
    cases he
    exact ⟨e2, by rw [← h.dir, ← e3], h.lists, h.store, by rw [← h.tree]; exact e4⟩
  · rw [e1] at he; cases he

theorem Fresh.delete {P : Meta → Prop} {cfg : Cfg} {S : List Stored} {b b' : Builder} {F : Tree} {path : List Name} {name : Name}
    (h : Fresh P S b F) (he : deleteAsset cfg path name b = .ok b') : Fresh P S b' (F.delete (path ++ [name])) := by
  unfold deleteAsset at he
  rcases inDirPath_delete (cfg := cfg) (name := name) path (w := ⟨b.lists, b.store⟩) h.tidy h.dir with ⟨d, e1, e2, e3, e4⟩ | ⟨e, e1, e2, e3⟩
  · rw [e1] at he
    cases he
    exact ⟨e2, by rw [← h.dir, ← e3], h.lists, h.store, by rw [← h.tree]; exact e4⟩
  · rw [e1] at he
    have hF : F.delete (path ++ [name]) = F := by
      rw [← h.tree]; exact delete_absent path h.tidy e3 (by simp)
    rw [hF]
    rcases e2 with rfl | rfl <;> (cases he; exact h)

theorem built_fresh {cfg : Cfg} {S : List Stored} {b : Builder} {F : Tree} (h : Built cfg S b F) : Fresh FieldsOk S b F := by
  have hP : ∀ n k, FieldsOk (newMeta cfg n k) := fun n k => ⟨by simp [newMeta], by simp [newMeta], rfl⟩
  induction h with
  | new => exact ⟨tidy_new (hP _ _), rfl, rfl, rfl, look_new _ _ _⟩
  | edit kind force path name g _ hg he ih => exact ih.edit hP hg he
  | delete path name _ he ih => exact ih.delete he

/-- C71: while a manifest is built, creating an asset with `force_create` always works, and so does deleting one. -/
theorem C71_operations_work (cfg : Cfg) (S : List Stored) (b : Builder) (F : Tree) (h : Built cfg S b F)
    (kind : Kind) (path : List Name) (name : Name) (g : Meta → Meta) (hg : FieldChange FieldsOk g) :
    (∃ b', editAsset cfg kind true path name (onInfo g) b = .ok b') ∧ (∃ b', deleteAsset cfg path name b = .ok b') := by
  have hP : ∀ n k, FieldsOk (newMeta cfg n k) := fun n k => ⟨by simp [newMeta], by simp [newMeta], rfl⟩
  have hf := built_fresh h
  constructor
  · unfold editAsset
    rcases inDirPath_put hP hg (kind := kind) (force := true) (name := name) path (w := ⟨b.lists, b.store⟩) hf.tidy hf.dir with ⟨d, e1, -⟩ | ⟨e, -⟩
    · rw [e1]; exact ⟨_, rfl⟩
    · cases e
  · unfold deleteAsset
    rcases inDirPath_delete (cfg := cfg) (name := name) path (w := ⟨b.lists, b.store⟩) hf.tidy hf.dir with ⟨d, e1, -⟩ | ⟨e, e1, e2, -⟩
    · rw [e1]; exact ⟨_, rfl⟩
    · rw [e1]; rcases e2 with rfl | rfl <;> exact ⟨_, rfl⟩

/-! ### Flushing -/

/-- The asset `a`, all of whose entries are direct, as a reader sees it with the chunk lists in the store `S`. -/
def reads (hash : Stored → Id) (S : List Stored) (F : Tree) (p : List Name) : Option Meta :=
  (F p).bind fun m => seen hash S (.mk m [] [])

theorem seen_info (hash : Stored → Id) (S : List Stored) {a b : Asset} (h : b.info = a.info) : seen hash S b = seen hash S a := by
  unfold seen; rw [h]

theorem flatIndirect_exists {g : Id → Option (List Ref)} {is : List Indirect} (h : ∀ i ∈ is, ∃ l, g i.listId = some l) :
    ∃ cs, flatIndirect g is = some cs := by
  induction is with
  | nil => exact ⟨_, rfl⟩
  | cons i is ih =>
    obtain ⟨l, hl⟩ := h i (by simp)
    obtain ⟨r, hr⟩ := ih fun j hj => h j (by simp [hj])
    unfold flatIndirect
    rw [hl, hr]; exact ⟨_, rfl⟩

theorem flatChunks_held {hash : Stored → Id} {S : List Stored} {a : Asset} (h : Held hash S a) :
    ∃ cs, flatChunks (findChunks hash S) a.info = some cs := by
  have h1 := ((held_iff hash S a).mp h).1
  obtain ⟨cs, hcs⟩ := flatIndirect_exists (g := findChunks hash S) (is := a.info.indirect) fun i hi => by
    obtain ⟨l, hl, e⟩ := h1 i hi
    rw [← e]; exact findChunks_exists hl
  unfold flatChunks
  rw [hcs]; exact ⟨_, rfl⟩

theorem seen_same {hash : Stored → Id} {S S' : List Stored} {a b : Asset} (h : SameEntry hash S S' a b) (ha : Held hash S a)
    (hc : NoCollision hash S') (hs : S <+: S') : seen hash S' b = seen hash S' a := by
  obtain ⟨cs, hcs⟩ := flatChunks_held ha
  have h1 := h.chunks cs hcs
  have h2 := flatChunks_mono (fun _ _ => findChunks_mono hc hs) hcs
  unfold seen
  rw [h1, h2]
  have hi := h.info
  simp only [Option.map_some, Option.some.injEq]
  have := congrArg (fun m : Meta => { m with chunks := cs, indirect := [] }) hi
  exact this

theorem has_nil {hash : Stored → Id} {S : List Stored} {a : Asset} {m : Meta} : Has hash S a [] m ↔ seen hash S a = some m :=
  ⟨fun h => by cases h with | here h => exact h, .here⟩

theorem has_cons {hash : Stored → Id} {S : List Stored} {a : Asset} {n : Name} {p : List Name} {m : Meta} :
    Has hash S a (n :: p) m ↔ ∃ es, entries (findAssets hash S) a = some es ∧ ∃ c ∈ es, c.name = n ∧ Has hash S c p m := by
  constructor
  · intro h
    cases h with
    | @child _ c es _ _ h1 h2 h3 => exact ⟨es, h1, c, h2, rfl, h3⟩
  · rintro ⟨es, h1, c, h2, rfl, h3⟩; exact .child h1 h2 h3

theorem has_same {hash : Stored → Id} {S S' S'' : List Stored} {a b : Asset} (h : SameEntry hash S S' a b) (ha : Held hash S a)
    (hc : NoCollision hash S'') (hs : S <+: S') (hs' : S' <+: S'') (p : List Name) (m : Meta) : Has hash S'' b p m ↔ Has hash S'' a p m := by
  cases p with
  | nil => rw [has_nil, has_nil, seen_same (h.trans_store hc hs') ha hc (hs.trans hs')]
  | cons n p =>
    have : entries (findAssets hash S'') b = entries (findAssets hash S'') a := by
      unfold entries; rw [h.children, h.indirect]
    rw [has_cons, has_cons, this]

theorem reads_nil (hash : Stored → Id) (S : List Stored) (a : Asset) : reads hash S (look a) [] = seen hash S a := by
  unfold reads; rw [look_nil]; rfl

theorem reads_cons {P : Meta → Prop} (hash : Stored → Id) (S : List Stored) {a : Asset} (h : Tidy P a) (n : Name) (p : List Name) (m : Meta) :
    reads hash S (look a) (n :: p) = some m ↔ ∃ c ∈ a.children, c.name = n ∧ reads hash S (look c) p = some m := by
  unfold reads
  rw [look_cons]
  constructor
  · intro hm
    obtain ⟨x, hx, hs⟩ := Option.bind_eq_some_iff.mp hm
    obtain ⟨c, hc, hl⟩ := Option.bind_eq_some_iff.mp hx
    obtain ⟨h1, h2⟩ := (find_iff h.nodup n c).mp hc
    exact ⟨c, h1, h2, by rw [hl]; exact hs⟩
  · rintro ⟨c, h1, h2, hr⟩
    rw [(find_iff h.nodup n c).mpr ⟨h1, h2⟩]; exact hr

/-- `b`, in any larger store, is what `a` was. -/
def ReadsAs (hash : Stored → Id) (S : List Stored) (a b : Asset) : Prop :=
  b.name = a.name ∧ ∀ S'', S <+: S'' → NoCollision hash S'' → ∀ p m, Has hash S'' b p m ↔ reads hash S'' (look a) p = some m

theorem readsAs_leaf {P : Meta → Prop} {hash : Stored → Id} {S : List Stored} {a : Asset} (h : Tidy P a) (hk : a.info.kind ≠ .directory) :
    ReadsAs hash S a a := by
  refine ⟨rfl, fun S'' _ _ p m => ?_⟩
  cases p with
  | nil => rw [has_nil, reads_nil]
  | cons n p =>
    rw [has_cons, reads_cons hash S'' h]
    have he : entries (findAssets hash S'') a = some [] := by
      unfold entries; rw [h.indirect, h.leaf hk]; rfl
    rw [he, h.leaf hk]
    constructor
    · rintro ⟨es, e, c, hc, _⟩; cases e; cases hc
    · rintro ⟨c, hc, _⟩; cases hc

theorem forall₂_mem {α β : Type} {R : α → β → Prop} {l : List α} {l' : List β} (h : List.Forall₂ R l l') :
    (∀ a ∈ l, ∃ b ∈ l', R a b) ∧ ∀ b ∈ l', ∃ a ∈ l, R a b := by
  induction h with
  | nil => simp
  | cons hr _ ih =>
    refine ⟨?_, ?_⟩
    · intro a ha
      rcases List.mem_cons.mp ha with rfl | ha
      · exact ⟨_, List.mem_cons_self, hr⟩
      · obtain ⟨b, hb, hab⟩ := ih.1 a ha; exact ⟨b, List.mem_cons_of_mem _ hb, hab⟩
    · intro b hb
      rcases List.mem_cons.mp hb with rfl | hb
      · exact ⟨_, List.mem_cons_self, hr⟩
      · obtain ⟨a, ha, hab⟩ := ih.2 b hb; exact ⟨a, List.mem_cons_of_mem _ ha, hab⟩

theorem SameEntry.name {hash : Stored → Id} {S S' : List Stored} {a b : Asset} (h : SameEntry hash S S' a b) : b.name = a.name :=
  (congrArg Meta.name h.info : _)

theorem flushIndirect_nil {cfg : Cfg} {fuel : Nat} {w w' : Work} {ids : List Id} {over : List Asset}
    (h : flushIndirect cfg fuel [] [] w = some (ids, over, w')) : ids = [] ∧ over = [] ∧ w' = w := by
  cases fuel with
  | zero => simp [flushIndirect] at h
  | succ => simp only [flushIndirect] at h; cases h; exact ⟨rfl, rfl, rfl⟩

theorem flush_reads {P : Meta → Prop} (hasc : ∀ m, P m → m.chunks.Pairwise fun a b => a.offset ≤ b.offset) {cfg : Cfg}
    (hsort : ∀ l, (cfg.sort l).Perm l) (fuel : Nat) :
    (∀ a w a' w', flushDir cfg fuel a w = some (a', w') → Good cfg.hash w → Held cfg.hash w.store a → Tidy P a →
      NoCollision cfg.hash w'.store → a'.info = a.info ∧ ReadsAs cfg.hash w'.store a a') ∧
    (∀ l w l' w', flushList cfg fuel l w = some (l', w') → Good cfg.hash w → HeldL cfg.hash w.store l → (∀ a ∈ l, Tidy P a) →
      NoCollision cfg.hash w'.store → List.Forall₂ (fun a b => b.info = a.info ∧ ReadsAs cfg.hash w'.store a b) l l') := by
  induction fuel with
  | zero => refine ⟨?_, ?_⟩ <;> intros <;> simp_all [flushDir, flushList]
  | succ fuel ih =>
    obtain ⟨ihD, ihL⟩ := ih
    refine ⟨?_, ?_⟩
    · intro a w a' w' h hg hd ht hc
      have h1 := (held_iff _ _ _).mp hd
      unfold flushDir at h
      split at h
      · cases h
      rename_i cs w1 hl
      obtain ⟨g1, g2, g3⟩ := (flush_good hsort fuel).2.1 _ _ _ _ hl hg ((heldL_iff _ _ _).mpr h1.2.2)
      rw [ht.indirect] at h
      split at h
      · cases h
      rename_i ids over w2 hi
      obtain ⟨rfl, rfl, rfl⟩ := flushIndirect_nil hi
      have hsplit : splitDir cfg (.mk a.info cs []) [] w2 = some (a', w') := h
      have hext : w2.store <+: w'.store := by
        have hd1 := (held_iff _ _ _).mp (g2.held hd)
        split at h
        · cases h
        rename_i dir2 over2 w3 he
        obtain ⟨c1, c2, c3, c4⟩ := enforceDir_good hsort he g1
          ((held_iff _ _ _).mpr ⟨hd1.1, by simp, (heldL_iff _ _ _).mp g3⟩) trivial
        obtain ⟨-, d2, -⟩ := appendOverflow_good h c1 c3 c4
        exact c2.trans d2
      have hR := ihL _ _ _ _ hl hg ((heldL_iff _ _ _).mpr h1.2.2) ht.children (hc.mono hext)
      have hasc' : ∀ c ∈ cs, Ascending c := by
        intro c hc'
        obtain ⟨x, hx, hxi, -⟩ := (forall₂_mem hR).2 c hc'
        unfold Ascending; rw [hxi]; exact hasc _ (ht.children x hx).fields
      obtain ⟨k1, k2, es', p, k3, k4, k5⟩ := C28_same_entries cfg hsort _ _ _ _ _ hsplit hasc' (by simp) hc cs
        (by unfold entries; simp [flatAssets])
      rw [List.append_nil] at k5
      refine ⟨k1, congrArg Meta.name k1, fun S'' hs'' hc'' q m => ?_⟩
      cases q with
      | nil => rw [has_nil, reads_nil, seen_info _ _ k1]; rfl
      | cons n q =>
        rw [has_cons, reads_cons _ _ ht]
        have hes : entries (findAssets cfg.hash S'') a' = some es' := by
          unfold entries at k3 ⊢
          cases hf : flatAssets (findAssets cfg.hash w'.store) a'.indirect with
          | none => rw [hf] at k3; cases k3
          | some r => rw [hf] at k3; rw [flatAssets_mono (fun _ _ => findAssets_mono hc'' hs'') hf]; exact k3
        have hheld : ∀ c ∈ cs, Held cfg.hash w2.store c := (heldL_iff _ _ _).mp g3
        constructor
        · rintro ⟨es, e, c2, hc2, rfl, hhas⟩
          rw [hes] at e; cases e
          obtain ⟨c1, hc1, hse⟩ := (forall₂_mem k5).2 c2 (k4.mem_iff.mpr hc2)
          obtain ⟨c0, hc0, -, hn0, hr0⟩ := (forall₂_mem hR).2 c1 hc1
          refine ⟨c0, hc0, by rw [hse.name, hn0], ?_⟩
          rw [← hr0 S'' (hext.trans hs'') hc'' q m]
          exact (has_same hse (hheld c1 hc1) hc'' hext hs'' q m).mp hhas
        · rintro ⟨c0, hc0, rfl, hr⟩
          obtain ⟨c1, hc1, -, hn0, hr0⟩ := (forall₂_mem hR).1 c0 hc0
          obtain ⟨c2, hc2, hse⟩ := (forall₂_mem k5).1 c1 hc1
          refine ⟨es', hes, c2, k4.mem_iff.mp hc2, by rw [hse.name, hn0], ?_⟩
          rw [has_same hse (hheld c1 hc1) hc'' hext hs'' q m, hr0 S'' (hext.trans hs'') hc'' q m]
          exact hr
    · intro l w l' w' h hg hl ht hc
      cases l with
      | nil => simp only [flushList] at h; cases h; exact .nil
      | cons a as =>
        simp only [flushList] at h
        split at h
        · cases h
        rename_i b w1 hb
        have key : Good cfg.hash w1 ∧ Ext w w1 := by
          split at hb
          · obtain ⟨x, y, -⟩ := (flush_good hsort fuel).1 _ _ _ _ hb hg hl.1; exact ⟨x, y⟩
          · cases hb; exact ⟨hg, List.prefix_rfl⟩
        obtain ⟨a1, a2⟩ := key
        split at h
        · cases h
        rename_i bs w2 hbs
        cases h
        obtain ⟨-, b2, -⟩ := (flush_good hsort fuel).2.1 _ _ _ _ hbs a1 (a2.heldL hl.2)
        refine .cons ?_ (ihL _ _ _ _ hbs a1 (a2.heldL hl.2) (fun x hx => ht x (by simp [hx])) hc)
        split at hb
        · obtain ⟨x, y, z⟩ := ihD _ _ _ _ hb hg hl.1 (ht a (by simp)) (hc.mono b2)
          exact ⟨x, y, fun S'' hs => z S'' (List.IsPrefix.trans b2 hs)⟩
        · rename_i hk
          cases hb
          exact ⟨rfl, readsAs_leaf (ht _ (by simp)) hk⟩

/-- The manifest that is loaded after a flush. -/
theorem load_flushed {cfg : Cfg} {fuel : Nat} {b b' b2 : Builder} {id : Id} (h : flush cfg fuel b = some (id, b'))
    (hc : NoCollision cfg.hash b'.store) (hl : loadManifest cfg b'.store id = some b2) : b2.root = b'.root := by
  unfold flush at h
  split at h
  · cases h
  rename_i root w hf
  cases h
  unfold loadManifest at hl
  obtain ⟨r, hr, rfl⟩ := Option.map_eq_some_iff.mp hl
  unfold findManifest at hr
  obtain ⟨l₁, p, l₂, hS, hp, -⟩ := List.findSome?_eq_some_iff.mp hr
  cases p with
  | chunks => cases hp
  | assets => cases hp
  | manifest r' =>
    dsimp only at hp
    split at hp
    · rename_i hh
      cases hp
      have := hc (.manifest r) (.manifest root) (by rw [hS]; simp) (by simp) hh
      cases this; rfl
    · cases hp

theorem load_exists {cfg : Cfg} {fuel : Nat} {b b' : Builder} {id : Id} (h : flush cfg fuel b = some (id, b')) :
    ∃ b2, loadManifest cfg b'.store id = some b2 := by
  unfold flush at h
  split at h
  · cases h
  rename_i root w hf
  cases h
  unfold loadManifest
  have : (findManifest cfg.hash (w.store ++ [.manifest root]) (cfg.hash (.manifest root))).isSome := by
    unfold findManifest
    rw [List.findSome?_isSome_iff]
    exact ⟨_, List.mem_append_right _ (List.mem_singleton.mpr rfl), by simp⟩
  obtain ⟨r, hr⟩ := Option.isSome_iff_exists.mp this
  rw [hr]; exact ⟨_, rfl⟩

theorem flush_root {P : Meta → Prop} (hasc : ∀ m, P m → m.chunks.Pairwise fun a b => a.offset ≤ b.offset) {cfg : Cfg}
    (hsort : ∀ l, (cfg.sort l).Perm l) {fuel : Nat} {b b' : Builder} {id : Id} (h : flush cfg fuel b = some (id, b'))
    (hg : GoodB cfg.hash b) (ht : Tidy P b.root) (hc : NoCollision cfg.hash b'.store) (p : List Name) (m : Meta) :
    Has cfg.hash b'.store b'.root p m ↔ reads cfg.hash b'.store (look b.root) p = some m := by
  unfold flush at h
  split at h
  · cases h
  rename_i root w hf
  cases h
  have hpre : w.store <+: w.store ++ [Stored.manifest root] := ⟨_, rfl⟩
  obtain ⟨-, -, h2⟩ := (flush_reads hasc hsort fuel).1 _ _ _ _ hf hg.1 hg.2 ht (hc.mono hpre)
  exact h2 _ hpre hc p m

theorem tidy_held {P : Meta → Prop} (hd : ∀ m, P m → m.indirect = []) {a : Asset} (h : Tidy P a) (hash : Stored → Id) (S : List Stored) :
    Held hash S a := by
  induction h with
  | mk hP _ _ _ ih =>
    rw [held_iff]
    refine ⟨?_, ?_, ih⟩
    · intro i hi; rw [Asset.info_mk, hd _ hP] at hi; cases hi
    · intro i hi; cases hi

theorem look_fields {P : Meta → Prop} {a : Asset} (h : Tidy P a) : ∀ {p : List Name} {m : Meta}, look a p = some m → P m := by
  induction h with
  | @mk m0 cs hP hcs hn hl ih =>
    intro p m hm
    cases p with
    | nil => rw [look_nil] at hm; cases hm; exact hP
    | cons n p =>
      rw [look_cons] at hm
      obtain ⟨c, hc, hm⟩ := Option.bind_eq_some_iff.mp hm
      exact ih c ((find_iff hn n c).mp hc).1 hm

theorem reads_direct {P : Meta → Prop} (hd : ∀ m, P m → m.indirect = []) (hash : Stored → Id) (S : List Stored) {a : Asset} (h : Tidy P a)
    (p : List Name) : reads hash S (look a) p = look a p := by
  unfold reads
  cases hl : look a p with
  | none => rfl
  | some m =>
    have := hd m (look_fields h hl)
    simp only [Option.bind_some, seen, Asset.info_mk]
    unfold flatChunks
    rw [this]
    cases m
    simp only at this
    subst this
    simp [flatIndirect]

/-- C71: a manifest that was built from scratch - on a store that may hold anything written before - by creating, changing and
deleting assets, and then flushed and loaded, has exactly the assets that the same operations give on a plain file tree: the
same paths, each with the same fields and chunks, whatever was moved to indirect lists on the way. -/
theorem C71_reads_back_as_built (cfg : Cfg) (hsort : ∀ l, (cfg.sort l).Perm l) (b0 b b' b2 : Builder) (F : Tree) (fuel : Nat) (id : Id)
    (h0 : Steps cfg (empty cfg) b0) (h : Built cfg b0.store b F) (hf : flush cfg fuel b = some (id, b'))
    (hc : NoCollision cfg.hash b'.store) (hl : loadManifest cfg b'.store id = some b2) (p : List Name) (m : Meta) :
    Has cfg.hash b2.store b2.root p m ↔ F p = some m := by
  have hfr := built_fresh h
  have hg : GoodB cfg.hash b := by
    refine ⟨⟨?_, ?_⟩, tidy_held (fun m hm => hm.direct) hfr.tidy _ _⟩
    · show Closed cfg.hash b.store
      rw [hfr.store]; exact (goodB_steps hsort h0 (goodB_empty cfg)).1.closed
    · intro id l hm
      simp only [hfr.lists, List.not_mem_nil] at hm
  have hst : b2.store = b'.store := by
    unfold loadManifest at hl
    obtain ⟨r, -, rfl⟩ := Option.map_eq_some_iff.mp hl; rfl
  rw [hst, load_flushed hf hc hl, flush_root (fun m hm => hm.asc) hsort hf hg hfr.tidy hc,
    reads_direct (fun m hm => hm.direct) _ _ hfr.tidy, hfr.tree]

/-! ### The first flush works -/

theorem enforceDir_info {cfg : Cfg} {dir dir' : Asset} {over over' : List Asset} {w w' : Work}
    (h : enforceDir cfg dir over w = some (dir', over', w')) : dir'.info = dir.info := by
  unfold enforceDir at h
  split at h
  · cases h; rfl
  dsimp only at h
  split at h
  · cases h
  · cases h; rfl

theorem appendOverflow_info {cfg : Cfg} {dir dir' : Asset} {over : List Asset} {w w' : Work}
    (h : appendOverflow cfg dir over w = some (dir', w')) : dir'.info = dir.info := by
  unfold appendOverflow at h
  split at h
  · cases h; rfl
  dsimp only at h
  split at h
  · cases h
  · cases h; rfl

theorem flushDir_info {cfg : Cfg} {fuel : Nat} {a a' : Asset} {w w' : Work} (h : flushDir cfg fuel a w = some (a', w')) :
    a'.info = a.info := by
  cases fuel with
  | zero => simp [flushDir] at h
  | succ fuel =>
    unfold flushDir at h
    split at h
    · cases h
    split at h
    · cases h
    split at h
    · cases h
    rename_i he
    rw [appendOverflow_info h, enforceDir_info he]; rfl

theorem flushList_info {cfg : Cfg} {fuel : Nat} {l l' : List Asset} {w w' : Work} (h : flushList cfg fuel l w = some (l', w')) :
    ∀ b ∈ l', ∃ a ∈ l, b.info = a.info := by
  induction l generalizing fuel l' w w' with
  | nil => cases fuel with
    | zero => simp [flushList] at h
    | succ => simp only [flushList] at h; cases h; simp
  | cons a l ih => cases fuel with
    | zero => simp [flushList] at h
    | succ fuel =>
      simp only [flushList] at h
      split at h
      · cases h
      rename_i b w1 hb
      split at h
      · cases h
      rename_i hbs
      cases h
      intro x hx
      rcases List.mem_cons.mp hx with rfl | hx
      · refine ⟨a, by simp, ?_⟩
        split at hb
        · exact flushDir_info hb
        · cases hb; rfl
      · obtain ⟨y, hy, e⟩ := ih hbs x hx
        exact ⟨y, by simp [hy], e⟩

theorem flushDir_works {P : Meta → Prop} (hd : ∀ m, P m → m.indirect = []) {cfg : Cfg} (hsort : ∀ l, (cfg.sort l).Perm l) {a : Asset}
    (h : Tidy P a) : ∃ N, ∀ fuel, N ≤ fuel → ∀ w, ∃ r, flushDir cfg fuel a w = some r := by
  induction h with
  | @mk m cs hP hcs hn hl ih =>
    have hlist : ∀ l : List Asset, (∀ c ∈ l, c ∈ cs) → ∃ N, ∀ fuel, N ≤ fuel → ∀ w, ∃ r, flushList cfg fuel l w = some r := by
      intro l
      induction l with
      | nil =>
        intro _
        refine ⟨1, fun fuel hf w => ?_⟩
        obtain ⟨k, rfl⟩ : ∃ k, fuel = k + 1 := ⟨fuel - 1, by omega⟩
        simp [flushList]
      | cons c l ihl =>
        intro hmem
        obtain ⟨N1, h1⟩ := ih c (hmem c (by simp))
        obtain ⟨N2, h2⟩ := ihl fun x hx => hmem x (by simp [hx])
        refine ⟨max N1 N2 + 1, fun fuel hf w => ?_⟩
        obtain ⟨k, rfl⟩ : ∃ k, fuel = k + 1 := ⟨fuel - 1, by omega⟩
        simp only [flushList]
        have hstep : ∃ r, (if c.info.kind = .directory then flushDir cfg k c w else some (c, w)) = some r := by
          split
          · exact h1 k (by omega) w
          · exact ⟨_, rfl⟩
        obtain ⟨⟨b, w1⟩, hb⟩ := hstep
        rw [hb]
        dsimp only
        obtain ⟨⟨bs, w2⟩, hbs⟩ := h2 k (by omega) w1
        rw [hbs]; exact ⟨_, rfl⟩
    obtain ⟨N, hN⟩ := hlist cs fun _ h => h
    refine ⟨N + 2, fun fuel hf w => ?_⟩
    obtain ⟨k, rfl⟩ : ∃ k, fuel = k + 2 := ⟨fuel - 2, by omega⟩
    unfold flushDir
    obtain ⟨⟨cs', w1⟩, h1⟩ := hN (k + 1) (by omega) w
    simp only [Asset.children_mk, h1, Asset.indirect_mk, flushIndirect, Asset.info_mk]
    have hen := Reflush.C54_first_split_works_partial cfg (.mk m cs' []) [] w1 hsort (by
      intro x hx
      obtain ⟨y, hy, e⟩ := flushList_info h1 x hx
      rw [e]; exact hd _ (hcs y hy).fields)
    obtain ⟨⟨d, o, w2⟩, h2⟩ := Option.isSome_iff_exists.mp hen
    rw [h2]
    dsimp only
    have hi := (enforceDir_indirect h2).1
    unfold appendOverflow
    split
    · exact ⟨_, rfl⟩
    · rw [hi]; exact ⟨_, rfl⟩

/-- C71: and flushing such a manifest always works (with enough fuel for the recursion). -/
theorem C71_flush_works (cfg : Cfg) (hsort : ∀ l, (cfg.sort l).Perm l) (S : List Stored) (b : Builder) (F : Tree) (h : Built cfg S b F) :
    ∃ N, ∀ fuel, N ≤ fuel → ∃ id b' b2, flush cfg fuel b = some (id, b') ∧ loadManifest cfg b'.store id = some b2 := by
  obtain ⟨N, hN⟩ := flushDir_works (fun m hm => hm.direct) hsort (built_fresh h).tidy
  refine ⟨N, fun fuel hf => ?_⟩
  obtain ⟨⟨root, w⟩, hr⟩ := hN fuel hf ⟨b.lists, b.store⟩
  have : ∃ id b', flush cfg fuel b = some (id, b') := by
    unfold flush; rw [hr]; exact ⟨_, _, rfl⟩
  obtain ⟨id, b', hf⟩ := this
  obtain ⟨b2, hb⟩ := load_exists hf
  exact ⟨id, b', b2, hf, hb⟩

/-! ### C30: manifests without indirect asset lists -/

/-- Changes made through `AssetBuilder` to a manifest that was loaded: they never add references to chunk lists. -/
structure LoadedChange (g : Meta → Meta) : Prop where
  name : ∀ m, (g m).name = m.name
  kind : ∀ m, (g m).kind = m.kind
  asc : ∀ m, (m.chunks.Pairwise fun a b => a.offset ≤ b.offset) → (g m).chunks.Pairwise fun a b => a.offset ≤ b.offset
  lists : ∀ m, ∀ i ∈ (g m).indirect, i ∈ m.indirect

def Ascends (m : Meta) : Prop := m.chunks.Pairwise fun a b => a.offset ≤ b.offset

theorem seen_mono {hash : Stored → Id} {S S' : List Stored} {a : Asset} (ha : Held hash S a) (hc : NoCollision hash S') (hs : S <+: S') :
    seen hash S' a = seen hash S a := by
  obtain ⟨cs, hcs⟩ := flatChunks_held ha
  unfold seen
  rw [hcs, flatChunks_mono (fun _ _ => findChunks_mono hc hs) hcs]

theorem held_look {P : Meta → Prop} {hash : Stored → Id} {S : List Stored} {a : Asset} (h : Tidy P a) : Held hash S a →
    ∀ {p : List Name} {m : Meta}, look a p = some m → Held hash S (.mk m [] []) := by
  induction h with
  | @mk m0 cs hP hcs hn hl ih =>
    intro ha p m hm
    have h1 := (held_iff _ _ _).mp ha
    cases p with
    | nil =>
      rw [look_nil] at hm; cases hm
      rw [held_iff]; exact ⟨h1.1, by simp, by simp⟩
    | cons n p =>
      rw [look_cons] at hm
      obtain ⟨c, hc, hm⟩ := Option.bind_eq_some_iff.mp hm
      have hc' := ((find_iff hn n c).mp hc).1
      exact ih c hc' (h1.2.2 c hc') hm

theorem has_tidy {P : Meta → Prop} {hash : Stored → Id} {S : List Stored} {a : Asset} (h : Tidy P a) :
    ∀ (p : List Name) (m : Meta), Has hash S a p m ↔ reads hash S (look a) p = some m := by
  induction h with
  | @mk m0 cs hP hcs hn hl ih =>
    intro p m
    cases p with
    | nil => rw [has_nil, reads_nil]
    | cons n p =>
      rw [has_cons, reads_cons hash S (Tidy.mk hP hcs hn hl)]
      have he : entries (findAssets hash S) (.mk m0 cs []) = some cs := by unfold entries; simp [flatAssets]
      rw [he]
      constructor
      · rintro ⟨es, e, c, hc, rfl, hh⟩; cases e; exact ⟨c, hc, rfl, (ih c hc p m).mp hh⟩
      · rintro ⟨c, hc, rfl, hh⟩; exact ⟨cs, rfl, c, hc, rfl, (ih c hc p m).mpr hh⟩

/-- C30, partial: if no directory of the manifest `b1` was large enough to need indirect asset lists (and names are unique, chunks in order and
only directories have entries), then loading it, changing or replacing the asset at one path and flushing has the specified effect: what
is at any path afterwards is what is there in the specification, and nothing outside that path changes.
Missing: manifests with indirect asset lists, for which this is false (`C30_changes_stay_local_violated`). -/
theorem C30_changes_stay_local_partial (cfg : Cfg) (hsort : ∀ l, (cfg.sort l).Perm l) (b0 b1 b2 b3 b4 : Builder) (id id' : Id)
    (fuel fuel' : Nat) (kind : Kind) (path : List Name) (name : Name) (g : Meta → Meta)
    (h0 : Steps cfg (empty cfg) b0) (h1 : flush cfg fuel b0 = some (id, b1)) (h2 : loadManifest cfg b1.store id = some b2)
    (ht : Tidy Ascends b1.root) (hd : b1.root.info.kind = .directory) (hg : LoadedChange g)
    (h3 : editAsset cfg kind true path name (onInfo g) b2 = .ok b3) (h4 : flush cfg fuel' b3 = some (id', b4))
    (hc : NoCollision cfg.hash b4.store) :
    (∀ p m, Has cfg.hash b4.store b4.root p m ↔
      reads cfg.hash b4.store ((look b1.root).put (newMeta cfg) (path ++ [name]) kind g) p = some m) ∧
    ((∃ m, Has cfg.hash b1.store b1.root (path ++ [name]) m ∧ m.kind = kind) → ∀ p m, p ≠ path ++ [name] →
      (Has cfg.hash b1.store b1.root p m ↔ Has cfg.hash b4.store b4.root p m)) := by
  have hg1 := goodB_flush hsort h1 (goodB_steps hsort h0 (goodB_empty cfg))
  have hg2 := goodB_load h2 hg1.1.1.closed
  have hno : NoNewLists (onInfo g) := fun a => ⟨hg.lists _, fun _ h => h, fun c h => .inl h⟩
  have hg3 := goodB_edit hno h3 hg2.1
  have hg4 := goodB_flush hsort h4 hg3.1
  have hpre : b1.store <+: b4.store := by
    have := List.IsPrefix.trans hg3.2 hg4.2.1; rwa [hg2.2] at this
  have hroot : b2.root = b1.root := load_flushed h1 (hc.mono hpre) h2
  have hlists : b2.lists = [] := by
    unfold loadManifest at h2
    obtain ⟨r, -, rfl⟩ := Option.map_eq_some_iff.mp h2; rfl
  have hf2 : Fresh Ascends b1.store b2 (look b1.root) := ⟨hroot ▸ ht, hroot ▸ hd, hlists, hg2.2, by rw [hroot]⟩
  have hf3 := hf2.edit (cfg := cfg) (fun n k => (by simp [newMeta])) ⟨hg.name, hg.kind, hg.asc⟩ h3
  have hmain : ∀ p m, Has cfg.hash b4.store b4.root p m ↔
      reads cfg.hash b4.store ((look b1.root).put (newMeta cfg) (path ++ [name]) kind g) p = some m := by
    intro p m
    rw [flush_root (fun m hm => hm) hsort h4 hg3.1 hf3.tidy hc, hf3.tree]
  refine ⟨hmain, fun ⟨m1, hm1, hk1⟩ p m hp => ?_⟩
  have hk : (look b1.root).isKind (path ++ [name]) kind := by
    rw [has_tidy ht] at hm1
    obtain ⟨x, hx, hs⟩ := Option.bind_eq_some_iff.mp hm1
    refine ⟨x, hx, ?_⟩
    unfold seen at hs
    obtain ⟨cs, -, rfl⟩ := Option.map_eq_some_iff.mp hs
    exact hk1
  rw [hmain, has_tidy ht]
  have hput : (look b1.root).put (newMeta cfg) (path ++ [name]) kind g p = look b1.root p := by
    unfold Tree.put
    rw [if_neg hp]
    split
    · rfl
    split
    · rename_i hpp
      rw [if_pos]
      -- everything on the way to an existing asset is a directory
      have : ∀ (t : List Name) {a : Asset} (q r : List Name), Tidy Ascends a → (look a).isKind t kind → t = q ++ r → r ≠ [] → (look a).isDir q := by
        intro t a q r
        induction q generalizing a t with
        | nil =>
          rintro hta ⟨m, hm, -⟩ rfl hr
          refine ⟨_, look_nil a, ?_⟩
          apply Decidable.byContradiction
          intro hk
          rw [look_leaf hta hk, Tree.root, if_neg hr] at hm; cases hm
        | cons n q ih =>
          rintro hta hkk rfl hr
          rw [List.cons_append, look_isKind_cons hta] at hkk
          obtain ⟨c, hc, hn, hkc⟩ := hkk
          exact (look_isKind_cons hta n q .directory).mpr ⟨c, hc, hn, ih _ (hta.children c hc) hkc rfl hr⟩
      obtain ⟨r, hr⟩ := hpp
      refine this _ p r ht hk hr.symm ?_
      rintro rfl; exact hp (by simpa using hr)
    · rfl
  unfold reads
  rw [hput]
  cases hl : look b1.root p with
  | none => rfl
  | some x =>
    simp only [Option.bind_some]
    rw [seen_mono (held_look ht hg1.1.2 hl) hc hpre]

/-! ### The setters of `AssetBuilder` are such changes -/

/-- `AppendChunk`, asset_builder.cc:34-43. -/
def appendChunk (id : Id) (len : Nat) (m : Meta) : Meta :=
  { m with chunks := m.chunks ++ [⟨m.fileSize, id⟩], fileSize := m.fileSize + len }

/-- `TruncateChunks`, asset_builder.cc:45-51. -/
def truncateChunks (m : Meta) : Meta := { m with chunks := [], indirect := [], fileSize := 0 }

/-- `SetChunks` and `SwapChunks`, asset_builder.cc:53-70. -/
def setChunks (cs : List Ref) (size : Nat) (m : Meta) : Meta := { m with chunks := cs, indirect := [], fileSize := size }

/-- `SetMtimeSeconds` and `SetPermissions`, asset_builder.h:41-52. -/
def setTimePerms (t : Int) (p : Nat) (m : Meta) : Meta := { m with mtime := t, perms := p }

/-- `SetInProgress`, asset_builder.cc:93-96. -/
def setInProgress (x : Bool) (m : Meta) : Meta := { m with inProgress := x }

/-- `SetSymlinkTarget`, asset_builder.h:122-124. -/
def setSymlink (t : Name) (m : Meta) : Meta := { m with symlink := t }

/-- The setters set what they say, and nothing else. -/
theorem C80_setters_set (m : Meta) (cs : List Ref) (size : Nat) (t : Int) (p : Nat) (x : Bool) (n : Name) :
    ((setSymlink n m).symlink = n ∧ setSymlink m.symlink (setSymlink n m) = m) ∧
    ((setInProgress x m).inProgress = x ∧ setInProgress m.inProgress (setInProgress x m) = m) ∧
    ((setTimePerms t p m).mtime = t ∧ (setTimePerms t p m).perms = p ∧ setTimePerms m.mtime m.perms (setTimePerms t p m) = m) ∧
    ((setChunks cs size m).chunks = cs ∧ (setChunks cs size m).indirect = [] ∧ (setChunks cs size m).fileSize = size ∧
      { setChunks cs size m with chunks := m.chunks, indirect := m.indirect, fileSize := m.fileSize } = m) ∧
    truncateChunks m = setChunks [] 0 m :=
  ⟨⟨rfl, rfl⟩, ⟨rfl, rfl⟩, ⟨rfl, rfl, rfl⟩, ⟨rfl, rfl, rfl, rfl⟩, rfl⟩

theorem setters_ok (id : Id) (len : Nat) (cs : List Ref) (size : Nat) (hcs : cs.Pairwise fun a b => a.offset ≤ b.offset)
    (hsize : ∀ r ∈ cs, r.offset ≤ size) (t : Int) (p : Nat) (x : Bool) (n : Name) :
    FieldChange FieldsOk (appendChunk id len) ∧ FieldChange FieldsOk truncateChunks ∧ FieldChange FieldsOk (setChunks cs size) ∧
    FieldChange FieldsOk (setTimePerms t p) ∧ FieldChange FieldsOk (setInProgress x) ∧ FieldChange FieldsOk (setSymlink n) := by
  refine ⟨⟨fun _ => rfl, fun _ => rfl, fun m h => ⟨?_, ?_, h.direct⟩⟩, ⟨fun _ => rfl, fun _ => rfl, fun m h => ⟨.nil, by simp [truncateChunks], rfl⟩⟩,
    ⟨fun _ => rfl, fun _ => rfl, fun m h => ⟨hcs, hsize, rfl⟩⟩, ⟨fun _ => rfl, fun _ => rfl, fun m h => ⟨h.asc, h.size, h.direct⟩⟩,
    ⟨fun _ => rfl, fun _ => rfl, fun m h => ⟨h.asc, h.size, h.direct⟩⟩, ⟨fun _ => rfl, fun _ => rfl, fun m h => ⟨h.asc, h.size, h.direct⟩⟩⟩
  · show (m.chunks ++ [_]).Pairwise _
    rw [List.pairwise_append]
    exact ⟨h.asc, by simp, fun a ha b hb => by rw [List.mem_singleton.mp hb]; exact h.size a ha⟩
  · intro r hr
    rcases List.mem_append.mp hr with hr | hr
    · have := h.size r hr; show r.offset ≤ m.fileSize + len; omega
    · rw [List.mem_singleton.mp hr]; show m.fileSize ≤ m.fileSize + len; omega

theorem put_other {new : Name → Kind → Meta} {t p : List Name} {kind : Kind} {g : Meta → Meta} {F : Tree} (h1 : ¬ t <+: p) (h2 : ¬ p <+: t) :
    F.put new t kind g p = F p := by
  rw [Tree.put, if_neg (by rintro rfl; exact h1 List.prefix_rfl), if_neg h1, if_neg h2]

theorem put_new {new : Name → Kind → Meta} {t : List Name} {kind : Kind} {g : Meta → Meta} {F : Tree} (h : F t = none) :
    F.put new t kind g t = some (g (new (t.getLastD []) kind)) := by
  rw [Tree.put, if_pos rfl, if_neg]
  rintro ⟨m, hm, _⟩; rw [h] at hm; cases hm

/-! ### Example: a manifest with indirect asset lists and chunk lists -/

namespace FlushExample
open Reflush (cfg longName get)

def chunksOf (n : Nat) : List Ref := (List.range n).map fun i => ⟨4 * i, [i.toUInt8]⟩

def add (c : UInt8) (b : Builder) : Except Err Builder := editAsset cfg .file true [[100]] (longName c) (onInfo (setTimePerms 7 0o600)) b

def c0 := get (editAsset cfg .file true [[100]] [9] (onInfo (setChunks (chunksOf 30) 120)) (empty cfg))
def c1 := get (add 1 c0)
def c2 := get (add 2 c1)
def c3 := get (add 3 c2)
def c4 := get (add 4 c3)
def c5 := get (add 5 c4)
def c6 := get (deleteAsset cfg [[100]] (longName 5) c5)
def c7 := get (add 6 c6)
def b := get (add 7 c7)
def f1 := (flush cfg 20 b).getD ([], b)
def b2 := (loadManifest cfg f1.2.store f1.1).getD b

theorem add_built {b : Builder} {F : Tree} (c : UInt8) (h : Built cfg [] b F) (ho : (add c b).toOption.isSome = true) :
    Built cfg [] (get (add c b)) (F.put (newMeta cfg) [[100], longName c] .file (setTimePerms 7 0o600)) :=
  .edit .file true [[100]] (longName c) _ h (setters_ok [] 0 [] 0 .nil (by simp) 7 0o600 false []).2.2.2.1 (Reflush.get_ok ho)

def F0 : Tree := (Tree.root (newMeta cfg [] .directory)).put (newMeta cfg) [[100], [9]] .file (setChunks (chunksOf 30) 120)

def F4 : Tree := (((F0.put (newMeta cfg) [[100], longName 1] .file (setTimePerms 7 0o600)).put (newMeta cfg) [[100], longName 2] .file
  (setTimePerms 7 0o600)).put (newMeta cfg) [[100], longName 3] .file (setTimePerms 7 0o600)).put (newMeta cfg) [[100], longName 4] .file
  (setTimePerms 7 0o600)

def F5 : Tree := F4.put (newMeta cfg) [[100], longName 5] .file (setTimePerms 7 0o600)

def F6 : Tree := F5.delete [[100], longName 5]

def F7 : Tree := F6.put (newMeta cfg) [[100], longName 6] .file (setTimePerms 7 0o600)

def F : Tree := F7.put (newMeta cfg) [[100], longName 7] .file (setTimePerms 7 0o600)

set_option maxRecDepth 20000 in
theorem built : Built cfg [] b F := by
  have h0 : Built cfg [] c0 F0 := .edit .file true [[100]] [9] (setChunks (chunksOf 30) 120) .new
    (setters_ok [] 0 (chunksOf 30) 120 (by decide +kernel) (by decide +kernel) 0 0 false []).2.2.1 (Reflush.get_ok (by decide +kernel))
  have h1 := add_built 1 h0 (by decide +kernel)
  have h2 := add_built 2 h1 (by decide +kernel)
  have h3 := add_built 3 h2 (by decide +kernel)
  have h4 : Built cfg [] c4 F4 := add_built 4 h3 (by decide +kernel)
  have h5 : Built cfg [] c5 F5 := add_built 5 h4 (by decide +kernel)
  have h6 : Built cfg [] c6 F6 := .delete [[100]] (longName 5) h5 (Reflush.get_ok (by decide +kernel))
  have h7 : Built cfg [] c7 F7 := add_built 6 h6 (by decide +kernel)
  exact add_built 7 h7 (by decide +kernel)

theorem F_file : F [[100], [9]] = some { newMeta cfg [9] .file with chunks := chunksOf 30, fileSize := 120 } := by
  unfold F; rw [put_other (by decide) (by decide)]
  unfold F7; rw [put_other (by decide) (by decide)]
  unfold F6; rw [Tree.delete, if_neg (by decide)]
  unfold F5; rw [put_other (by decide) (by decide)]
  unfold F4
  rw [put_other (by decide) (by decide), put_other (by decide) (by decide), put_other (by decide) (by decide), put_other (by decide) (by decide)]
  unfold F0; rw [put_new rfl]; rfl

theorem F_deleted : F [[100], longName 5] = none := by
  unfold F; rw [put_other (by decide) (by decide)]
  unfold F7; rw [put_other (by decide) (by decide)]
  unfold F6; rw [Tree.delete, if_pos (by decide)]

set_option maxRecDepth 20000 in
theorem noCollision : NoCollision cfg.hash f1.2.store := by
  have : ∀ p ∈ f1.2.store, ∀ q ∈ f1.2.store, cfg.hash p = cfg.hash q → p = q := by decide +kernel
  exact fun p q hp hq => this p hp q hq

/-- The directory was split, and so was the file with thirty chunks. -/
example : (f1.2.root.children.map fun d => d.indirect.length) = [1] ∧ (f1.2.root.children.flatMap fun d => d.children.map fun c => c.info.indirect.length) = [1, 0, 0, 0, 0, 0] := by
  decide +kernel

set_option maxRecDepth 20000 in
theorem flushed : flush cfg 20 b = some (f1.1, f1.2) := by
  have h : (flush cfg 20 b).isSome = true := by decide +kernel
  have e : f1 = (flush cfg 20 b).getD ([], b) := by unfold f1; rfl
  generalize flush cfg 20 b = o at h e
  rw [← Prod.eta f1, e]; exact Alias.getD_some h

set_option maxRecDepth 20000 in
theorem loaded : loadManifest cfg f1.2.store f1.1 = some b2 := by
  have h : (loadManifest cfg f1.2.store f1.1).isSome = true := by decide +kernel
  have e : b2 = (loadManifest cfg f1.2.store f1.1).getD b := by unfold b2; rfl
  generalize loadManifest cfg f1.2.store f1.1 = o at h e
  rw [e]; exact Alias.getD_some h

theorem result (p : List Name) (m : Meta) : Has cfg.hash b2.store b2.root p m ↔ F p = some m :=
  C71_reads_back_as_built cfg (fun l => Util.isort_perm l) (empty cfg) b f1.2 b2 F 20 f1.1 (.nil _) built flushed noCollision loaded p m

example : Has cfg.hash b2.store b2.root [[100], [9]] { newMeta cfg [9] .file with chunks := chunksOf 30, fileSize := 120 } ∧
    ∀ m, ¬ Has cfg.hash b2.store b2.root [[100], longName 5] m := by
  refine ⟨(result _ _).mpr F_file, fun m hm => ?_⟩
  have := (result _ _).mp hm
  rw [F_deleted] at this; cases this

/-- A manifest with one file in one directory, and a change of the file's time stamp. -/
def d0 := Alias.get (editAsset Alias.cfg .file true [[100]] [9] (onInfo (setTimePerms 7 0o600)) (empty Alias.cfg))
def g1 := (flush Alias.cfg 20 d0).getD ([], d0)
def d2 := (loadManifest Alias.cfg g1.2.store g1.1).getD d0
def d3 := Alias.get (editAsset Alias.cfg .file true [[100]] [9] (onInfo (setTimePerms 8 0o600)) d2)
def g4 := (flush Alias.cfg 20 d3).getD ([], d3)

theorem tidy_d : Tidy Ascends g1.2.root := by
  have h : g1.2.root = .mk (newMeta Alias.cfg [] .directory)
      [.mk (newMeta Alias.cfg [100] .directory) [.mk { newMeta Alias.cfg [9] .file with mtime := 7, perms := 0o600 } [] []] []] [] := by decide +kernel
  rw [h]
  refine .mk (by simp [Ascends, newMeta]) ?_ (by simp) (fun h => absurd rfl h)
  intro c hc
  rw [List.mem_singleton.mp hc]
  refine .mk (by simp [Ascends, newMeta]) ?_ (by simp) (fun h => absurd rfl h)
  intro c hc
  rw [List.mem_singleton.mp hc]
  exact .mk (by simp [Ascends, newMeta]) (by simp) (by simp) (fun _ => rfl)

theorem d0_ok : editAsset Alias.cfg .file true [[100]] [9] (onInfo (setTimePerms 7 0o600)) (empty Alias.cfg) = .ok d0 :=
  Alias.get_ok (by decide +kernel)

theorem d3_ok : editAsset Alias.cfg .file true [[100]] [9] (onInfo (setTimePerms 8 0o600)) d2 = .ok d3 :=
  Alias.get_ok (by decide +kernel)

theorem d_steps : Steps Alias.cfg (empty Alias.cfg) d0 :=
  .cons (.nil _) (.edit .file true [[100]] [9] (onInfo (setTimePerms 7 0o600)) (fun a => ⟨fun _ h => h, fun _ h => h, fun _ h => .inl h⟩) d0_ok)

theorem d_noCollision : NoCollision Alias.cfg.hash g4.2.store := by
  have : ∀ p ∈ g4.2.store, ∀ q ∈ g4.2.store, Alias.cfg.hash p = Alias.cfg.hash q → p = q := by decide +kernel
  exact fun p q hp hq => this p hp q hq

example (m : Meta) : Has Alias.cfg.hash g1.2.store g1.2.root [[100]] m ↔ Has Alias.cfg.hash g4.2.store g4.2.root [[100]] m :=
  (C30_changes_stay_local_partial Alias.cfg (fun _ => .refl _) d0 g1.2 d2 d3 g4.2 g1.1 g4.1 20 20 .file [[100]] [9] (setTimePerms 8 0o600)
    d_steps (Alias.getD_some (by decide +kernel)) (Alias.getD_some (by decide +kernel)) tidy_d (by decide +kernel)
    ⟨fun _ => rfl, fun _ => rfl, fun _ h => h, fun _ _ h => h⟩ d3_ok (Alias.getD_some (by decide +kernel)) d_noCollision).2
    ⟨{ newMeta Alias.cfg [9] .file with mtime := 7, perms := 0o600 }, (has_iff _ _ _ _ _).mpr (by decide +kernel), rfl⟩ [[100]] m (by decide)

end FlushExample
end Verif.Manifest
