/-!
# The lifetime of file system nodes (C51): cdc_fuse_fs/cdc_fuse_fs.cc

The kernel refers to nodes (`Inode`) by their address and counts its references: every successful
lookup adds one, forget requests take some back.  The file system keeps a node as long as it thinks
that the kernel refers to it or to something below it.

All functions modelled here run under `inodes_mutex`, so histories are sequences.  A node of the
current manifest is identified by its path: the map `inodes` is keyed by the address of the node's
part of the manifest, and different paths have different ones.  What a manifest update does to the
nodes themselves is in FuseFs/Update.lean; here it is: nodes whose path is gone become invalid.
-/

namespace Verif.FuseFs

abbrev Ino := Nat
abbrev Name := List UInt8
abbrev Path := List Name

/-- `FUSE_ROOT_ID` -/
def rootIno : Ino := 1

/-- `Inode` (cdc_fuse_fs.cc:76-101): its address, `asset.parent_ino()`, the path of `asset.proto()`
(none: the node is invalid and `asset.proto()` is null), `nlookup` and `children_nlookup`. -/
structure Node where
  ino : Ino
  parent : Ino
  path : Option Path
  nlookup : Nat
  kids : Nat
  deriving DecidableEq

/-- All nodes that are allocated: those in `inodes`, those in `invalid_inodes` (a node is in the
latter if and only if it has no path), and the root, which is the last one.  The others are in the
order in which they were created, newest first. -/
abbrev Nodes := List Node

def hasIno (i : Ino) (s : Nodes) : Prop := ∃ n ∈ s, n.ino = i

/-- `GetInode` (cdc_fuse_fs.cc:234-242).  `none`: there is no object at this address. -/
def getNode (s : Nodes) (i : Ino) : Option Node := s.find? (·.ino = i)

/-- Changes the node at an address. -/
def modify (i : Ino) (f : Node → Node) (s : Nodes) : Nodes := s.map fun n => if n.ino = i then f n else n

/-- `GetOrCreateInode` (cdc_fuse_fs.cc:281-297).  `fresh` is the address of the new object, if there
is one.  The result is the address of the node. -/
def getOrCreate (parent : Ino) (p : Path) (fresh : Ino) (s : Nodes) : Nodes × Ino :=
  match s.find? (·.path = some p) with
  | some n => (modify n.ino (fun n => { n with nlookup := n.nlookup + 1 }) s, n.ino)
  | none =>
    (⟨fresh, parent, some p, 1, 0⟩ :: modify parent (fun n => { n with kids := n.kids + 1 }) s, fresh)

/-- `ForgetChild` (cdc_fuse_fs.cc:322-337).  `none`: memory that has been freed is accessed, or
the counter would become negative.  The map `inodes` has no entry for an invalid node (its key would
be null), so erasing it has no effect and it stays in `invalid_inodes`.  The parent is looked for
among the older nodes. -/
def forgetChild (i : Ino) : Nodes → Option Nodes
  | [] => none
  | n :: r =>
    if n.ino = i then
      if n.kids = 0 then none
      else if i = rootIno then some ({ n with kids := n.kids - 1 } :: r)
      else if n.nlookup = 0 ∧ n.kids - 1 = 0 then
        match forgetChild n.parent r with
        | none => none
        | some r' => if n.path = none then some ({ n with kids := n.kids - 1 } :: r') else some r'
      else some ({ n with kids := n.kids - 1 } :: r)
    else
      match forgetChild i r with
      | none => none
      | some r' => some (n :: r')

/-- `ForgetOne` (cdc_fuse_fs.cc:339-365). -/
def forgetOne (i : Ino) (k : Nat) : Nodes → Option Nodes
  | [] => none
  | n :: r =>
    if n.ino = i then
      let m : Node := { n with nlookup := if n.nlookup > k then n.nlookup - k else 0 }
      if i = rootIno then some (m :: r)
      else if m.nlookup = 0 ∧ m.kids = 0 then forgetChild n.parent r
      else some (m :: r)
    else
      match forgetOne i k r with
      | none => none
      | some r' => some (n :: r')

/-- The file system and what the kernel knows: how often it refers to each address. -/
structure State where
  nodes : Nodes
  refs : Ino → Nat

/-- `InitializeRootManifest` (cdc_fuse_fs.cc:1635-1643). -/
def State.init : State := ⟨[⟨rootIno, rootIno, some [], 1, 0⟩], fun i => if i = rootIno then 1 else 0⟩

/-- What can happen.  `found`: whether the manifest has an entry of this name. -/
inductive Op
  | lookup (parent : Ino) (name : Name) (found : Bool) (fresh : Ino)
  | readdir (dir : Ino) (names : List Name) (fresh : List Ino)
  | forget (i : Ino) (k : Nat)
  | update (gone : Path → Bool)

/-- `GetOrCreateInode` for all entries (`CdcFuseReadDir`, cdc_fuse_fs.cc:710-716).  The kernel does
not count a reference for the entries of a directory listing (only for `lookup`). -/
def readAll (dir : Ino) (p : Path) : List Name → List Ino → Nodes → Nodes
  | a :: l, i :: is, s => readAll dir p l is (getOrCreate dir (p ++ [a]) i s).1
  | _, _, s => s

/-- What a manifest update does to a node if its path is gone (`InvalidateTree`,
cdc_fuse_fs.cc:1352-1382). -/
def invalidate (gone : Path → Bool) (n : Node) : Node :=
  { n with path := n.path.bind fun p => if gone p then none else some p }

/-- One request, `none` for an access to freed memory: `CdcFuseLookup` (cdc_fuse_fs.cc:465-512),
`CdcFuseReadDir` (cdc_fuse_fs.cc:678-727), `CdcFuseForget` (cdc_fuse_fs.cc:748-756), and the effect
of `SetManifest` (cdc_fuse_fs.cc:1532-1620) on which nodes are valid. -/
def apply : Op → State → Option State
  | .lookup parent name found fresh, s =>
    match getNode s.nodes parent with
    | none => none
    | some d =>
      match d.path with
      | none => some s
      | some p =>
        if found then
          let (nodes, i) := getOrCreate parent (p ++ [name]) fresh s.nodes
          some ⟨nodes, fun j => if j = i then s.refs j + 1 else s.refs j⟩
        else some s
  | .readdir dir names fresh, s =>
    match getNode s.nodes dir with
    | none => none
    | some d =>
      match d.path with
      | none => some s
      | some p =>
        match getNode s.nodes d.parent with
        | none => none
        | some u =>
          match u.path with
          | none => some s
          | some _ => some { s with nodes := readAll dir p names fresh s.nodes }
  | .forget i k, s =>
    match forgetOne i k s.nodes with
    | none => none
    | some nodes => some ⟨nodes, fun j => if j = i then s.refs j - k else s.refs j⟩
  | .update gone, s =>
    some { s with nodes := s.nodes.map (invalidate gone) }

/-- The kernel uses only addresses it refers to and gives back only what it has; the allocator
returns addresses that are not in use; whatever is below a path that is gone is gone, too, and the
root stays. -/
def Allowed (s : State) : Op → Prop
  | .lookup parent _ _ fresh => 0 < s.refs parent ∧ fresh ≠ rootIno ∧ ¬ hasIno fresh s.nodes
  | .readdir dir names fresh => 0 < s.refs dir ∧ fresh.length = names.length ∧ names.Nodup ∧
      fresh.Nodup ∧ ∀ i ∈ fresh, i ≠ rootIno ∧ ¬ hasIno i s.nodes
  | .forget i k => k ≤ s.refs i ∧ 0 < k ∧ i ≠ rootIno
  | .update gone => gone [] = false ∧ ∀ p q, gone p = true → gone (p ++ q) = true

/-- Which kinds of requests a history has. -/
structure Kinds where
  readdir : Bool
  update : Bool

def Kinds.ok (K : Kinds) : Op → Prop
  | .readdir .. => K.readdir = true
  | .update .. => K.update = true
  | _ => True

/-- States after any history of requests of the given kinds. -/
inductive Reach (K : Kinds) : State → Prop
  | init : Reach K .init
  | step {s t} (op : Op) : Reach K s → Allowed s op → K.ok op → apply op s = some t → Reach K t

/-! ## Specification -/

/-- The kernel refers to the node or to one below it. -/
inductive Needed (s : State) : Ino → Prop
  | ref {i} : 0 < s.refs i → Needed s i
  | child {n : Node} : n ∈ s.nodes → n.ino ≠ rootIno → Needed s n.ino → Needed s n.parent

/-! ## Proofs -/

/-- A node that is not used any more but has not been freed. -/
def zombie (n : Node) : Prop := n.nlookup = 0 ∧ n.kids = 0

instance (n : Node) : Decidable (zombie n) := inferInstanceAs (Decidable (_ ∧ _))

/-- Whether a node counts as a child of `i`. -/
def counts (i : Ino) (n : Node) : Nat := if n.ino ≠ rootIno ∧ n.parent = i ∧ ¬ zombie n then 1 else 0

/-- The number of children that count. -/
def childCount (i : Ino) : Nodes → Nat
  | [] => 0
  | n :: r => counts i n + childCount i r

/-- The parent of a node is older. -/
def Older : Nodes → Prop
  | [] => True
  | n :: r => (n.ino ≠ rootIno → ¬ zombie n → hasIno n.parent r) ∧ Older r

/-- The invariant of a part of the table, where `c` counts the children elsewhere. -/
structure InvC (c : Ino → Nat) (s : Nodes) : Prop where
  inos : (s.map (·.ino)).Nodup
  older : Older s
  count : ∀ n ∈ s, n.kids = c n.ino + childCount n.ino s
  alive : ∀ n ∈ s, n.ino ≠ rootIno → zombie n → n.path = none

theorem hasIno_cons {i : Ino} {n : Node} {r : Nodes} : hasIno i (n :: r) ↔ n.ino = i ∨ hasIno i r := by
  simp [hasIno]

theorem hasIno_iff {i : Ino} {s : Nodes} : hasIno i s ↔ i ∈ s.map (·.ino) := by
  simp [hasIno]

theorem childCount_zero {i : Ino} {s : Nodes} (ho : Older s) (hi : ¬ hasIno i s) : childCount i s = 0 := by
  induction s with
  | nil => rfl
  | cons n r ih =>
    rw [hasIno_cons, not_or] at hi
    rw [childCount, ih ho.2 hi.2, counts, if_neg]
    rintro ⟨h1, h2, h3⟩
    exact hi.2 (h2 ▸ ho.1 h1 h3)

theorem InvC.tail {c : Ino → Nat} {n : Node} {r : Nodes} (h : InvC c (n :: r)) :
    InvC (fun i => c i + counts i n) r :=
  ⟨(List.nodup_cons.mp h.inos).2, h.older.2,
    fun m hm => by rw [h.count m (List.mem_cons_of_mem _ hm), childCount]; omega,
    fun m hm => h.alive m (List.mem_cons_of_mem _ hm)⟩

theorem InvC.head_not {c : Ino → Nat} {n : Node} {r : Nodes} (h : InvC c (n :: r)) :
    ¬ hasIno n.ino r := by
  rw [hasIno_iff]
  exact (List.nodup_cons.mp h.inos).1

/-- Nothing of a node changes but its counters. -/
def SameNode (m m' : Node) : Prop := m'.ino = m.ino ∧ m'.parent = m.parent ∧ m'.path = m.path

/-- One reference less. -/
def dec (c : Ino → Nat) (i : Ino) : Ino → Nat := fun x => if x = i then c x - 1 else c x

/-- What `forgetChild` and `forgetOne` do to the table; `f` is what happens to `nlookup`. -/
structure Eff (f : Node → Nat) (s s' : Nodes) : Prop where
  sub : (s'.map (·.ino)).Sublist (s.map (·.ino))
  back : ∀ m' ∈ s', ∃ m ∈ s, SameNode m m' ∧ m'.nlookup = f m
  keep : ∀ m ∈ s, 0 < f m → hasIno m.ino s'

theorem Eff.cons {f : Node → Nat} {n : Node} {r r' : Nodes} (h : Eff f r r') (hn : f n = n.nlookup) :
    Eff f (n :: r) (n :: r') := by
  refine ⟨by simpa using h.sub, fun m' hm' => ?_, fun m hm h0 => ?_⟩
  · rcases List.mem_cons.mp hm' with rfl | hm'
    · exact ⟨_, List.mem_cons_self .., ⟨rfl, rfl, rfl⟩, hn.symm⟩
    · obtain ⟨m, hm, h1⟩ := h.back m' hm'
      exact ⟨m, List.mem_cons_of_mem _ hm, h1⟩
  · rcases List.mem_cons.mp hm with rfl | hm
    · exact hasIno_cons.mpr (.inl rfl)
    · exact hasIno_cons.mpr (.inr (h.keep m hm h0))

theorem Eff.not {f : Node → Nat} {s s' : Nodes} (h : Eff f s s') {i} (hi : ¬ hasIno i s) : ¬ hasIno i s' := by
  rw [hasIno_iff] at hi ⊢
  exact fun h' => hi (h.sub.subset h')

/-- Putting a node back in front of a changed rest. -/
theorem InvC.cons_same {c : Ino → Nat} {n : Node} {r' : Nodes} (h : InvC (fun i => c i + counts i n) r')
    (hn : ¬ hasIno n.ino r') (hk : n.kids = c n.ino)
    (ho : n.ino ≠ rootIno → ¬ zombie n → hasIno n.parent r')
    (ha : n.ino ≠ rootIno → zombie n → n.path = none) : InvC c (n :: r') := by
  have hold : Older (n :: r') := ⟨ho, h.older⟩
  have hself : counts n.ino n = 0 := by
    rw [counts, if_neg]
    rintro ⟨h1, h2, h3⟩
    exact hn (h2 ▸ ho h1 h3)
  refine ⟨?_, hold, fun m hm => ?_, fun m hm => ?_⟩
  · rw [List.map_cons, List.nodup_cons, ← hasIno_iff]
    exact ⟨hn, h.inos⟩
  · rcases List.mem_cons.mp hm with rfl | hm
    · rw [childCount, childCount_zero h.older hn, hself, hk]
      omega
    · have := h.count m hm
      rw [childCount]
      omega
  · rcases List.mem_cons.mp hm with rfl | hm
    · exact ha
    · exact h.alive m hm

theorem InvC.head_kids {c : Ino → Nat} {n : Node} {r : Nodes} (h : InvC c (n :: r)) : n.kids = c n.ino := by
  have h1 := h.count n (List.mem_cons_self ..)
  have hself : counts n.ino n = 0 := by
    rw [counts, if_neg]
    rintro ⟨h1, h2, h3⟩
    exact h.head_not (h2 ▸ h.older.1 h1 h3)
  rw [childCount, childCount_zero h.older.2 h.head_not, hself] at h1
  omega

theorem InvC.congr {c c' : Ino → Nat} {s : Nodes} (h : InvC c s) (hc : ∀ i, hasIno i s → c i = c' i) :
    InvC c' s :=
  ⟨h.inos, h.older, fun n hn => by rw [h.count n hn, hc _ ⟨n, hn, rfl⟩], h.alive⟩

theorem forgetChild_spec {c : Ino → Nat} {s : Nodes} {i : Ino} (h : InvC c s) (hi : hasIno i s)
    (hc : 0 < c i) :
    ∃ s', forgetChild i s = some s' ∧ InvC (dec c i) s' ∧ Eff (·.nlookup) s s' ∧
      ∀ x, hasIno x s → 0 < dec c i x → hasIno x s' := by
  induction s generalizing c i with
  | nil => obtain ⟨n, hn, _⟩ := hi; cases hn
  | cons n r ih =>
    have hk := h.head_kids
    have hnot := h.head_not
    rw [forgetChild]
    by_cases hni : n.ino = i
    · subst hni
      rw [if_pos rfl, if_neg (by omega)]
      -- the node stays
      have stay : ¬ zombie { n with kids := n.kids - 1 } ∨ n.ino = rootIno →
          InvC (dec c n.ino) ({ n with kids := n.kids - 1 } :: r) ∧
          Eff (·.nlookup) (n :: r) ({ n with kids := n.kids - 1 } :: r) ∧
          ∀ x, hasIno x (n :: r) → 0 < dec c n.ino x →
            hasIno x ({ n with kids := n.kids - 1 } :: r) := by
        intro hz
        have hnz : n.ino = rootIno ∨ (¬ zombie n ∧ ¬ zombie { n with kids := n.kids - 1 }) := by
          rcases hz with hz | hz
          · exact .inr ⟨fun h' => by have := h'.2; omega, hz⟩
          · exact .inl hz
        have hcnt : ∀ x, counts x { n with kids := n.kids - 1 } = counts x n := by
          intro x
          simp only [counts]
          rcases hnz with h1 | ⟨h1, h2⟩
          · simp [h1]
          · simp [h1, h2]
        refine ⟨?_, ⟨by simp, fun m' hm' => ?_, fun m hm _ => ?_⟩, fun x hx _ => ?_⟩
        · apply InvC.cons_same
          · refine h.tail.congr fun x hx => ?_
            rw [hcnt]
            have hx' : x ≠ n.ino := fun e => hnot (e ▸ hx)
            simp only [dec, if_neg hx']
          · exact hnot
          · simp only [dec, if_true]; omega
          · intro h1 _
            exact h.older.1 h1 fun h' => by have := h'.2; omega
          · intro h1 hz'
            rcases hnz with h2 | ⟨_, h2⟩
            · exact absurd h2 h1
            · exact absurd hz' h2
        · rcases List.mem_cons.mp hm' with rfl | hm'
          · exact ⟨n, List.mem_cons_self .., ⟨rfl, rfl, rfl⟩, rfl⟩
          · exact ⟨m', List.mem_cons_of_mem _ hm', ⟨rfl, rfl, rfl⟩, rfl⟩
        · rcases List.mem_cons.mp hm with rfl | hm
          · exact hasIno_cons.mpr (.inl rfl)
          · exact hasIno_cons.mpr (.inr ⟨m, hm, rfl⟩)
        · rcases hasIno_cons.mp hx with rfl | hx
          · exact hasIno_cons.mpr (.inl rfl)
          · exact hasIno_cons.mpr (.inr hx)
      by_cases hr : n.ino = rootIno
      · rw [if_pos hr]
        exact ⟨_, rfl, stay (.inr hr)⟩
      · rw [if_neg hr]
        by_cases hz : n.nlookup = 0 ∧ n.kids - 1 = 0
        · rw [if_pos hz]
          have hnz : ¬ zombie n := fun h' => by have := h'.2; omega
          have hcnt : ∀ x, counts x n = if x = n.parent then 1 else 0 := by
            intro x
            simp only [counts, hr, hnz, ne_eq, not_false_eq_true, true_and, and_true, eq_comm]
          obtain ⟨r', e1, e2, e3, e4⟩ := ih (i := n.parent) h.tail (h.older.1 hr hnz)
            (by simp [hcnt])
          have hnr' : ¬ hasIno n.ino r' := e3.not hnot
          have hinv : InvC (dec c n.ino) r' := by
            refine e2.congr fun x hx => ?_
            have hx' : x ≠ n.ino := fun e => hnr' (e ▸ hx)
            simp only [dec, hcnt, if_neg hx']
            split <;> omega
          have hret : ∀ x, hasIno x (n :: r) → 0 < dec c n.ino x → hasIno x r' := by
            intro x hx h0
            rcases hasIno_cons.mp hx with rfl | hx
            · simp only [dec, if_true] at h0
              omega
            · apply e4 x hx
              have hx' : x ≠ n.ino := fun e => hnot (e ▸ hx)
              simp only [dec, if_neg hx'] at h0
              simp only [dec, hcnt]
              split <;> omega
          rw [e1]
          simp only
          by_cases hp : n.path = none
          · rw [if_pos hp]
            refine ⟨_, rfl, ?_, ⟨?_, fun m' hm' => ?_, fun m hm h0 => ?_⟩, fun x hx h0 => ?_⟩
            · apply InvC.cons_same
              · refine hinv.congr fun x _ => ?_
                rw [counts, if_neg]
                · omega
                · rintro ⟨_, _, h3⟩
                  exact h3 ⟨hz.1, hz.2⟩
              · exact hnr'
              · simp only [dec, if_true]; omega
              · exact fun _ h3 => absurd ⟨hz.1, hz.2⟩ h3
              · exact fun _ _ => hp
            · simpa using e3.sub
            · rcases List.mem_cons.mp hm' with rfl | hm'
              · exact ⟨n, List.mem_cons_self .., ⟨rfl, rfl, rfl⟩, rfl⟩
              · obtain ⟨m, hm, h1⟩ := e3.back m' hm'
                exact ⟨m, List.mem_cons_of_mem _ hm, h1⟩
            · rcases List.mem_cons.mp hm with rfl | hm
              · exact hasIno_cons.mpr (.inl rfl)
              · exact hasIno_cons.mpr (.inr (e3.keep m hm h0))
            · exact hasIno_cons.mpr (.inr (hret x hx h0))
          · rw [if_neg hp]
            refine ⟨_, rfl, hinv, ⟨?_, fun m' hm' => ?_, fun m hm h0 => ?_⟩, hret⟩
            · exact e3.sub.trans (by simp)
            · obtain ⟨m, hm, h1⟩ := e3.back m' hm'
              exact ⟨m, List.mem_cons_of_mem _ hm, h1⟩
            · rcases List.mem_cons.mp hm with rfl | hm
              · have h0' : 0 < m.nlookup := h0
                omega
              · exact e3.keep m hm h0
        · rw [if_neg hz]
          exact ⟨_, rfl, stay (.inl hz)⟩
    · rw [if_neg hni]
      have hir : hasIno i r := by
        rcases hasIno_cons.mp hi with h1 | h1
        · exact absurd h1 hni
        · exact h1
      obtain ⟨r', e1, e2, e3, e4⟩ := ih (i := i) h.tail hir (by show 0 < c i + counts i n; omega)
      rw [e1]
      have hnr' : ¬ hasIno n.ino r' := e3.not hnot
      refine ⟨_, rfl, ?_, e3.cons rfl, fun x hx h0 => ?_⟩
      · apply InvC.cons_same
        · refine e2.congr fun x _ => ?_
          simp only [dec]
          split
          · rename_i hx; subst hx; omega
          · rfl
        · exact hnr'
        · simp only [dec, if_neg hni]; exact hk
        · intro h1 h2
          apply e4 _ (h.older.1 h1 h2)
          have : counts n.parent n = 1 := by simp [counts, h1, h2]
          simp only [dec]
          split
          · rename_i hx; rw [this, hx]; omega
          · omega
        · exact h.alive n (List.mem_cons_self ..)
      · rcases hasIno_cons.mp hx with rfl | hx
        · exact hasIno_cons.mpr (.inl rfl)
        · refine hasIno_cons.mpr (.inr (e4 x hx ?_))
          by_cases hx' : x = i
          · subst hx'
            simp only [dec, if_true] at h0 ⊢
            omega
          · simp only [dec, if_neg hx'] at h0 ⊢
            omega

theorem sub_eq (n k : Nat) : (if n > k then n - k else 0) = n - k := by split <;> omega

theorem forgetOne_spec {c : Ino → Nat} {s : Nodes} {i : Ino} {k : Nat} (h : InvC c s)
    (hr : i ≠ rootIno) (hk0 : 0 < k) (hi : ∃ n ∈ s, n.ino = i ∧ k ≤ n.nlookup) :
    ∃ s', forgetOne i k s = some s' ∧ InvC c s' ∧
      Eff (fun m => if m.ino = i then m.nlookup - k else m.nlookup) s s' ∧
      ∀ x, hasIno x s → 0 < c x → hasIno x s' := by
  induction s generalizing c with
  | nil => obtain ⟨n, hn, _⟩ := hi; cases hn
  | cons n r ih =>
    have hk := h.head_kids
    have hnot := h.head_not
    rw [forgetOne]
    by_cases hni : n.ino = i
    · subst hni
      rw [if_pos rfl, sub_eq]
      simp only [if_neg hr]
      have hge : k ≤ n.nlookup := by
        obtain ⟨m, hm, h1, h2⟩ := hi
        rcases List.mem_cons.mp hm with rfl | hm
        · exact h2
        · exact absurd ⟨m, hm, h1⟩ hnot
      have hnz : ¬ zombie n := fun h' => by have := h'.1; omega
      have hcnt : ∀ x, counts x n = if x = n.parent then 1 else 0 := by
        intro x
        simp only [counts, hr, hnz, ne_eq, not_false_eq_true, true_and, and_true, eq_comm]
      have hother : ∀ m ∈ r, ¬ m.ino = n.ino := fun m hm e => hnot ⟨m, hm, e⟩
      by_cases hz : n.nlookup - k = 0 ∧ n.kids = 0
      · rw [if_pos hz]
        obtain ⟨r', e1, e2, e3, e4⟩ := forgetChild_spec h.tail (h.older.1 hr hnz) (by simp [hcnt])
        have hnr' : ¬ hasIno n.ino r' := e3.not hnot
        refine ⟨r', e1, ?_, ⟨?_, fun m' hm' => ?_, fun m hm h0 => ?_⟩, fun x hx h0 => ?_⟩
        · refine e2.congr fun x _ => ?_
          simp only [dec, hcnt]
          split <;> omega
        · exact e3.sub.trans (by simp)
        · obtain ⟨m, hm, h1, h2⟩ := e3.back m' hm'
          exact ⟨m, List.mem_cons_of_mem _ hm, h1, by rw [if_neg (hother m hm)]; exact h2⟩
        · rcases List.mem_cons.mp hm with rfl | hm
          · simp only [if_true] at h0
            omega
          · rw [if_neg (hother m hm)] at h0
            exact e3.keep m hm h0
        · rcases hasIno_cons.mp hx with rfl | hx
          · omega
          · apply e4 x hx
            simp only [dec, hcnt]
            split <;> omega
      · rw [if_neg hz]
        have hcnt' : ∀ x, counts x { n with nlookup := n.nlookup - k } = counts x n := by
          intro x
          have hz' : ¬ zombie { n with nlookup := n.nlookup - k } := hz
          simp only [counts, hz', hnz]
        refine ⟨_, rfl, ?_, ⟨by simp, fun m' hm' => ?_, fun m hm _ => ?_⟩, fun x hx _ => ?_⟩
        · apply InvC.cons_same
          · refine h.tail.congr fun x hx => ?_
            rw [hcnt']
          · exact hnot
          · exact hk
          · exact fun h1 _ => h.older.1 h1 hnz
          · exact fun _ h1 => absurd h1 hz
        · rcases List.mem_cons.mp hm' with rfl | hm'
          · exact ⟨n, List.mem_cons_self .., ⟨rfl, rfl, rfl⟩, by simp⟩
          · exact ⟨m', List.mem_cons_of_mem _ hm', ⟨rfl, rfl, rfl⟩, by rw [if_neg (hother m' hm')]⟩
        · rcases List.mem_cons.mp hm with rfl | hm
          · exact hasIno_cons.mpr (.inl rfl)
          · exact hasIno_cons.mpr (.inr ⟨m, hm, rfl⟩)
        · rcases hasIno_cons.mp hx with rfl | hx
          · exact hasIno_cons.mpr (.inl rfl)
          · exact hasIno_cons.mpr (.inr hx)
    · rw [if_neg hni]
      obtain ⟨r', e1, e2, e3, e4⟩ := ih h.tail (by
        obtain ⟨m, hm, h1, h2⟩ := hi
        rcases List.mem_cons.mp hm with rfl | hm
        · exact absurd h1 hni
        · exact ⟨m, hm, h1, h2⟩)
      rw [e1]
      have hnr' : ¬ hasIno n.ino r' := e3.not hnot
      refine ⟨_, rfl, ?_, e3.cons (by simp [hni]), fun x hx h0 => ?_⟩
      · apply InvC.cons_same e2 hnr' hk
        · intro h1 h2
          apply e4 _ (h.older.1 h1 h2)
          have : counts n.parent n = 1 := by simp [counts, h1, h2]
          simp only [this]
          omega
        · exact h.alive n (List.mem_cons_self ..)
      · rcases hasIno_cons.mp hx with rfl | hx
        · exact hasIno_cons.mpr (.inl rfl)
        · exact hasIno_cons.mpr (.inr (e4 x hx (by show 0 < c x + counts x n; omega)))

theorem mem_unique {s : Nodes} (h : (s.map (·.ino)).Nodup) {m n : Node} (hm : m ∈ s) (hn : n ∈ s)
    (e : m.ino = n.ino) : m = n := by
  induction s with
  | nil => cases hm
  | cons a r ih =>
    rw [List.map_cons, List.nodup_cons] at h
    rcases List.mem_cons.mp hm with rfl | hm' <;> rcases List.mem_cons.mp hn with rfl | hn'
    · rfl
    · exact absurd (List.mem_map.mpr ⟨n, hn', e.symm⟩) h.1
    · exact absurd (List.mem_map.mpr ⟨m, hm', e⟩) h.1
    · exact ih h.2 hm' hn'

/-- Changes that keep addresses, parents and who counts. -/
theorem InvC.map {c d : Ino → Nat} {s : Nodes} {g : Node → Node} (h : InvC c s)
    (h1 : ∀ n ∈ s, (g n).ino = n.ino ∧ (g n).parent = n.parent)
    (h2 : ∀ n ∈ s, n.ino ≠ rootIno → (zombie (g n) ↔ zombie n))
    (h3 : ∀ n ∈ s, (g n).path = n.path ∨ (g n).path = none)
    (h4 : ∀ n ∈ s, (g n).kids = n.kids + d n.ino) : InvC (fun i => c i + d i) (s.map g) := by
  have hinos : ∀ t : Nodes, (∀ n ∈ t, (g n).ino = n.ino) → (t.map g).map (·.ino) = t.map (·.ino) := by
    intro t ht
    rw [List.map_map]
    exact List.map_congr_left fun n hn => ht n hn
  have hcount : ∀ i, childCount i (s.map g) = childCount i s := by
    intro i
    clear h h3 h4 hinos
    induction s with
    | nil => rfl
    | cons n r ih =>
      rw [List.map_cons, childCount, childCount,
        ih (fun n hn => h1 n (List.mem_cons_of_mem _ hn)) (fun n hn => h2 n (List.mem_cons_of_mem _ hn))]
      have e := h1 n (List.mem_cons_self ..)
      have e2 := h2 n (List.mem_cons_self ..)
      simp only [counts, e.1, e.2]
      by_cases hr : n.ino = rootIno
      · simp [hr]
      · simp only [e2 hr]
  refine ⟨?_, ?_, ?_, ?_⟩
  · rw [hinos s fun n hn => (h1 n hn).1]
    exact h.inos
  · have ho := h.older
    clear h h3 h4 hcount
    induction s with
    | nil => trivial
    | cons n r ih =>
      have e := h1 n (List.mem_cons_self ..)
      have hr' : ∀ m ∈ r, (g m).ino = m.ino := fun m hm => (h1 m (List.mem_cons_of_mem _ hm)).1
      refine ⟨fun a1 a2 => ?_, ih (fun n hn => h1 n (List.mem_cons_of_mem _ hn))
        (fun n hn => h2 n (List.mem_cons_of_mem _ hn)) ho.2⟩
      rw [e.1] at a1
      rw [h2 n (List.mem_cons_self ..) a1] at a2
      rw [e.2, hasIno_iff, hinos r hr', ← hasIno_iff]
      exact ho.1 a1 a2
  · intro n' hn'
    obtain ⟨n, hn, rfl⟩ := List.mem_map.mp hn'
    rw [hcount, (h1 n hn).1, h4 n hn, h.count n hn]
    omega
  · intro n' hn' a1 a2
    obtain ⟨n, hn, rfl⟩ := List.mem_map.mp hn'
    rw [(h1 n hn).1] at a1
    rw [h2 n hn a1] at a2
    rcases h3 n hn with e | e
    · rw [e]; exact h.alive n hn a1 a2
    · exact e

theorem hasIno_modify {i x : Ino} {f : Node → Node} {s : Nodes} (hf : ∀ n, (f n).ino = n.ino) :
    hasIno x (modify i f s) ↔ hasIno x s := by
  rw [hasIno_iff, hasIno_iff, modify, List.map_map]
  have : s.map ((·.ino) ∘ fun n => if n.ino = i then f n else n) = s.map (·.ino) := by
    apply List.map_congr_left
    intro n _
    simp only [Function.comp]
    split
    · exact hf n
    · rfl
  rw [this]

/-- What `getOrCreate` does. -/
theorem getOrCreate_spec {s : Nodes} {parent fresh : Ino} {p : Path} (h : InvC (fun _ => 0) s)
    (hp : ∃ n ∈ s, n.ino = parent ∧ (n.ino ≠ rootIno → ¬ zombie n)) (hf : ¬ hasIno fresh s)
    (hfr : fresh ≠ rootIno) :
    let r := getOrCreate parent p fresh s
    InvC (fun _ => 0) r.1 ∧
    (∀ m' ∈ r.1, (∃ m ∈ s, SameNode m m' ∧
        m'.nlookup = m.nlookup + if m.ino = r.2 then 1 else 0) ∨
      (m' = ⟨fresh, parent, some p, 1, 0⟩ ∧ r.2 = fresh)) ∧
    (∀ x, hasIno x r.1 ↔ hasIno x s ∨ x = r.2) ∧ (r.2 = fresh ∨ hasIno r.2 s) ∧
    (∀ m ∈ s, ∃ m' ∈ r.1, m'.ino = m.ino ∧ m.nlookup ≤ m'.nlookup) ∧
    ∃ m' ∈ r.1, m'.ino = r.2 ∧ m'.path = some p := by
  intro r
  cases hfind : s.find? (·.path = some p) with
  | some n =>
    have er : r = (modify n.ino (fun n => { n with nlookup := n.nlookup + 1 }) s, n.ino) := by
      simp only [r, getOrCreate, hfind]
    have hn := List.mem_of_find?_eq_some hfind
    have hnp : n.path = some p := by simpa using List.find?_some hfind
    rw [er]
    refine ⟨?_, ?_, ?_, .inr ⟨n, hn, rfl⟩, ?_, ?_⟩
    · have := h.map (d := fun _ => 0)
        (g := fun m => if m.ino = n.ino then { m with nlookup := m.nlookup + 1 } else m)
        (fun m _ => by split <;> exact ⟨rfl, rfl⟩)
        (fun m hm hr => by
          split
          · rename_i e
            have := mem_unique h.inos hm hn e
            subst this
            refine iff_of_false ?_ ?_
            · intro hz; have := hz.1; simp at this
            · intro hz; rw [h.alive m hm hr hz] at hnp; cases hnp
          · rfl)
        (fun m _ => by split <;> exact .inl rfl)
        (fun m _ => by split <;> rfl)
      exact this
    · intro m' hm'
      obtain ⟨m, hm, rfl⟩ := List.mem_map.mp hm'
      refine .inl ⟨m, hm, ?_, ?_⟩
      · split <;> exact ⟨rfl, rfl, rfl⟩
      · split <;> rfl
    · intro x
      rw [hasIno_modify (by intro; rfl)]
      refine ⟨.inl, fun h' => ?_⟩
      rcases h' with h' | rfl
      · exact h'
      · exact ⟨n, hn, rfl⟩
    · intro m hm
      refine ⟨_, List.mem_map.mpr ⟨m, hm, rfl⟩, ?_, ?_⟩ <;> split <;> simp
    · refine ⟨_, List.mem_map.mpr ⟨n, hn, rfl⟩, ?_, ?_⟩ <;> simp [hnp]
  | none =>
    have er : r = (⟨fresh, parent, some p, 1, 0⟩ ::
        modify parent (fun n => { n with kids := n.kids + 1 }) s, fresh) := by
      simp only [r, getOrCreate, hfind]
    rw [er]
    obtain ⟨q, hq, hqp, hqz⟩ := hp
    refine ⟨?_, ?_, ?_, .inl rfl, ?_, ?_⟩
    · have := h.map (d := fun i => if i = parent then 1 else 0)
        (g := fun m => if m.ino = parent then { m with kids := m.kids + 1 } else m)
        (fun m _ => by split <;> exact ⟨rfl, rfl⟩)
        (fun m hm hr => by
          split
          · rename_i e
            have := mem_unique h.inos hm hq (e.trans hqp.symm)
            subst this
            refine iff_of_false ?_ (hqz hr)
            intro hz; have := hz.2; simp at this
          · rfl)
        (fun m _ => by split <;> exact .inl rfl)
        (fun m _ => by split <;> rfl)
      apply InvC.cons_same
      · refine this.congr fun x hx => ?_
        have hx' : x ≠ fresh := fun e => by
          rw [e, ← modify.eq_def, hasIno_modify (by intro; rfl)] at hx
          exact hf hx
        have hxr : hasIno x s := by
          rw [← modify.eq_def, hasIno_modify (by intro; rfl)] at hx
          exact hx
        simp only [counts]
        by_cases e : x = parent
        · subst e
          rw [if_pos rfl]
          simp [hfr, zombie]
        · have e' : ¬ parent = x := fun h' => e h'.symm
          simp [e, e']
      · rw [hasIno_modify (by intro; rfl)]; exact hf
      · rfl
      · intro _ _
        rw [hasIno_modify (by intro; rfl)]
        exact ⟨q, hq, hqp⟩
      · intro _ hz
        have := hz.1
        simp at this
    · intro m' hm'
      rcases List.mem_cons.mp hm' with rfl | hm'
      · exact .inr ⟨rfl, rfl⟩
      · obtain ⟨m, hm, rfl⟩ := List.mem_map.mp hm'
        refine .inl ⟨m, hm, ?_, ?_⟩
        · split <;> exact ⟨rfl, rfl, rfl⟩
        · have : ¬ m.ino = fresh := fun e => hf ⟨m, hm, e⟩
          simp only [this, if_false]
          split <;> rfl
    · intro x
      rw [hasIno_cons, hasIno_modify (by intro; rfl)]
      constructor
      · rintro (h' | h')
        · exact .inr h'.symm
        · exact .inl h'
      · rintro (h' | h')
        · exact .inr h'
        · exact .inl h'.symm
    · intro m hm
      refine ⟨_, List.mem_cons_of_mem _ (List.mem_map.mpr ⟨m, hm, rfl⟩), ?_, ?_⟩ <;> split <;> simp
    · exact ⟨_, List.mem_cons_self .., rfl, rfl⟩

/-- What holds after every history. -/
structure Inv (K : Kinds) (s : State) : Prop where
  inv : InvC (fun _ => 0) s.nodes
  root : ∀ n ∈ s.nodes, n.ino = rootIno → n.parent = rootIno ∧ n.path = some []
  rootRefs : 0 < s.refs rootIno
  refs : ∀ n ∈ s.nodes, s.refs n.ino ≤ n.nlookup
  exact : K.readdir = false → ∀ n ∈ s.nodes, s.refs n.ino = n.nlookup
  live : ∀ i, 0 < s.refs i → hasIno i s.nodes
  valid : K.update = false → ∀ n ∈ s.nodes, n.path ≠ none

theorem Inv.hasRoot {K : Kinds} {s : State} (h : Inv K s) : hasIno rootIno s.nodes := h.live _ h.rootRefs

theorem Inv.init (K : Kinds) : Inv K .init := by
  refine ⟨⟨by simp [State.init], ?_, ?_, ?_⟩, ?_, ?_, ?_, ?_, ?_, ?_⟩
  · exact ⟨fun h => absurd rfl h, trivial⟩
  · intro n hn
    obtain rfl : n = _ := List.mem_singleton.mp hn
    rfl
  · intro n hn
    obtain rfl : n = _ := List.mem_singleton.mp hn
    intro h; exact absurd rfl h
  · intro n hn
    obtain rfl : n = _ := List.mem_singleton.mp hn
    exact fun _ => ⟨rfl, rfl⟩
  · decide
  · intro n hn
    obtain rfl : n = _ := List.mem_singleton.mp hn
    simp [State.init]
  · intro _ n hn
    obtain rfl : n = _ := List.mem_singleton.mp hn
    simp [State.init]
  · intro i hi
    refine ⟨_, List.mem_singleton_self _, ?_⟩
    simp only [State.init] at hi ⊢
    split at hi
    · rename_i h; exact h.symm
    · omega
  · intro _ n hn
    obtain rfl : n = _ := List.mem_singleton.mp hn
    simp

theorem getNode_some {s : Nodes} {i : Ino} (h : hasIno i s) : ∃ n ∈ s, n.ino = i ∧ getNode s i = some n := by
  cases hf : getNode s i with
  | some n => exact ⟨n, List.mem_of_find?_eq_some hf, by simpa using List.find?_some hf, rfl⟩
  | none =>
    obtain ⟨n, hn, e⟩ := h
    have := List.find?_eq_none.mp hf n hn
    simp [e] at this

theorem Inv.used {K : Kinds} {s : State} (h : Inv K s) {i : Ino} (hi : 0 < s.refs i) :
    ∃ n ∈ s.nodes, n.ino = i ∧ ¬ zombie n := by
  obtain ⟨n, hn, e⟩ := h.live i hi
  refine ⟨n, hn, e, fun hz => ?_⟩
  have := h.refs n hn
  rw [hz.1, e] at this
  omega

theorem Older.parent {s : Nodes} (ho : Older s) {n : Node} (hn : n ∈ s) (hr : n.ino ≠ rootIno)
    (hz : ¬ zombie n) : hasIno n.parent s := by
  induction s with
  | nil => cases hn
  | cons a r ih =>
    rcases List.mem_cons.mp hn with rfl | hn'
    · exact hasIno_cons.mpr (.inr (ho.1 hr hz))
    · exact hasIno_cons.mpr (.inr (ih ho.2 hn'))

/-- A request that does not count a reference. -/
theorem Inv.getOrCreate {K : Kinds} {s : State} (h : Inv K s) {parent fresh : Ino} {p : Path} {a : Name}
    (hp : 0 < s.refs parent) (hf : ¬ hasIno fresh s.nodes) (hfr : fresh ≠ rootIno) (b : Bool)
    (hb : b = false → K.readdir = true) :
    let r := Verif.FuseFs.getOrCreate parent (p ++ [a]) fresh s.nodes
    Inv K ⟨r.1, fun j => if b = true ∧ j = r.2 then s.refs j + 1 else s.refs j⟩ := by
  intro r
  obtain ⟨q, hq, hqp, hqz⟩ := h.used hp
  obtain ⟨h1, h2, h3, h4, h5, h6⟩ := getOrCreate_spec (p := p ++ [a]) h.inv ⟨q, hq, hqp, fun _ => hqz⟩ hf hfr
  have hfresh : s.refs fresh = 0 := by
    rcases Nat.eq_zero_or_pos (s.refs fresh) with e | e
    · exact e
    · exact absurd (h.live fresh e) hf
  refine ⟨h1, ?_, ?_, ?_, ?_, ?_, ?_⟩
  · intro m' hm' e
    rcases h2 m' hm' with ⟨m, hm, ⟨e1, e2, e3⟩, _⟩ | ⟨rfl, _⟩
    · rw [e2, e3]; exact h.root m hm (e1 ▸ e)
    · exact absurd e hfr
  · have := h.rootRefs
    show 0 < (if b = true ∧ rootIno = r.2 then s.refs rootIno + 1 else s.refs rootIno)
    split <;> omega
  · intro m' hm'
    show (if b = true ∧ m'.ino = r.2 then s.refs m'.ino + 1 else s.refs m'.ino) ≤ m'.nlookup
    rcases h2 m' hm' with ⟨m, hm, ⟨e1, e2, e3⟩, e4⟩ | ⟨rfl, e⟩
    · have h7 := h.refs m hm
      rw [e4, e1]
      by_cases e : m.ino = r.2
      · rw [if_pos e]; split <;> omega
      · rw [if_neg e, if_neg (fun h' => e h'.2)]; omega
    · show (if b = true ∧ fresh = r.2 then s.refs fresh + 1 else s.refs fresh) ≤ 1
      split <;> omega
  · intro hK m' hm'
    have hbt : b = true := by
      cases b
      · rw [hb rfl] at hK; cases hK
      · rfl
    show (if b = true ∧ m'.ino = r.2 then s.refs m'.ino + 1 else s.refs m'.ino) = m'.nlookup
    rcases h2 m' hm' with ⟨m, hm, ⟨e1, e2, e3⟩, e4⟩ | ⟨rfl, e⟩
    · have h7 := h.exact hK m hm
      rw [e4, e1]
      by_cases e : m.ino = r.2
      · rw [if_pos e, if_pos ⟨hbt, e⟩]; omega
      · rw [if_neg e, if_neg (fun h' => e h'.2)]; omega
    · show (if b = true ∧ fresh = r.2 then s.refs fresh + 1 else s.refs fresh) = 1
      rw [if_pos ⟨hbt, e.symm⟩]; omega
  · intro i hi
    rw [h3]
    by_cases e : i = r.2
    · exact .inr e
    · left
      apply h.live
      have hi' : 0 < (if b = true ∧ i = r.2 then s.refs i + 1 else s.refs i) := hi
      rw [if_neg (fun h' => e h'.2)] at hi'
      exact hi'
  · intro hK m' hm'
    rcases h2 m' hm' with ⟨m, hm, ⟨e1, e2, e3⟩, e4⟩ | ⟨rfl, e⟩
    · rw [e3]; exact h.valid hK m hm
    · simp

theorem Inv.readAll {K : Kinds} (hK : K.readdir = true) {dir : Ino} {p : Path} {names : List Name}
    {fresh : List Ino} {s : State} (h : Inv K s) (hd : 0 < s.refs dir)
    (hn : fresh.Nodup) (hf : ∀ i ∈ fresh, i ≠ rootIno ∧ ¬ hasIno i s.nodes) :
    Inv K { s with nodes := readAll dir p names fresh s.nodes } := by
  induction names generalizing fresh s with
  | nil => simpa only [Verif.FuseFs.readAll] using h
  | cons a l ih =>
    cases fresh with
    | nil => simpa only [Verif.FuseFs.readAll] using h
    | cons i is =>
      rw [List.nodup_cons] at hn
      have h1 := hf i (List.mem_cons_self ..)
      have h2 := h.getOrCreate (p := p) (a := a) hd h1.2 h1.1 false (fun _ => hK)
      obtain ⟨q, hq, hqp, hqz⟩ := h.used hd
      obtain ⟨_, _, h3, h4, _⟩ :=
        getOrCreate_spec (p := p ++ [a]) h.inv ⟨q, hq, hqp, fun _ => hqz⟩ h1.2 h1.1
      refine ih (s := ⟨_, s.refs⟩) (by simpa using h2) hd hn.2 fun j hj => ?_
      have h5 := hf j (List.mem_cons_of_mem _ hj)
      refine ⟨h5.1, ?_⟩
      rw [h3]
      rintro (h' | h')
      · exact h5.2 h'
      · rcases h4 with e | e
        · exact hn.1 (by rw [← e, ← h']; exact hj)
        · exact h5.2 (h' ▸ e)

/-- The kernel never makes the file system access freed memory, and the invariant is kept. -/
theorem Inv.step {K : Kinds} {s : State} (h : Inv K s) {op : Op} (ha : Allowed s op) (hK : K.ok op) :
    ∃ t, apply op s = some t ∧ Inv K t := by
  cases op with
  | lookup parent name found fresh =>
    obtain ⟨h1, h2, h3⟩ := ha
    obtain ⟨d, hd, e1, e2⟩ := getNode_some (h.live _ h1)
    simp only [apply, e2]
    cases hp : d.path with
    | none => exact ⟨s, rfl, h⟩
    | some p =>
      cases found with
      | false => exact ⟨s, rfl, h⟩
      | true =>
        refine ⟨_, rfl, ?_⟩
        simpa using h.getOrCreate (p := p) (a := name) h1 h3 h2 true (by simp)
  | readdir dir names fresh =>
    obtain ⟨h1, h2, h3, h4, h5⟩ := ha
    obtain ⟨d, hd, e1, e2⟩ := getNode_some (h.live _ h1)
    simp only [apply, e2]
    cases hp : d.path with
    | none => exact ⟨s, rfl, h⟩
    | some p =>
      have hpar : hasIno d.parent s.nodes := by
        by_cases hr : d.ino = rootIno
        · rw [(h.root d hd hr).1]; exact h.hasRoot
        · refine h.inv.older.parent hd hr fun hz => ?_
          have := h.refs d hd
          rw [hz.1, e1] at this
          omega
      obtain ⟨u, hu, e3, e4⟩ := getNode_some hpar
      simp only [e4]
      cases hup : u.path with
      | none => exact ⟨s, rfl, h⟩
      | some _ => exact ⟨_, rfl, h.readAll hK h1 h4 h5⟩
  | forget i k =>
    obtain ⟨h1, h2, h3⟩ := ha
    obtain ⟨n, hn, e⟩ := h.live i (by omega)
    obtain ⟨s', e1, e2, e3, e4⟩ := forgetOne_spec (i := i) (k := k) h.inv h3 h2
      ⟨n, hn, e, by have := h.refs n hn; rw [e] at this; omega⟩
    simp only [apply, e1]
    refine ⟨_, rfl, e2, ?_, ?_, ?_, ?_, ?_, ?_⟩
    · intro m' hm' er
      obtain ⟨m, hm, ⟨a1, a2, a3⟩, _⟩ := e3.back m' hm'
      rw [a2, a3]
      exact h.root m hm (a1 ▸ er)
    · have := h.rootRefs
      show 0 < (if rootIno = i then s.refs rootIno - k else s.refs rootIno)
      rw [if_neg fun e => h3 e.symm]
      exact this
    · intro m' hm'
      obtain ⟨m, hm, ⟨a1, a2, a3⟩, a4⟩ := e3.back m' hm'
      have := h.refs m hm
      rw [a4, a1]
      show (if m.ino = i then s.refs m.ino - k else s.refs m.ino) ≤ _
      split <;> omega
    · intro hKr m' hm'
      obtain ⟨m, hm, ⟨a1, a2, a3⟩, a4⟩ := e3.back m' hm'
      have := h.exact hKr m hm
      rw [a4, a1]
      show (if m.ino = i then s.refs m.ino - k else s.refs m.ino) = _
      split <;> omega
    · intro j hj
      have hj' : 0 < (if j = i then s.refs j - k else s.refs j) := hj
      obtain ⟨m, hm, rfl⟩ := h.live j (by split at hj' <;> omega)
      refine e3.keep m hm ?_
      have := h.refs m hm
      split <;> rename_i hx
      · rw [if_pos hx] at hj'; omega
      · rw [if_neg hx] at hj'; omega
    · intro hKu m' hm'
      obtain ⟨m, hm, ⟨a1, a2, a3⟩, a4⟩ := e3.back m' hm'
      rw [a3]
      exact h.valid hKu m hm
  | update gone =>
    obtain ⟨h1, h2⟩ := ha
    simp only [apply]
    refine ⟨_, rfl, ?_, ?_, ?_, ?_, ?_, ?_, ?_⟩
    · exact h.inv.map (d := fun _ => 0)
        (g := invalidate gone)
        (fun _ _ => ⟨rfl, rfl⟩) (fun _ _ _ => Iff.rfl)
        (fun n _ => by
          show (n.path.bind fun p => if gone p then none else some p) = n.path ∨
            (n.path.bind fun p => if gone p then none else some p) = none
          cases n.path with
          | none => exact .inl rfl
          | some p => simp only [Option.bind_some]; split <;> simp)
        (fun _ _ => rfl)
    · intro m' hm' er
      obtain ⟨m, hm, rfl⟩ := List.mem_map.mp hm'
      have := h.root m hm er
      refine ⟨this.1, ?_⟩
      show (m.path.bind fun p => if gone p then none else some p) = _
      rw [this.2, Option.bind_some, h1]
      rfl
    · exact h.rootRefs
    · intro m' hm'
      obtain ⟨m, hm, rfl⟩ := List.mem_map.mp hm'
      exact h.refs m hm
    · intro hKr m' hm'
      obtain ⟨m, hm, rfl⟩ := List.mem_map.mp hm'
      exact h.exact hKr m hm
    · intro j hj
      obtain ⟨m, hm, rfl⟩ := h.live j hj
      exact ⟨_, List.mem_map.mpr ⟨m, hm, rfl⟩, rfl⟩
    · intro hKu
      have : K.update = true := hK
      rw [this] at hKu
      cases hKu

theorem Reach.inv {K : Kinds} {s : State} (h : Reach K s) : Inv K s := by
  induction h with
  | init => exact .init K
  | step op _ ha hK e ih =>
    obtain ⟨t', e', h'⟩ := ih.step ha hK
    rw [e] at e'
    cases e'
    exact h'

/-- **C51**, first part: whatever the kernel asks for, no request accesses a node that has been
freed. -/
theorem C51_no_use_after_free {K : Kinds} {s : State} (h : Reach K s) {op : Op} (ha : Allowed s op)
    (hK : K.ok op) : apply op s ≠ none := by
  obtain ⟨t, e, _⟩ := h.inv.step ha hK
  rw [e]
  exact fun h' => by cases h'

theorem childCount_pos {i : Ino} {s : Nodes} {n : Node} (hn : n ∈ s) (h : counts i n = 1) :
    0 < childCount i s := by
  induction s with
  | nil => cases hn
  | cons a r ih =>
    rw [childCount]
    rcases List.mem_cons.mp hn with rfl | hn'
    · omega
    · have := ih hn'; omega

theorem Inv.needed {K : Kinds} {s : State} (h : Inv K s) {i : Ino} (hi : Needed s i) :
    ∃ n ∈ s.nodes, n.ino = i ∧ (i ≠ rootIno → ¬ zombie n) := by
  induction hi with
  | ref h0 =>
    obtain ⟨n, hn, e, hz⟩ := h.used h0
    exact ⟨n, hn, e, fun _ => hz⟩
  | child hn hr _ ih =>
    rename_i n
    obtain ⟨m, hm, e, hz⟩ := ih
    obtain rfl := mem_unique h.inv.inos hm hn e
    obtain ⟨u, hu, eu⟩ := h.inv.older.parent hn hr (hz hr)
    refine ⟨u, hu, eu, fun _ hzu => ?_⟩
    have h1 := h.inv.count u hu
    have h2 : 0 < childCount u.ino s.nodes := childCount_pos hn (by simp [counts, hr, eu, hz hr])
    rw [hzu.2] at h1
    omega

/-- **C51**, second part: a node exists as long as the kernel refers to it or to something below it,
in all histories. -/
theorem C51_needed_exist {K : Kinds} {s : State} (h : Reach K s) {i : Ino} (hi : Needed s i) :
    hasIno i s.nodes := by
  obtain ⟨n, hn, e, _⟩ := h.inv.needed hi
  exact ⟨n, hn, e⟩

theorem exists_child {i : Ino} {s : Nodes} (h : 0 < childCount i s) :
    ∃ n ∈ s, n.ino ≠ rootIno ∧ n.parent = i ∧ ¬ zombie n := by
  induction s with
  | nil => exact absurd h (Nat.lt_irrefl 0)
  | cons a r ih =>
    rw [childCount] at h
    by_cases hc : a.ino ≠ rootIno ∧ a.parent = i ∧ ¬ zombie a
    · exact ⟨a, List.mem_cons_self .., hc⟩
    · rw [counts, if_neg hc] at h
      obtain ⟨n, hn, e⟩ := ih (by omega)
      exact ⟨n, List.mem_cons_of_mem _ hn, e⟩

/-- Every node that is not a leftover is needed: going from the newest to the oldest. -/
theorem Inv.needed_of {K : Kinds} {s : State} (h : Inv K s) (hK : K.readdir = false) {n : Node}
    (hn : n ∈ s.nodes) (hz : ¬ zombie n) : Needed s n.ino := by
  have key : ∀ (l r : Nodes), s.nodes = l ++ r → ∀ m ∈ l, ¬ zombie m → Needed s m.ino := by
    intro l
    induction hlen : l.length generalizing l with
    | zero => intro r _ m hm; rw [List.length_eq_zero_iff.mp hlen] at hm; cases hm
    | succ k ih =>
      intro r e m hm hz
      have hne : l ≠ [] := fun h' => by rw [h'] at hlen; cases hlen
      obtain ⟨l', a, rfl⟩ : ∃ l' a, l = l' ++ [a] := ⟨l.dropLast, l.getLast hne, (List.dropLast_concat_getLast hne).symm⟩
      have hl' : l'.length = k := by simpa using hlen
      have ih' := ih l' hl' (a :: r) (by rw [e]; simp)
      rcases List.mem_append.mp hm with hm | hm
      · exact ih' m hm hz
      · obtain rfl := List.mem_singleton.mp hm
        have hms : m ∈ s.nodes := by rw [e]; simp
        by_cases h0 : 0 < s.refs m.ino
        · exact .ref h0
        · have h1 := h.exact hK m hms
          have h2 : 0 < m.kids := Nat.pos_of_ne_zero fun h' => hz ⟨by omega, h'⟩
          have h3 := h.inv.count m hms
          obtain ⟨u, hu, a1, a2, a3⟩ := exists_child (i := m.ino) (s := s.nodes) (by omega)
          rw [← a2]
          refine .child hu a1 ?_
          rw [e, List.append_assoc, List.mem_append] at hu
          rcases hu with hu | hu
          · exact ih' u hu a3
          · -- it cannot be older than its parent
            exfalso
            have ho := h.inv.older
            have hnd := h.inv.inos
            rw [e, List.append_assoc] at ho hnd
            have drop : ∀ (l' r : Nodes), Older (l' ++ r) → Older r := by
              intro l' r hh
              induction l' with
              | nil => exact hh
              | cons _ _ ihh => exact ihh hh.2
            have ho' := drop _ _ ho
            rw [List.map_append, List.nodup_append] at hnd
            have hnd' := hnd.2.1
            simp only [List.singleton_append, List.map_cons, List.nodup_cons] at hnd'
            have hpar : hasIno u.parent r := by
              rcases List.mem_cons.mp hu with rfl | hu'
              · exact ho'.1 a1 a3
              · exact ho'.2.parent hu' a1 a3
            rw [a2, hasIno_iff] at hpar
            exact hnd'.1 hpar
  exact key s.nodes [] (by simp) n hn hz

/-- **C98**, third part, for histories of lookups and forgets: a node exists if and only if the
kernel refers to it or to something below it.  Missing: histories with directory listings and with
manifest updates; there it is false, see below. -/
theorem C98_exists_iff_partial {s : State} (h : Reach ⟨false, false⟩ s) (i : Ino) :
    hasIno i s.nodes ↔ Needed s i := by
  refine ⟨fun ⟨n, hn, e⟩ => ?_, C51_needed_exist h⟩
  have hv := h.inv.valid rfl
  by_cases hr : n.ino = rootIno
  · exact .ref (by rw [← e, hr]; exact h.inv.rootRefs)
  · rw [← e]
    exact h.inv.needed_of rfl hn fun hz => hv n hn (h.inv.inv.alive n hn hr hz)

/-- The same with manifest updates: what exists without being needed has been removed from the
manifest, and nothing refers to it or has it as its parent. -/
theorem C98_exists_update_partial {s : State} (h : Reach ⟨false, true⟩ s) {n : Node} (hn : n ∈ s.nodes)
    (hnot : ¬ Needed s n.ino) : n.path = none ∧ n.nlookup = 0 ∧ n.kids = 0 := by
  by_cases hz : zombie n
  · have hr : n.ino ≠ rootIno := fun e => hnot (.ref (by rw [e]; exact h.inv.rootRefs))
    exact ⟨h.inv.inv.alive n hn hr hz, hz⟩
  · exact absurd (h.inv.needed_of rfl hn hz) hnot

/-- What can come later. -/
inductive Later (K : Kinds) : State → State → Prop
  | refl {s} : Later K s s
  | step {s t u} (op : Op) : Later K s t → Allowed t op → K.ok op → apply op t = some u → Later K s u

theorem Later.reach {K : Kinds} {s t : State} (hs : Reach K s) (h : Later K s t) : Reach K t := by
  induction h with
  | refl => exact hs
  | step op _ ha hK e ih => exact .step op ih ha hK e

/-- The node at this address has been counted more often than the kernel knows. -/
def Overcounted (s : State) (i : Ino) : Prop := ∃ n ∈ s.nodes, n.ino = i ∧ s.refs i < n.nlookup

theorem Overcounted.readAll {K : Kinds} (hK : K.readdir = true) {dir : Ino} {p : Path}
    {names : List Name} {fresh : List Ino} {s : State} (h : Inv K s) (hd : 0 < s.refs dir)
    (hn : fresh.Nodup) (hf : ∀ i ∈ fresh, i ≠ rootIno ∧ ¬ hasIno i s.nodes) {x : Ino}
    (hx : Overcounted s x) : Overcounted { s with nodes := readAll dir p names fresh s.nodes } x := by
  induction names generalizing fresh s with
  | nil => simpa only [Verif.FuseFs.readAll] using hx
  | cons a l ih =>
    cases fresh with
    | nil => simpa only [Verif.FuseFs.readAll] using hx
    | cons i is =>
      rw [List.nodup_cons] at hn
      have h1 := hf i (List.mem_cons_self ..)
      have h2 := h.getOrCreate (p := p) (a := a) hd h1.2 h1.1 false (fun _ => hK)
      obtain ⟨q, hq, hqp, hqz⟩ := h.used hd
      obtain ⟨_, _, h3, h4, h5, _⟩ :=
        getOrCreate_spec (p := p ++ [a]) h.inv ⟨q, hq, hqp, fun _ => hqz⟩ h1.2 h1.1
      refine ih (s := ⟨_, s.refs⟩) (by simpa using h2) hd hn.2 (fun j hj => ?_) ?_
      · have h5 := hf j (List.mem_cons_of_mem _ hj)
        refine ⟨h5.1, ?_⟩
        rw [h3]
        rintro (h' | h')
        · exact h5.2 h'
        · rcases h4 with e | e
          · exact hn.1 (by rw [← e, ← h']; exact hj)
          · exact h5.2 (h' ▸ e)
      · obtain ⟨n, hn, e, hl⟩ := hx
        obtain ⟨n', hn', e', hl'⟩ := h5 n hn
        exact ⟨n', hn', e'.trans e, by show s.refs x < _; omega⟩

theorem Overcounted.step {K : Kinds} {s t : State} (h : Inv K s) {op : Op} (ha : Allowed s op)
    (hK : K.ok op) (e : apply op s = some t) {x : Ino} (hx : Overcounted s x) : Overcounted t x := by
  cases op with
  | lookup parent name found fresh =>
    obtain ⟨h1, h2, h3⟩ := ha
    obtain ⟨d, hd, e1, e2⟩ := getNode_some (h.live _ h1)
    simp only [apply, e2] at e
    cases hp : d.path with
    | none => simp only [hp, Option.some.injEq] at e; exact e ▸ hx
    | some p =>
      simp only [hp] at e
      cases found with
      | false => simp only [Bool.false_eq_true, if_false, Option.some.injEq] at e; exact e ▸ hx
      | true =>
        simp only [if_true, Option.some.injEq] at e
        subst e
        obtain ⟨q, hq, hqp, hqz⟩ := h.used h1
        obtain ⟨a1, a2, a3, a4, a5, _⟩ :=
          getOrCreate_spec (p := p ++ [name]) h.inv ⟨q, hq, hqp, fun _ => hqz⟩ h3 h2
        obtain ⟨n, hn, en, hl⟩ := hx
        obtain ⟨n', hn', e', _⟩ := a5 n hn
        refine ⟨n', hn', e'.trans en, ?_⟩
        rcases a2 n' hn' with ⟨m, hm, ⟨b1, b2, b3⟩, b4⟩ | ⟨rfl, b⟩
        · obtain rfl := mem_unique h.inv.inos hm hn (b1 ▸ e')
          rw [b4]
          simp only [← en]
          simp only [← en] at hl
          split <;> omega
        · exact absurd ⟨n, hn, e'.symm⟩ h3
  | readdir dir names fresh =>
    obtain ⟨h1, h2, h3, h4, h5⟩ := ha
    obtain ⟨d, hd, e1, e2⟩ := getNode_some (h.live _ h1)
    simp only [apply, e2] at e
    cases hp : d.path with
    | none => simp only [hp, Option.some.injEq] at e; exact e ▸ hx
    | some p =>
      simp only [hp] at e
      cases hu : getNode s.nodes d.parent with
      | none => simp only [hu] at e; cases e
      | some u =>
        simp only [hu] at e
        cases hup : u.path with
        | none => simp only [hup, Option.some.injEq] at e; exact e ▸ hx
        | some _ =>
          simp only [hup, Option.some.injEq] at e
          subst e
          exact hx.readAll hK h h1 h4 h5
  | forget i k =>
    obtain ⟨h1, h2, h3⟩ := ha
    obtain ⟨n, hn, en⟩ := h.live i (by omega)
    obtain ⟨s', e1, e2, e3, e4⟩ := forgetOne_spec (i := i) (k := k) h.inv h3 h2
      ⟨n, hn, en, by have := h.refs n hn; rw [en] at this; omega⟩
    simp only [apply, e1, Option.some.injEq] at e
    subst e
    obtain ⟨m, hm, rfl, hl⟩ := hx
    obtain ⟨m', hm', em⟩ := e3.keep m hm (by
      split
      · rename_i hx; rw [hx] at hl; omega
      · omega)
    refine ⟨m', hm', em, ?_⟩
    obtain ⟨m2, hm2, ⟨a1, _, _⟩, a4⟩ := e3.back m' hm'
    obtain rfl := mem_unique h.inv.inos hm2 hm (a1 ▸ em)
    rw [a4]
    show (if m2.ino = i then s.refs m2.ino - k else s.refs m2.ino) < _
    split
    · rename_i hx; rw [hx] at hl; rw [hx]; omega
    · exact hl
  | update gone =>
    simp only [apply, Option.some.injEq] at e
    subst e
    obtain ⟨m, hm, em, hl⟩ := hx
    refine ⟨_, List.mem_map.mpr ⟨m, hm, rfl⟩, ?_, ?_⟩
    · exact em
    · exact hl

/-- **C98** is false for histories with directory listings: each listing counts one more reference
of each entry, and the kernel does not.  Once the file system has counted more references of a node
than the kernel has, the node is never freed, whatever happens later. -/
theorem C98_listing_violated {K : Kinds} {s t : State} (hs : Reach K s) {i : Ino}
    (hi : Overcounted s i) (h : Later K s t) : hasIno i t.nodes := by
  suffices h' : Overcounted t i by
    obtain ⟨n, hn, e, _⟩ := h'
    exact ⟨n, hn, e⟩
  induction h with
  | refl => exact hi
  | step op h1 ha hK e ih => exact ih.step (h1.reach hs).inv ha hK e

theorem forgetChild_zombie {i : Ino} {s s' : Nodes} (h : forgetChild i s = some s') {z : Node}
    (hz : z ∈ s) (hzz : zombie z) : z ∈ s' := by
  induction s generalizing i s' with
  | nil => cases hz
  | cons n r ih =>
    rw [forgetChild] at h
    by_cases hni : n.ino = i
    · rw [if_pos hni] at h
      by_cases hk : n.kids = 0
      · rw [if_pos hk] at h; cases h
      · rw [if_neg hk] at h
        have hzr : z ∈ r := by
          rcases List.mem_cons.mp hz with rfl | h'
          · exact absurd hzz.2 hk
          · exact h'
        by_cases hr : i = rootIno
        · rw [if_pos hr] at h; cases h; exact List.mem_cons_of_mem _ hzr
        · rw [if_neg hr] at h
          split at h
          · cases hf : forgetChild n.parent r with
            | none => rw [hf] at h; cases h
            | some r' =>
              rw [hf] at h
              have := ih hf hzr
              simp only at h
              split at h
              · cases h; exact List.mem_cons_of_mem _ this
              · cases h; exact this
          · cases h; exact List.mem_cons_of_mem _ hzr
    · rw [if_neg hni] at h
      cases hf : forgetChild i r with
      | none => rw [hf] at h; cases h
      | some r' =>
        rw [hf] at h
        cases h
        rcases List.mem_cons.mp hz with rfl | h'
        · exact List.mem_cons_self ..
        · exact List.mem_cons_of_mem _ (ih hf h')

theorem forgetOne_zombie {i : Ino} {k : Nat} {s s' : Nodes} (h : forgetOne i k s = some s') {z : Node}
    (hz : z ∈ s) (hzz : zombie z) (hi : z.ino ≠ i) : z ∈ s' := by
  induction s generalizing s' with
  | nil => cases hz
  | cons n r ih =>
    rw [forgetOne] at h
    by_cases hni : n.ino = i
    · have hzr : z ∈ r := by
        rcases List.mem_cons.mp hz with rfl | h'
        · exact absurd hni hi
        · exact h'
      rw [if_pos hni] at h
      simp only [sub_eq] at h
      split at h
      · cases h; exact List.mem_cons_of_mem _ hzr
      · split at h
        · exact forgetChild_zombie h hzr hzz
        · cases h; exact List.mem_cons_of_mem _ hzr
    · rw [if_neg hni] at h
      cases hf : forgetOne i k r with
      | none => rw [hf] at h; cases h
      | some r' =>
        rw [hf] at h
        cases h
        rcases List.mem_cons.mp hz with rfl | h'
        · exact List.mem_cons_self ..
        · exact List.mem_cons_of_mem _ (ih hf h')

theorem getOrCreate_zombie {s : Nodes} {parent fresh : Ino} {p : Path} (h : (s.map (·.ino)).Nodup)
    {z : Node} (hz : z ∈ s) (hzp : z.path = none) (hp : z.ino ≠ parent) :
    z ∈ (getOrCreate parent p fresh s).1 := by
  simp only [getOrCreate]
  split
  · rename_i n hf
    refine List.mem_map.mpr ⟨z, hz, ?_⟩
    have hn := List.mem_of_find?_eq_some hf
    have hnp : n.path = some p := by simpa using List.find?_some hf
    rw [if_neg]
    intro e
    rw [mem_unique h hz hn e, hnp] at hzp
    cases hzp
  · exact List.mem_cons_of_mem _ (List.mem_map.mpr ⟨z, hz, by rw [if_neg hp]⟩)

theorem readAll_zombie {K : Kinds} (hK : K.readdir = true) {dir : Ino} {p : Path} {names : List Name}
    {fresh : List Ino} {s : State} (h : Inv K s) (hd : 0 < s.refs dir)
    (hn : fresh.Nodup) (hf : ∀ i ∈ fresh, i ≠ rootIno ∧ ¬ hasIno i s.nodes)
    {z : Node} (hz : z ∈ s.nodes) (hzp : z.path = none) (hp : z.ino ≠ dir) :
    z ∈ readAll dir p names fresh s.nodes := by
  induction names generalizing fresh s with
  | nil => simpa only [readAll] using hz
  | cons a l ih =>
    cases fresh with
    | nil => simpa only [readAll] using hz
    | cons i is =>
      rw [List.nodup_cons] at hn
      have h1 := hf i (List.mem_cons_self ..)
      have h2 := h.getOrCreate (p := p) (a := a) hd h1.2 h1.1 false (fun _ => hK)
      obtain ⟨q, hq, hqp, hqz⟩ := h.used hd
      obtain ⟨_, _, h3, h4, h5, _⟩ :=
        getOrCreate_spec (p := p ++ [a]) h.inv ⟨q, hq, hqp, fun _ => hqz⟩ h1.2 h1.1
      refine ih (s := ⟨_, s.refs⟩) (by simpa using h2) hd hn.2 (fun j hj => ?_)
        (getOrCreate_zombie h.inv.inos hz hzp hp)
      have h5 := hf j (List.mem_cons_of_mem _ hj)
      refine ⟨h5.1, ?_⟩
      rw [h3]
      rintro (h' | h')
      · exact h5.2 h'
      · rcases h4 with e | e
        · exact hn.1 (by rw [← e, ← h']; exact hj)
        · exact h5.2 (h' ▸ e)

/-- **C98** is false for histories with manifest updates: when the last node below a directory that
has been removed from the manifest is forgotten, and the directory has been forgotten before, the
directory's node is not freed, and never will be. -/
theorem C98_removed_violated {K : Kinds} {s t : State} (hs : Reach K s) {z : Node} (hz : z ∈ s.nodes)
    (hp : z.path = none) (hzz : z.nlookup = 0 ∧ z.kids = 0) (h : Later K s t) : z ∈ t.nodes := by
  induction h with
  | refl => exact hz
  | step op h1 ha hK e ih =>
    have hi := (h1.reach hs).inv
    rename_i s1 t1
    have hr0 : s1.refs z.ino = 0 := by
      have := hi.refs z ih
      rw [hzz.1] at this
      omega
    cases op with
    | lookup parent name found fresh =>
      obtain ⟨h1, h2, h3⟩ := ha
      obtain ⟨d, hd, e1, e2⟩ := getNode_some (hi.live _ h1)
      simp only [apply, e2] at e
      cases hp' : d.path with
      | none => simp only [hp', Option.some.injEq] at e; exact e ▸ ih
      | some p =>
        simp only [hp'] at e
        cases found with
        | false => simp only [Bool.false_eq_true, if_false, Option.some.injEq] at e; exact e ▸ ih
        | true =>
          simp only [if_true, Option.some.injEq] at e
          subst e
          exact getOrCreate_zombie hi.inv.inos ih hp fun e => by rw [e] at hr0; omega
    | readdir dir names fresh =>
      obtain ⟨h1, h2, h3, h4, h5⟩ := ha
      obtain ⟨d, hd, e1, e2⟩ := getNode_some (hi.live _ h1)
      simp only [apply, e2] at e
      cases hp' : d.path with
      | none => simp only [hp', Option.some.injEq] at e; exact e ▸ ih
      | some p =>
        simp only [hp'] at e
        cases hu : getNode s1.nodes d.parent with
        | none => simp only [hu] at e; cases e
        | some u =>
          simp only [hu] at e
          cases hup : u.path with
          | none => simp only [hup, Option.some.injEq] at e; exact e ▸ ih
          | some _ =>
            simp only [hup, Option.some.injEq] at e
            subst e
            exact readAll_zombie hK hi h1 h4 h5 ih hp fun e => by rw [e] at hr0; omega
    | forget i k =>
      obtain ⟨h1, h2, h3⟩ := ha
      simp only [apply] at e
      cases hf : forgetOne i k s1.nodes with
      | none => rw [hf] at e; cases e
      | some s' =>
        rw [hf] at e
        simp only [Option.some.injEq] at e
        subst e
        exact forgetOne_zombie hf ih hzz fun e => by rw [e] at hr0; omega
    | update gone =>
      simp only [apply, Option.some.injEq] at e
      subst e
      exact List.mem_map.mpr ⟨z, ih, by rw [invalidate, hp, Option.bind_none]; exact congrArg (fun x => { z with path := x }) hp.symm⟩

/-! ## Examples -/

/-- Runs a history. -/
def exec : List Op → State → Option State
  | [], s => some s
  | op :: l, s => match apply op s with
    | none => none
    | some t => exec l t

/-- `d` is looked up, then `f` in it; the kernel forgets `d`, which stays; then it forgets `f`, and
both are freed. -/
def exForget : List Op :=
  [.lookup 1 [100] true 16, .lookup 16 [102] true 32, .forget 16 1, .forget 32 1]

theorem exForget_three : (exec (exForget.take 3) .init).map (·.nodes.map (·.ino)) = some [32, 16, 1] := rfl

theorem exForget_four : (exec exForget .init).map (·.nodes.map (·.ino)) = some [1] := rfl

/-- In that state the directory is needed though the kernel does not refer to it. -/
example : ∃ s, Reach ⟨false, false⟩ s ∧ s.refs 16 = 0 ∧ Needed s 16 ∧ hasIno 16 s.nodes := by
  have h1 : Reach ⟨false, false⟩ _ := .step (.lookup 1 [100] true 16) .init
    ⟨by decide, by decide, by simp [State.init, hasIno, rootIno]⟩ trivial rfl
  have h2 := Reach.step (.lookup 16 [102] true 32) h1
    ⟨by decide, by decide, by simp [State.init, hasIno, modify, rootIno]⟩ trivial rfl
  have h3 := Reach.step (.forget 16 1) h2 ⟨by decide, by decide, by decide⟩ trivial rfl
  refine ⟨_, h3, rfl, ?_, (C98_exists_iff_partial h3 16).mpr ?_⟩ <;>
  · exact .child (n := ⟨32, 16, some [[100], [102]], 1, 0⟩) (List.mem_cons_self ..) (by decide)
      (.ref (by decide))

/-- After one listing of the root the node of its entry stays for ever. -/
example : ∃ s, Reach ⟨true, false⟩ s ∧ s.refs 16 = 0 ∧ Overcounted s 16 := by
  have h1 : Reach ⟨true, false⟩ _ := .step (.readdir 1 [[102]] [16]) .init
    ⟨by decide, rfl, by decide, by decide, by simp [State.init, hasIno, rootIno]⟩ rfl rfl
  exact ⟨_, h1, rfl, ⟨16, 1, some [[102]], 1, 0⟩, List.mem_cons_self .., rfl, by decide⟩

/-- The directory is forgotten, then removed from the manifest, then the file in it is forgotten. -/
example : ∃ s, Reach ⟨false, true⟩ s ∧ s.refs 16 = 0 ∧ s.refs 32 = 0 ∧
    (⟨16, 1, none, 0, 0⟩ : Node) ∈ s.nodes := by
  have h1 : Reach ⟨false, true⟩ _ := .step (.lookup 1 [100] true 16) .init
    ⟨by decide, by decide, by simp [State.init, hasIno, rootIno]⟩ trivial rfl
  have h2 := Reach.step (.lookup 16 [102] true 32) h1
    ⟨by decide, by decide, by simp [State.init, hasIno, modify, rootIno]⟩ trivial rfl
  have h3 := Reach.step (.forget 16 1) h2 ⟨by decide, by decide, by decide⟩ trivial rfl
  have h4 := Reach.step (.update fun p => p.head? = some [100]) h3
    ⟨by decide, by
      intro p q h
      cases p with
      | nil => cases h
      | cons a l => simpa using h⟩ rfl rfl
  have h5 := Reach.step (.forget 32 1) h4 ⟨by decide, by decide, by decide⟩ trivial rfl
  exact ⟨_, h5, rfl, rfl, by decide⟩

end Verif.FuseFs
