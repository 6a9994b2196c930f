import Verif.FuseFs.Paths
import Mathlib.Data.List.Induction
import Batteries.Data.List.Perm

/-!
# Replacing the manifest (C65): cdc_fuse_fs/cdc_fuse_fs.cc, cdc_fuse_fs/asset.cc

`SetManifest` moves all nodes from the old manifest to the new one, level by level, many at a time.
The part of the manifest that describes a node lives in memory that belongs either to the manifest
itself or to a list of directory entries that some directory node has fetched.  A node that gets its
new description drops the lists it has fetched.
-/

namespace Verif.FuseFs

/-- `AssetProto` (manifest/manifest.proto): whether it is a directory, everything about it but its
entries, the entries it contains, and the entries in each of its indirect lists. -/
inductive Tree where
  | mk (dir : Bool) (data : Nat) (direct : List (Name × Tree)) (lists : List (List (Name × Tree)))

def Tree.dir : Tree → Bool | .mk d _ _ _ => d
def Tree.direct : Tree → List (Name × Tree) | .mk _ _ c _ => c
def Tree.lists : Tree → List (List (Name × Tree)) | .mk _ _ _ l => l

/-- `Asset::Lookup` (asset.cc:76-105) when all lists can be fetched.  The flag tells whether the
entry is from a fetched list.  Simplification: names are unique in a directory. -/
def child (t : Tree) (a : Name) : Option (Tree × Bool) :=
  if !t.dir then none
  else match t.direct.find? (·.1 = a) with
    | some x => some (x.2, false)
    | none => (t.lists.flatten.find? (·.1 = a)).map fun x => (x.2, true)

/-- The part of a manifest that describes a path, and the directory whose fetched list it is part of
(none: it is part of the manifest itself). -/
structure Loc where
  tree : Tree
  owner : Option Path

def locStep (x : Option (Path × Loc)) (a : Name) : Option (Path × Loc) :=
  match x with
  | none => none
  | some (p, l) =>
    match child l.tree a with
    | none => none
    | some (c, fetched) => some (p ++ [a], ⟨c, if fetched then some p else l.owner⟩)

/-- Goes down from the root, one lookup per name. -/
def locate (root : Tree) (p : Path) : Option Loc :=
  (p.foldl locStep (some ([], ⟨root, none⟩))).map (·.2)

/-- `InodeState` (cdc_fuse_fs.cc:47-55) -/
inductive NState
  | initialized | updatedProto | updated | invalid
  deriving DecidableEq

/-- `UpdateInode` (cdc_fuse_fs.cc:1384-1387) without the new parent, which is the parent of the
node, or an entry of the queue of `InvalidateTree`. -/
structure Work where
  ino : Ino
  inval : Bool

/-- The state of the update.  `freed`: the paths of the directories that have dropped the lists they
had fetched from the old manifest. -/
structure US where
  nodes : Nodes
  st : Ino → NState
  todo : List Work
  freed : List Path

/-- What an update depends on: the manifests, the comparison of descriptions, and whether the lookup
of each path in the new manifest can fetch the lists it needs. -/
structure Env where
  old : Tree
  new : Tree
  same : Tree → Tree → Bool
  ok : Path → Bool

/-- Whether the path is directly below `p`. -/
def isChild (p : Path) (n : Node) : Bool :=
  match n.path with
  | none => false
  | some q => q ≠ [] ∧ q.dropLast = p

/-- `CollectLoadedChildInos` (cdc_fuse_fs.cc:368-380): every node has been created for an entry that
its parent has loaded. -/
def loadedChildren (p : Path) (s : Nodes) : List Ino := (s.filter (isChild p)).map (·.ino)

/-- The lists of this directory have been dropped. -/
def dropped (own : Option Path) (freed : List Path) : Bool :=
  match own with
  | none => false
  | some q => q ∈ freed

/-- One node: `UpdateInodeTask::ThreadRun` (cdc_fuse_fs.cc:1396-1446) or one iteration of
`InvalidateTree` (cdc_fuse_fs.cc:1357-1381), with `Asset::UpdateProto` (asset.cc:231-240).  `none`:
freed memory is accessed, or an assertion fails.  Simplification: tasks for different nodes, which
run in parallel, are done in any order, each one at once; they work on different nodes. -/
def task (e : Env) (w : Work) (s : US) : Option US :=
  match getNode s.nodes w.ino with
  | none => none
  | some n =>
    match n.path with
    | none => none
    | some p =>
      match locate e.old p with
      | none => none
      | some l =>
        if dropped l.owner s.freed then none
        else
          let kids := loadedChildren p s.nodes
          match (if w.inval then none else if e.ok p then locate e.new p else none) with
          | none => some
              { nodes := modify w.ino (fun n => { n with path := none }) s.nodes
                st := fun i => if i = w.ino then .invalid else s.st i
                todo := s.todo ++ kids.map (⟨·, true⟩)
                freed := p :: s.freed }
          | some l' => some
              { nodes := s.nodes
                st := fun i => if i = w.ino then
                    if e.same l.tree l'.tree then .updatedProto else .updated
                  else s.st i
                todo := s.todo ++ kids.map (⟨·, false⟩)
                freed := p :: s.freed }

/-- The start of `UpdateProtosFromRoot` (cdc_fuse_fs.cc:1483-1499).  The old root keeps its lists
until the end. -/
def US.start (nodes : Nodes) (st : Ino → NState) : US :=
  ⟨nodes, st, (loadedChildren [] nodes).map (⟨·, false⟩), []⟩

/-- Any node that is waiting is next. -/
inductive UStep (e : Env) : US → US → Prop
  | mk {s t w l r} : s.todo = l ++ w :: r → task e w { s with todo := l ++ r } = some t → UStep e s t

/-- The update accesses freed memory. -/
def UCrash (e : Env) (s : US) : Prop :=
  ∃ l w r, s.todo = l ++ w :: r ∧ task e w { s with todo := l ++ r } = none

/-- `n` steps of an update. -/
inductive URun (e : Env) (s : US) : Nat → US → Prop
  | start : URun e s 0 s
  | step {k t u} : URun e s k t → UStep e t u → URun e s (k + 1) u

/-! ## Specification -/

/-- The path and all directories above it are found in the new manifest. -/
def Kept (e : Env) (p : Path) : Prop :=
  ∀ q, q ≠ [] → q <+: p → e.ok q = true ∧ (locate e.new q).isSome

/-- What is known about the nodes before the update. -/
structure Before (e : Env) (N : Nodes) : Prop where
  inos : (N.map (·.ino)).Nodup
  tree : PInv N
  root : ∀ n ∈ N, n.ino = rootIno ↔ n.path = some []
  located : ∀ n ∈ N, ∀ p, n.path = some p → (locate e.old p).isSome

/-- A node whose description belongs to a list that a directory other than the root has fetched. -/
def InFetchedList (e : Env) (n : Node) : Prop :=
  ∃ p l q, n.path = some p ∧ locate e.old p = some l ∧ l.owner = some q ∧ q ≠ []

/-! ## Proofs -/

theorem foldl_locStep_none (p : Path) : p.foldl locStep none = none := by
  induction p with
  | nil => rfl
  | cons a l ih => exact ih

theorem foldl_locStep_path {root : Tree} {p : Path} {x : Path × Loc}
    (h : p.foldl locStep (some ([], ⟨root, none⟩)) = some x) : x.1 = p := by
  suffices ∀ (p : Path) (y : Path × Loc), p.foldl locStep (some y) = some x → x.1 = y.1 ++ p by
    simpa using this p _ h
  intro p
  induction p with
  | nil => intro y h; cases h; simp
  | cons a l ih =>
    intro y h
    rw [List.foldl_cons] at h
    cases hs : locStep (some y) a with
    | none => rw [hs, foldl_locStep_none] at h; cases h
    | some z =>
      rw [hs] at h
      rw [ih z h]
      simp only [locStep] at hs
      split at hs
      · cases hs
      · cases hs; simp

theorem locate_nil (root : Tree) : locate root [] = some ⟨root, none⟩ := rfl

theorem locate_snoc (root : Tree) (p : Path) (a : Name) :
    locate root (p ++ [a]) = match locate root p with
      | none => none
      | some l => match child l.tree a with
        | none => none
        | some (c, fetched) => some ⟨c, if fetched then some p else l.owner⟩ := by
  simp only [locate, List.foldl_append, List.foldl_cons, List.foldl_nil]
  cases h : p.foldl locStep (some ([], ⟨root, none⟩)) with
  | none => rfl
  | some x =>
    have := foldl_locStep_path h
    subst this
    simp only [locStep, Option.map_some]
    cases child x.2.tree a <;> rfl

theorem prefix_snoc {α} {q p : List α} {a : α} : q <+: p ++ [a] ↔ q <+: p ∨ q = p ++ [a] := by
  constructor
  · intro h
    rcases List.prefix_concat_iff.mp h with h | h
    · exact .inr h
    · exact .inl h
  · rintro (h | rfl)
    · exact h.trans (List.prefix_append ..)
    · exact List.prefix_refl _

theorem locate_prefix {root : Tree} {p q : Path} (h : (locate root p).isSome) (hq : q <+: p) :
    (locate root q).isSome := by
  obtain ⟨r, rfl⟩ := hq
  induction r using List.reverseRecOn with
  | nil => simpa using h
  | append_singleton r a ih =>
    apply ih
    rw [← List.append_assoc, locate_snoc] at h
    cases hl : locate root (q ++ r) with
    | none => rw [hl] at h; cases h
    | some _ => rfl

/-- The directory that has fetched the list is above the path. -/
theorem owner_prefix {root : Tree} {p q : Path} {l : Loc} (h : locate root p = some l)
    (ho : l.owner = some q) : ∃ a r, p = q ++ a :: r := by
  induction p using List.reverseRecOn generalizing l with
  | nil => rw [locate_nil] at h; cases h; cases ho
  | append_singleton p a ih =>
    rw [locate_snoc] at h
    cases hl : locate root p with
    | none => rw [hl] at h; cases h
    | some l0 =>
      rw [hl] at h
      simp only at h
      split at h
      · cases h
      · rename_i c fetched _
        cases h
        cases fetched with
        | true =>
          simp only [if_true, Option.some.injEq] at ho
          subst ho
          exact ⟨a, [], rfl⟩
        | false =>
          obtain ⟨b, r, e⟩ := ih hl ho
          exact ⟨b, r ++ [a], by rw [e]; simp⟩

theorem kept_nil (e : Env) : Kept e [] := by
  intro q h1 h2
  exact absurd (List.prefix_nil.mp h2) h1

theorem kept_snoc (e : Env) (p : Path) (a : Name) :
    Kept e (p ++ [a]) ↔ Kept e p ∧ e.ok (p ++ [a]) = true ∧ (locate e.new (p ++ [a])).isSome := by
  constructor
  · intro h
    exact ⟨fun q h1 h2 => h q h1 (prefix_snoc.mpr (.inl h2)), h _ (by simp) (List.prefix_refl _)⟩
  · rintro ⟨h1, h2⟩ q h3 h4
    rcases prefix_snoc.mp h4 with h | rfl
    · exact h1 q h3 h
    · exact h2

open Classical in
/-- A node after the update, where `D` is what has been done. -/
noncomputable def render (e : Env) (D : List Path) (n : Node) : Node :=
  { n with path := n.path.bind fun p => if p ∈ D ∧ ¬ Kept e p then none else some p }

open Classical in
/-- The invariant of the update: the state is determined by the set of paths that are done. -/
structure UInv (e : Env) (N : Nodes) (st0 : Ino → NState) (s : US) : Prop where
  nodes : s.nodes = N.map (render e s.freed)
  nodup : s.freed.Nodup
  done : ∀ p ∈ s.freed, p ≠ [] ∧ ∃ n ∈ N, n.path = some p
  closed : ∀ q a, q ++ [a] ∈ s.freed → q = [] ∨ q ∈ s.freed
  uniq : (s.todo.map (·.ino)).Nodup
  work : ∀ w ∈ s.todo, ∃ n ∈ N, n.ino = w.ino ∧ ∃ q a, n.path = some (q ++ [a]) ∧
    q ++ [a] ∉ s.freed ∧ (q = [] ∨ q ∈ s.freed) ∧ (w.inval = true ↔ ¬ Kept e q)
  cover : ∀ n ∈ N, ∀ q a, n.path = some (q ++ [a]) → (q = [] ∨ q ∈ s.freed) →
    q ++ [a] ∈ s.freed ∨ ∃ w ∈ s.todo, w.ino = n.ino
  stDone : ∀ n ∈ N, ∀ p ∈ s.freed, n.path = some p →
    s.st n.ino = if Kept e p then
        (match locate e.old p, locate e.new p with
        | some l, some l' => if e.same l.tree l'.tree then .updatedProto else .updated
        | _, _ => .invalid)
      else .invalid
  stElse : ∀ i, (∀ n ∈ N, n.ino = i → ∀ p ∈ s.freed, n.path ≠ some p) → s.st i = st0 i

theorem render_path {e : Env} {D : List Path} {n : Node} {p : Path} (h : n.path = some p) (hp : p ∉ D) :
    (render e D n).path = some p := by
  simp [render, h, hp]

theorem render_path_some {e : Env} {D : List Path} {n : Node} {p : Path}
    (h : (render e D n).path = some p) : n.path = some p := by
  simp only [render, Option.bind_eq_some_iff] at h
  obtain ⟨q, h1, h2⟩ := h
  split at h2
  · cases h2
  · cases h2; exact h1

theorem getNode_of_mem {s : Nodes} (h : (s.map (·.ino)).Nodup) {n : Node} (hn : n ∈ s) :
    getNode s n.ino = some n := by
  obtain ⟨m, hm, e, h'⟩ := getNode_some ⟨n, hn, rfl⟩
  rw [h', mem_unique h hm hn e]

theorem map_render_ino (e : Env) (D : List Path) (N : Nodes) :
    (N.map (render e D)).map (·.ino) = N.map (·.ino) := by
  rw [List.map_map]
  rfl

theorem isChild_iff {p : Path} {n : Node} : isChild p n = true ↔ ∃ b, n.path = some (p ++ [b]) := by
  simp only [isChild]
  split
  · rename_i h; simp [h]
  · rename_i q h
    rw [decide_eq_true_iff]
    constructor
    · rintro ⟨h1, h2⟩
      refine ⟨q.getLast h1, ?_⟩
      rw [h, ← h2, List.dropLast_concat_getLast]
    · rintro ⟨b, hb⟩
      rw [h] at hb
      cases hb
      simp

theorem UInv.closedPrefix {e : Env} {N : Nodes} {st0 : Ino → NState} {s : US} (h : UInv e N st0 s)
    {p q : Path} (hp : p ∈ s.freed) (hq : q ≠ []) (hqp : q <+: p) : q ∈ s.freed := by
  obtain ⟨r, rfl⟩ := hqp
  induction r using List.reverseRecOn with
  | nil => simpa using hp
  | append_singleton r a ih =>
    rw [← List.append_assoc] at hp
    rcases h.closed _ _ hp with h' | h'
    · exact absurd (List.append_eq_nil_iff.mp h').1 hq
    · exact ih h'

theorem UInv.start {e : Env} {N : Nodes} (hb : Before e N) (st0 : Ino → NState) :
    UInv e N st0 (US.start N st0) := by
  have hkids : ∀ i, i ∈ loadedChildren [] N ↔ ∃ n ∈ N, n.ino = i ∧ ∃ b, n.path = some [b] := by
    intro i
    simp only [loadedChildren, List.mem_map, List.mem_filter, isChild_iff, List.nil_append]
    constructor
    · rintro ⟨n, ⟨h1, h2⟩, h3⟩; exact ⟨n, h1, h3, h2⟩
    · rintro ⟨n, h1, h3, h2⟩; exact ⟨n, ⟨h1, h2⟩, h3⟩
  refine ⟨?_, List.nodup_nil, ?_, ?_, ?_, ?_, ?_, ?_, ?_⟩
  · show N = N.map (render e [])
    have : ∀ n ∈ N, render e [] n = n := by
      intro n _
      simp [render]
    rw [List.map_congr_left this, List.map_id']
  · intro p hp; cases hp
  · intro q a hp; cases hp
  · show (((loadedChildren [] N).map fun i => (⟨i, false⟩ : Work)).map (·.ino)).Nodup
    rw [List.map_map]
    have : ((fun x : Work => x.ino) ∘ fun i => (⟨i, false⟩ : Work)) = id := rfl
    rw [this, List.map_id]
    exact (List.filter_sublist.map _).nodup hb.inos
  · intro w hw
    obtain ⟨i, hi, rfl⟩ := List.mem_map.mp hw
    obtain ⟨n, h1, h2, b, h3⟩ := (hkids i).mp hi
    refine ⟨n, h1, h2, [], b, h3, by simp [US.start], .inl rfl, ?_⟩
    simp [kept_nil]
  · intro n hn q a hp hq
    rcases hq with rfl | hq
    · exact .inr ⟨⟨n.ino, false⟩, List.mem_map.mpr ⟨n.ino, (hkids _).mpr ⟨n, hn, rfl, a, hp⟩, rfl⟩, rfl⟩
    · cases hq
  · intro n hn p hp; cases hp
  · intro i _; rfl

open Classical in
/-- The choice between keeping and invalidating. -/
theorem choice_spec {e : Env} {q : Path} {a : Name} {b : Bool} (hb : b = true ↔ ¬ Kept e q) :
    (if b then none else if e.ok (q ++ [a]) then locate e.new (q ++ [a]) else none) =
      if Kept e (q ++ [a]) then locate e.new (q ++ [a]) else none := by
  by_cases hq : Kept e q
  · have hbf : b = false := by
      cases b
      · rfl
      · exact absurd hq (hb.mp rfl)
    rw [hbf]
    simp only [Bool.false_eq_true, if_false]
    by_cases ho : e.ok (q ++ [a]) = true
    · rw [if_pos ho]
      by_cases hl : (locate e.new (q ++ [a])).isSome
      · rw [if_pos ((kept_snoc e q a).mpr ⟨hq, ho, hl⟩)]
      · have : locate e.new (q ++ [a]) = none := by simpa using hl
        rw [this]; split <;> rfl
    · rw [if_neg ho, if_neg fun h => ho ((kept_snoc e q a).mp h).2.1]
  · rw [hb.mpr hq, if_neg fun h => hq ((kept_snoc e q a).mp h).1]
    rfl

/-- The effect of one task. -/
theorem task_spec {e : Env} {N : Nodes} {st0 : Ino → NState} {s : US} (hb : Before e N)
    (h : UInv e N st0 s) {l r : List Work} {w : Work} (hw : s.todo = l ++ w :: r) :
    (∃ n ∈ N, n.ino = w.ino ∧ InFetchedList e n ∧ task e w { s with todo := l ++ r } = none) ∨
    ∃ t, task e w { s with todo := l ++ r } = some t ∧ UInv e N st0 t ∧
      ∃ n ∈ N, ¬ InFetchedList e n ∧ ∃ p, n.path = some p ∧ t.freed = p :: s.freed := by
  classical
  obtain ⟨n, hn, hni, q, a, hnp, hnD, hqD, hinv⟩ := h.work w (by rw [hw]; simp)
  have hget : getNode s.nodes w.ino = some (render e s.freed n) := by
    rw [← hni, h.nodes]
    exact getNode_of_mem (n := render e s.freed n) (by rw [map_render_ino]; exact hb.inos)
      (List.mem_map.mpr ⟨n, hn, rfl⟩)
  obtain ⟨lo, hlo⟩ := Option.isSome_iff_exists.mp (hb.located n hn _ hnp)
  have hdrop : dropped lo.owner s.freed = true ↔ InFetchedList e n := by
    constructor
    · intro hd
      cases ho : lo.owner with
      | none => rw [ho] at hd; cases hd
      | some q' =>
        rw [ho] at hd
        have : q' ∈ s.freed := by simpa [dropped] using hd
        exact ⟨_, lo, q', hnp, hlo, ho, (h.done q' this).1⟩
    · rintro ⟨p', l', q', h1, h2, h3, h4⟩
      rw [hnp] at h1
      cases h1
      rw [hlo] at h2
      cases h2
      obtain ⟨b, r', e'⟩ := owner_prefix hlo h3
      have hpre : q' <+: q := by
        have h5 : q' <+: q ++ [a] := ⟨b :: r', e'.symm⟩
        rcases prefix_snoc.mp h5 with h6 | h6
        · exact h6
        · rw [h6] at e'
          have := congrArg List.length e'
          simp at this
      have hqf : q ∈ s.freed := by
        rcases hqD with rfl | hqD
        · exact absurd (List.prefix_nil.mp hpre) h4
        · exact hqD
      rw [h3]
      simpa [dropped] using h.closedPrefix hqf h4 hpre
  have hch := choice_spec (a := a) hinv
  by_cases hd : dropped lo.owner s.freed = true
  · refine .inl ⟨n, hn, hni, hdrop.mp hd, ?_⟩
    simp only [task, hget, render_path hnp hnD, hlo, hd, if_true]
  · right
    -- the children
    have hkids : ∀ i, i ∈ loadedChildren (q ++ [a]) s.nodes ↔
        ∃ m ∈ N, m.ino = i ∧ ∃ b, m.path = some (q ++ [a] ++ [b]) := by
      intro i
      rw [h.nodes]
      simp only [loadedChildren, List.mem_map, List.mem_filter, isChild_iff]
      constructor
      · rintro ⟨m', ⟨⟨m, hm, rfl⟩, b, hb'⟩, rfl⟩
        exact ⟨m, hm, rfl, b, render_path_some hb'⟩
      · rintro ⟨m, hm, rfl, b, hb'⟩
        refine ⟨_, ⟨⟨m, hm, rfl⟩, b, render_path hb' fun hD => ?_⟩, rfl⟩
        rcases h.closed _ _ hD with h' | h'
        · exact absurd h' (by simp)
        · exact hnD h'
    have hkn : (loadedChildren (q ++ [a]) s.nodes).Nodup := by
      refine (List.filter_sublist.map _).nodup ?_
      rw [h.nodes, map_render_ino]
      exact hb.inos
    have hother : ∀ m ∈ N, m.ino ≠ w.ino → m.path ≠ some (q ++ [a]) := by
      intro m hm hne hp
      rw [hb.tree.uniq m hm n hn _ hp hnp] at hne
      exact hne hni
    -- what the task yields, in both cases
    obtain ⟨t, ht, t1, t2, t3, t4⟩ : ∃ t, task e w { s with todo := l ++ r } = some t ∧
        t.nodes = N.map (render e ((q ++ [a]) :: s.freed)) ∧
        t.freed = (q ++ [a]) :: s.freed ∧
        t.todo = l ++ r ++ (loadedChildren (q ++ [a]) s.nodes).map
          (fun i => ⟨i, decide (¬ Kept e (q ++ [a]))⟩) ∧
        t.st = fun i => if i = w.ino then (if Kept e (q ++ [a]) then
            (match locate e.old (q ++ [a]), locate e.new (q ++ [a]) with
            | some l, some l' => if e.same l.tree l'.tree then .updatedProto else .updated
            | _, _ => .invalid)
          else .invalid) else s.st i := by
      by_cases hk : Kept e (q ++ [a])
      · obtain ⟨ln, hln⟩ := Option.isSome_iff_exists.mp ((kept_snoc e q a).mp hk).2.2
        rw [if_pos hk] at hch
        have hch := hch.trans hln
        refine ⟨_, by simp only [task, hget, render_path hnp hnD, hlo, hd, hch]; rfl, ?_, rfl, ?_, ?_⟩
        · rw [h.nodes]
          apply List.map_congr_left
          intro m hm
          simp only [render, Node.mk.injEq, true_and, and_true]
          cases hmp : m.path with
          | none => rfl
          | some p' =>
            simp only [Option.bind_some, List.mem_cons]
            by_cases e1 : p' = q ++ [a]
            · simp [e1, hk]
            · simp [e1]
        · simp [hk]
        · funext i
          simp [hk, hlo, hln]
      · rw [if_neg hk] at hch
        refine ⟨_, by simp only [task, hget, render_path hnp hnD, hlo, hd, hch]; rfl, ?_, rfl, ?_, ?_⟩
        · rw [h.nodes, modify, List.map_map]
          apply List.map_congr_left
          intro m hm
          simp only [Function.comp]
          by_cases hm' : m.ino = w.ino
          · have := mem_unique hb.inos hm hn (hm'.trans hni.symm)
            subst this
            have hino : (render e s.freed m).ino = w.ino := hm'
            rw [if_pos hino]
            simp [render, hnp, hk]
          · have hino : ¬ (render e s.freed m).ino = w.ino := hm'
            rw [if_neg hino]
            simp only [render, Node.mk.injEq, true_and, and_true]
            cases hmp : m.path with
            | none => rfl
            | some p' =>
              have : p' ≠ q ++ [a] := fun e1 => hother m hm hm' (e1 ▸ hmp)
              simp [this]
        · simp [hk]
        · funext i
          simp [hk]
    refine ⟨t, ht, ?_, n, hn, fun h' => hd (hdrop.mpr h'), _, hnp, t2⟩
    have htodo : ∀ w' ∈ l ++ r, w' ∈ s.todo ∧ w'.ino ≠ w.ino := by
      intro w' hw'
      refine ⟨?_, fun e1 => ?_⟩
      · rw [hw]
        simp only [List.mem_append, List.mem_cons] at hw' ⊢
        rcases hw' with h' | h'
        · exact .inl h'
        · exact .inr (.inr h')
      · have hu := h.uniq
        rw [hw, List.map_append, List.map_cons, List.perm_middle.nodup_iff, List.nodup_cons] at hu
        apply hu.1
        rw [← List.map_append, ← e1]
        exact List.mem_map.mpr ⟨w', hw', rfl⟩
    refine ⟨by rw [t1, t2], ?_, ?_, ?_, ?_, ?_, ?_, ?_, ?_⟩
    · rw [t2, List.nodup_cons]
      exact ⟨hnD, h.nodup⟩
    · rw [t2]
      intro p hp
      rcases List.mem_cons.mp hp with rfl | hp
      · exact ⟨by simp, n, hn, hnp⟩
      · exact h.done p hp
    · rw [t2]
      intro q' a' hp
      rcases List.mem_cons.mp hp with e1 | hp
      · obtain ⟨rfl, _⟩ := List.append_inj' e1 rfl
        rcases hqD with h' | h'
        · exact .inl h'
        · exact .inr (List.mem_cons_of_mem _ h')
      · rcases h.closed _ _ hp with h' | h'
        · exact .inl h'
        · exact .inr (List.mem_cons_of_mem _ h')
    · rw [t3, List.map_append, List.nodup_append]
      refine ⟨?_, ?_, ?_⟩
      · have hu := h.uniq
        rw [hw, List.map_append, List.map_cons, List.perm_middle.nodup_iff, List.nodup_cons] at hu
        rw [List.map_append]
        exact hu.2
      · rw [List.map_map]
        have : ((fun x : Work => x.ino) ∘ fun i => (⟨i, decide (¬ Kept e (q ++ [a]))⟩ : Work)) = id := rfl
        rw [this, List.map_id]
        exact hkn
      · intro x hx y hy exy
        subst exy
        rw [List.map_map] at hy
        have : ((fun x : Work => x.ino) ∘ fun i => (⟨i, decide (¬ Kept e (q ++ [a]))⟩ : Work)) = id := rfl
        rw [this, List.map_id, hkids] at hy
        obtain ⟨m, hm, hmi, b, hmp⟩ := hy
        obtain ⟨w', hw', rfl⟩ := List.mem_map.mp hx
        obtain ⟨m2, hm2, hmi2, q', a', hp', _, hq', _⟩ := h.work w' (htodo w' hw').1
        have := mem_unique hb.inos hm2 hm (hmi2.trans hmi.symm)
        subst this
        rw [hmp, Option.some.injEq] at hp'
        obtain ⟨rfl, _⟩ := List.append_inj' hp' rfl
        rcases hq' with h' | h'
        · exact absurd h' (by simp)
        · exact hnD h'
    · intro w' hw'
      rw [t3, List.mem_append] at hw'
      rw [t2]
      rcases hw' with hw' | hw'
      · obtain ⟨h1, h2⟩ := htodo w' hw'
        obtain ⟨m, hm, hmi, q', a', hp', c1, c2, c3⟩ := h.work w' h1
        refine ⟨m, hm, hmi, q', a', hp', ?_, ?_, c3⟩
        · intro h'
          rcases List.mem_cons.mp h' with e1 | h'
          · exact hother m hm (hmi ▸ h2) (e1 ▸ hp')
          · exact c1 h'
        · rcases c2 with h' | h'
          · exact .inl h'
          · exact .inr (List.mem_cons_of_mem _ h')
      · obtain ⟨i, hi, rfl⟩ := List.mem_map.mp hw'
        obtain ⟨m, hm, hmi, b, hmp⟩ := (hkids i).mp hi
        refine ⟨m, hm, hmi, q ++ [a], b, hmp, ?_, .inr (List.mem_cons_self ..), by simp⟩
        intro h'
        rcases List.mem_cons.mp h' with e1 | h'
        · have := congrArg List.length e1
          simp at this
        · rcases h.closed _ _ h' with h'' | h''
          · exact absurd h'' (by simp)
          · exact hnD h''
    · intro m hm q' a' hp hq'
      rw [t2] at hq' ⊢
      rw [t3]
      have hcase : q' = q ++ [a] ∨ (q' = [] ∨ q' ∈ s.freed) := by
        rcases hq' with h' | h'
        · exact .inr (.inl h')
        · rcases List.mem_cons.mp h' with h' | h'
          · exact .inl h'
          · exact .inr (.inr h')
      rcases hcase with rfl | hq'
      · exact .inr ⟨_, List.mem_append.mpr (.inr (List.mem_map.mpr
          ⟨m.ino, (hkids _).mpr ⟨m, hm, rfl, a', hp⟩, rfl⟩)), rfl⟩
      · rcases h.cover m hm q' a' hp hq' with h' | ⟨w', hw', e1⟩
        · exact .inl (List.mem_cons_of_mem _ h')
        · rw [hw, List.mem_append, List.mem_cons] at hw'
          rcases hw' with h' | rfl | h'
          · exact .inr ⟨w', List.mem_append.mpr (.inl (List.mem_append.mpr (.inl h'))), e1⟩
          · have := mem_unique hb.inos hm hn (e1.symm.trans hni.symm)
            subst this
            rw [hnp, Option.some.injEq] at hp
            rw [← hp]
            exact .inl (List.mem_cons_self ..)
          · exact .inr ⟨w', List.mem_append.mpr (.inl (List.mem_append.mpr (.inr h'))), e1⟩
    · intro m hm p hp hmp
      rw [t2] at hp
      rw [t4]
      by_cases hm' : m.ino = w.ino
      · have := mem_unique hb.inos hm hn (hm'.trans hni.symm)
        subst this
        rw [hnp, Option.some.injEq] at hmp
        subst hmp
        simp only [hm', if_true]
      · simp only [if_neg hm']
        rcases List.mem_cons.mp hp with rfl | hp
        · exact absurd hmp (hother m hm hm')
        · exact h.stDone m hm p hp hmp
    · intro i hi
      rw [t2] at hi
      rw [t4]
      have hiw : i ≠ w.ino := fun e1 => hi n hn (hni.trans e1.symm) _ (List.mem_cons_self ..) hnp
      simp only [if_neg hiw]
      exact h.stElse i fun m hm hmi p hp => hi m hm hmi p (List.mem_cons_of_mem _ hp)

theorem URun.inv {e : Env} {N : Nodes} {st0 : Ino → NState} (hb : Before e N) {k : Nat} {s : US}
    (h : URun e (US.start N st0) k s) : UInv e N st0 s ∧ s.freed.length = k := by
  induction h with
  | start => exact ⟨.start hb st0, rfl⟩
  | step _ hs ih =>
    obtain ⟨h1, h2⟩ := hs
    rcases task_spec hb ih.1 h1 with ⟨_, _, _, _, h3⟩ | ⟨t, h3, h4, h5⟩
    · rw [h2] at h3; cases h3
    · rw [h2] at h3
      cases h3
      obtain ⟨_, _, _, _, _, h6⟩ := h5
      exact ⟨h4, by rw [h6, List.length_cons, ih.2]⟩

/-- At the end everything has been done. -/
theorem UInv.all {e : Env} {N : Nodes} {st0 : Ino → NState} {s : US} (hb : Before e N)
    (h : UInv e N st0 s) (ht : s.todo = []) {n : Node} (hn : n ∈ N) {p : Path} (hp : n.path = some p)
    (hne : p ≠ []) : p ∈ s.freed := by
  induction p using List.reverseRecOn generalizing n with
  | nil => exact absurd rfl hne
  | append_singleton q a ih =>
    have hr : n.ino ≠ rootIno := fun e1 => by
      rw [(hb.root n hn).mp e1, Option.some.injEq] at hp
      exact hne hp.symm
    obtain ⟨q', a', e1, m, hm, _, hmp⟩ := hb.tree.up n hn hr _ hp
    obtain ⟨rfl, _⟩ := List.append_inj' e1 rfl
    have hq : q = [] ∨ q ∈ s.freed := by
      by_cases hq : q = []
      · exact .inl hq
      · exact .inr (ih hm hmp hq)
    rcases h.cover n hn q a hp hq with h' | ⟨w, hw, _⟩
    · exact h'
    · rw [ht] at hw; cases hw

theorem UInv.freed_le {e : Env} {N : Nodes} {st0 : Ino → NState} {s : US} (h : UInv e N st0 s) :
    s.freed.length ≤ N.length := by
  have h1 : s.freed.length ≤ (N.filterMap (·.path)).length := by
    refine (List.subperm_of_subset h.nodup (fun p hp => ?_)).length_le
    obtain ⟨_, n, hn, e1⟩ := h.done p hp
    exact List.mem_filterMap.mpr ⟨n, hn, e1⟩
  exact Nat.le_trans h1 (List.length_filterMap_le _ _)

/-- **C65** is false of the code.  If the kernel knows a file or directory whose description is in a
list that a directory other than the root has fetched, every update of the manifest, in every order
of its tasks, accesses memory that has been freed: no update gets to its end without doing so.  (The
directory drops its lists before the nodes below it are updated.)  The list of the root's entries is
kept until the end; `C65_safe_partial` says that this is the only case. -/
theorem C65_use_after_free_violated {e : Env} {N : Nodes} (hb : Before e N) (st0 : Ino → NState)
    {n : Node} (hn : n ∈ N) (hf : InFetchedList e n) {k : Nat} {s : US}
    (h : URun e (US.start N st0) k s) : s.todo ≠ [] ∧ k ≤ N.length := by
  obtain ⟨h1, h2⟩ := h.inv hb
  refine ⟨fun ht => ?_, h2 ▸ h1.freed_le⟩
  obtain ⟨p, l, q, hp, hl, ho, hq⟩ := hf
  obtain ⟨b, r, e1⟩ := owner_prefix hl ho
  have hne : p ≠ [] := by rw [e1]; simp
  -- the step that has done this node would have crashed
  have key : ∀ {k : Nat} {s : US}, URun e (US.start N st0) k s → p ∉ s.freed := by
    intro k s h
    induction h with
    | start => exact fun h' => by cases h'
    | step hr hs ih =>
      obtain ⟨g1, g2⟩ := hs
      rename_i s1 t1 w l1 r1
      obtain ⟨i1, _⟩ := hr.inv hb
      rcases task_spec hb i1 g1 with ⟨_, _, _, _, g3⟩ | ⟨t, g3, g4, g5⟩
      · rw [g2] at g3; cases g3
      · rw [g2] at g3
        cases g3
        obtain ⟨m, hm, hmf, p', hmp, hfr⟩ := g5
        rw [hfr]
        intro h'
        rcases List.mem_cons.mp h' with rfl | h'
        · rw [hb.tree.uniq m hm n hn _ hmp hp] at hmf
          exact hmf ⟨_, l, q, hp, hl, ho, hq⟩
        · exact ih h'
  exact key h (h1.all hb ht hn hp hne)

/-- **C65**, the part that holds: if no node is described in such a list, no update accesses freed
memory or fails an assertion, in any order of its tasks.  Missing: nodes described in such lists,
for which this is false. -/
theorem C65_safe_partial {e : Env} {N : Nodes} (hb : Before e N) (st0 : Ino → NState)
    (hf : ∀ n ∈ N, ¬ InFetchedList e n) {k : Nat} {s : US} (h : URun e (US.start N st0) k s) :
    ¬ UCrash e s ∧ k ≤ N.length := by
  obtain ⟨h1, h2⟩ := h.inv hb
  refine ⟨?_, h2 ▸ h1.freed_le⟩
  rintro ⟨l, w, r, g1, g2⟩
  rcases task_spec hb h1 g1 with ⟨n, hn, _, h3, _⟩ | ⟨t, h3, _⟩
  · exact hf n hn h3
  · rw [g2] at h3; cases h3

open Classical in
/-- **C65**, the result: when an update is complete, the nodes are the same as before, with the same
addresses, parents and counters.  A node is valid if and only if it was and its path is found in the
new manifest, including the directories above it; it then has the path it had before, and it is
marked as changed exactly if its description has changed.  All other nodes are invalid.  (Only for
updates that do not access freed memory, see `C65_use_after_free_violated`.) -/
theorem C65_result_partial {e : Env} {N : Nodes} (hb : Before e N) (st0 : Ino → NState)
    {k : Nat} {s : US} (h : URun e (US.start N st0) k s) (ht : s.todo = []) :
    s.nodes = N.map (fun n => { n with path := n.path.bind fun p => if Kept e p then some p else none }) ∧
    ∀ n ∈ N, n.ino ≠ rootIno → ∀ p, n.path = some p → ∃ l, locate e.old p = some l ∧
      (Kept e p → ∃ l', locate e.new p = some l' ∧
        s.st n.ino = if e.same l.tree l'.tree then .updatedProto else .updated) ∧
      (¬ Kept e p → s.st n.ino = .invalid) := by
  obtain ⟨h1, _⟩ := h.inv hb
  constructor
  · rw [h1.nodes]
    apply List.map_congr_left
    intro n hn
    simp only [render, Node.mk.injEq, true_and, and_true]
    cases hp : n.path with
    | none => rfl
    | some p =>
      simp only [Option.bind_some]
      by_cases hne : p = []
      · subst hne
        simp [kept_nil]
      · simp only [h1.all hb ht hn hp hne, true_and]
        by_cases hk : Kept e p <;> simp [hk]
  · intro n hn hr p hp
    have hne : p ≠ [] := fun e1 => hr ((hb.root n hn).mpr (e1 ▸ hp))
    obtain ⟨l, hl⟩ := Option.isSome_iff_exists.mp (hb.located n hn p hp)
    have hst := h1.stDone n hn p (h1.all hb ht hn hp hne) hp
    refine ⟨l, hl, fun hk => ?_, fun hk => ?_⟩
    · obtain ⟨l', hl'⟩ := Option.isSome_iff_exists.mp (hk p hne (List.prefix_refl _)).2
      refine ⟨l', hl', ?_⟩
      rw [hst, if_pos hk, hl, hl']
    · rw [hst, if_neg hk]

/-- If all lists can be fetched, a node stays valid if and only if the new manifest has its path. -/
theorem kept_iff {e : Env} (hok : ∀ p, e.ok p = true) {p : Path} :
    Kept e p ↔ (locate e.new p).isSome := by
  constructor
  · intro h
    by_cases hp : p = []
    · subst hp; rfl
    · exact (h p hp (List.prefix_refl _)).2
  · intro h q _ hq
    exact ⟨hok q, locate_prefix h hq⟩

/-- **C65**, a consequence of a failure to fetch: a file that is in both manifests is made invalid,
and so is everything below a directory for which this happens.  (Its node stays invalid for ever:
no update looks at invalid nodes.) -/
theorem C65_fetch_failure_violated {e : Env} {N : Nodes} (hb : Before e N) (st0 : Ino → NState)
    {k : Nat} {s : US} (h : URun e (US.start N st0) k s) (ht : s.todo = []) {n : Node} (hn : n ∈ N)
    {p q : Path} (hp : n.path = some (p ++ q)) (hne : p ≠ []) (hfail : e.ok p = false) :
    ∃ n' ∈ s.nodes, n'.ino = n.ino ∧ n'.path = none := by
  classical
  have hk : ¬ Kept e (p ++ q) := fun hk => by
    have := (hk p hne (List.prefix_append ..)).1
    rw [hfail] at this
    cases this
  rw [(C65_result_partial hb st0 h ht).1]
  refine ⟨_, List.mem_map.mpr ⟨n, hn, rfl⟩, rfl, ?_⟩
  simp [hp, hk]

/-- What holds before an update holds after it for the next one. -/
theorem Before.next {e : Env} {N : Nodes} (hb : Before e N) (st0 : Ino → NState) {k : Nat} {s : US}
    (h : URun e (US.start N st0) k s) (ht : s.todo = []) (e' : Env) (he : e'.old = e.new) :
    Before e' s.nodes := by
  classical
  have hk : ∀ (n : Node) (p : Path), (n.path.bind fun p => if Kept e p then some p else none) = some p ↔
      n.path = some p ∧ Kept e p := by
    intro n p
    rw [Option.bind_eq_some_iff]
    constructor
    · rintro ⟨q, h1, h2⟩
      split at h2
      · rename_i hx; cases h2; exact ⟨h1, hx⟩
      · cases h2
    · rintro ⟨h1, h2⟩
      exact ⟨p, h1, if_pos h2⟩
  rw [(C65_result_partial hb st0 h ht).1]
  refine ⟨?_, ⟨?_, ?_⟩, ?_, ?_⟩
  · rw [List.map_map]
    exact hb.inos
  · intro m' hm' n' hn' p h1 h2
    obtain ⟨m, hm, rfl⟩ := List.mem_map.mp hm'
    obtain ⟨n, hn, rfl⟩ := List.mem_map.mp hn'
    rw [hb.tree.uniq m hm n hn p ((hk _ _).mp h1).1 ((hk _ _).mp h2).1]
  · intro n' hn' hr p h1
    obtain ⟨n, hn, rfl⟩ := List.mem_map.mp hn'
    obtain ⟨g1, g2⟩ := (hk _ _).mp h1
    obtain ⟨q, a, e1, m, hm, b1, b2⟩ := hb.tree.up n hn hr p g1
    refine ⟨q, a, e1, _, List.mem_map.mpr ⟨m, hm, rfl⟩, b1, (hk _ _).mpr ⟨b2, ?_⟩⟩
    rw [e1] at g2
    exact ((kept_snoc e q a).mp g2).1
  · intro n' hn'
    obtain ⟨n, hn, rfl⟩ := List.mem_map.mp hn'
    rw [show ({ n with path := n.path.bind fun p => if Kept e p then some p else none } : Node).ino = n.ino
      from rfl, hb.root n hn]
    show _ ↔ (n.path.bind fun p => if Kept e p then some p else none) = some []
    rw [hk]
    exact ⟨fun h' => ⟨h', kept_nil e⟩, fun h' => h'.1⟩
  · intro n' hn' p h1
    obtain ⟨n, hn, rfl⟩ := List.mem_map.mp hn'
    obtain ⟨g1, g2⟩ := (hk _ _).mp h1
    rw [he]
    by_cases hp : p = []
    · subst hp; rfl
    · exact (g2 p hp (List.prefix_refl _)).2

/-- The nodes after any history of requests meet the assumptions, if the requests have been answered
from the old manifest. -/
theorem Reach.before {K : Kinds} {s : State} (h : Reach K s) (e : Env)
    (hl : ∀ n ∈ s.nodes, ∀ p, n.path = some p → (locate e.old p).isSome) : Before e s.nodes := by
  refine ⟨h.inv.inv.inos, h.pinv, fun n hn => ⟨fun e1 => (h.inv.root n hn e1).2, fun e1 => ?_⟩, hl⟩
  obtain ⟨r, hr, e2⟩ := h.inv.hasRoot
  rw [← h.pinv.uniq r hr n hn [] (h.inv.root r hr e2).2 e1, e2]

/-! ## Examples -/

/-- A directory `d` with one file `f`, which is in an indirect list or not. -/
def exTree (fetched : Bool) (data : Nat) : Tree :=
  let f : Name × Tree := ([102], .mk false data [] [])
  .mk true 0 [([100], .mk true 0 (if fetched then [] else [f]) (if fetched then [[f]] else []))] []

def exNodes : Nodes :=
  [⟨32, 16, some [[100], [102]], 1, 0⟩, ⟨16, 1, some [[100]], 1, 1⟩, ⟨1, 1, some [], 1, 1⟩]

def exEnv (fetched : Bool) : Env := ⟨exTree fetched 1, exTree fetched 2, fun a b => match a, b with
  | .mk d x _ _, .mk d' x' _ _ => d = d' ∧ x = x', fun _ => true⟩

theorem exBefore (fetched : Bool) : Before (exEnv fetched) exNodes := by
  refine ⟨by decide, ⟨?_, ?_⟩, by decide, ?_⟩
  · simp [exNodes]
  · simp [exNodes, rootIno]
  · intro n hn p hp
    simp only [exNodes, List.mem_cons, List.not_mem_nil, or_false] at hn
    rcases hn with rfl | rfl | rfl <;> cases hp <;> cases fetched <;> decide

/-- The file is described in a list that `d` has fetched: after the step for `d` the step for the
file crashes. -/
example : InFetchedList (exEnv true) ⟨32, 16, some [[100], [102]], 1, 0⟩ :=
  ⟨[[100], [102]], ⟨.mk false 1 [] [], some [[100]]⟩, [[100]], rfl, rfl, rfl, by decide⟩

example : ∃ s, URun (exEnv true) (US.start exNodes fun _ => .initialized) 1 s ∧ UCrash (exEnv true) s :=
  ⟨_, .step .start (.mk (l := []) (r := []) rfl rfl), [], ⟨32, false⟩, [], rfl, rfl⟩

/-- Otherwise the update gets to its end, and the file is marked as changed. -/
example : ∃ s, URun (exEnv false) (US.start exNodes fun _ => .initialized) 2 s ∧ s.todo = [] ∧
    s.st 32 = .updated ∧ s.st 16 = .updatedProto :=
  ⟨_, .step (.step .start (.mk (l := []) (r := []) rfl rfl)) (.mk (l := []) (r := []) rfl rfl), rfl, rfl, rfl⟩

end Verif.FuseFs
