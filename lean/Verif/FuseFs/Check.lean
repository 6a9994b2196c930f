import Verif.FuseFs.Update

/-!
# The file system's examination of itself (C189, C190): cdc_fuse_fs/cdc_fuse_fs.cc

With `--check` the file system examines its nodes after each manifest update (`CheckFUSEConsistency`,
cdc_fuse_fs.cc:1225-1347) and logs what it finds.  The examination of a single entry
(`Asset::IsConsistent`) is C144.  The texts are not modelled, only whether there is a warning.
-/

namespace Verif.FuseFs.Check
open Verif.FuseFs

/-! ## Model: the examination -/

/-- `Inode` (cdc_fuse_fs.cc:76-103).  `P` are the addresses of descriptions (`AssetProto`).  `loaded`:
`asset.GetLoadedChildProtos()` (asset.cc:63-74); `consistent`: `asset.IsConsistent()` (C144). -/
structure Obj (P : Type) where
  ino : Ino
  parent : Ino
  proto : Option P
  state : NState
  nlookup : Nat
  kids : Nat
  loaded : List P
  consistent : Bool

/-- What the examination looks at: `ctx->root`, `ctx->inodes`, the size of `ctx->invalid_inodes`, the
node at each address (none: there is none), `&ctx->manifest->root_dir()`, and whether a description is
one of a directory. -/
structure Mem (P : Type) where
  root : Obj P
  inodes : List (P × Obj P)
  invalid : Nat
  heap : Ino → Option (Obj P)
  rootDir : P
  isDir : P → Bool

variable {P : Type} [DecidableEq P]

/-- `GetInode` (cdc_fuse_fs.cc:234-242). -/
def Mem.get (m : Mem P) (i : Ino) : Option (Obj P) := if i = rootIno then some m.root else m.heap i

/-- `ctx->inodes.find(proto)`. -/
def Mem.find (m : Mem P) (k : P) : Option (Obj P) := (m.inodes.find? (·.1 = k)).map (·.2)

/-- `kUpdatedProto` or `kUpdated`. -/
def isNew (s : NState) : Bool := s = .updatedProto || s = .updated

/-- Step I, cdc_fuse_fs.cc:1232-1239: a warning about the root. -/
def rootBad (m : Mem P) : Bool := m.root.parent ≠ rootIno || m.root.state = .invalid || m.root.state = .initialized

/-- Step II, cdc_fuse_fs.cc:1251-1257: the number of nodes has changed. -/
def sizeBad (m : Mem P) (before : Nat) : Bool := before ≠ m.inodes.length + m.invalid

/-- Step III, cdc_fuse_fs.cc:1262-1297, 1056-1082: a node has not been updated, or its description is
not the one under which it is found. -/
def entriesBad (m : Mem P) : Bool := m.inodes.any fun x => match x.2.state with
  | .initialized => true
  | .updatedProto | .updated => x.2.proto ≠ some x.1
  | .invalid => x.2.proto ≠ none

/-- `inodes_to_check` after step III. -/
def toCheck (m : Mem P) : List (Obj P) := (m.inodes.map (·.2)).filter fun o => isNew o.state

/-- Step IV, the loop of `CheckConsistencyInodesHierarchy` (cdc_fuse_fs.cc:1128-1151) from a queue, the
visited nodes and whether there was a warning.  `none`: an access to something that does not exist. -/
inductive Climb (m : Mem P) : List (Obj P) → List Ino → Bool → Option (List Ino × Bool) → Prop
  | done {v b} : Climb m [] v b (some (v, b))
  | seen {o q v b r} : o.ino ∈ v → Climb m q v b r → Climb m (o :: q) v b r
  | lost {o q v b} : o.ino ∉ v → m.get o.parent = none → Climb m (o :: q) v b none
  | nameless {o q v b p} : o.ino ∉ v → m.get o.parent = some p → p.state = .invalid → o.proto = none →
      Climb m (o :: q) v b none
  | invalid {o q v b p r} : o.ino ∉ v → m.get o.parent = some p → p.state = .invalid → o.proto ≠ none →
      Climb m q (o.ino :: v) true r → Climb m (o :: q) v b r
  | known {o q v b p r} : o.ino ∉ v → m.get o.parent = some p → p.state ≠ .invalid → p.ino ∈ o.ino :: v →
      Climb m q (o.ino :: v) b r → Climb m (o :: q) v b r
  | up {o q v b p r} : o.ino ∉ v → m.get o.parent = some p → p.state ≠ .invalid → p.ino ∉ o.ino :: v →
      Climb m (q ++ [p]) (o.ino :: v) b r → Climb m (o :: q) v b r

/-- Step V, the loop of `CheckProtoReachability` (cdc_fuse_fs.cc:1190-1204): all descriptions that are
found from the root.  `none`: an access to something that does not exist. -/
inductive Collect (m : Mem P) : List P → List P → Option (List P) → Prop
  | done {acc} : Collect m [] acc (some acc)
  | unknown {k q acc r} : m.find k = none → Collect m q acc r → Collect m (k :: q) acc r
  | null {k q acc o} : m.find k = some o → o.proto = none → Collect m (k :: q) acc none
  | file {k q acc o d r} : m.find k = some o → o.proto = some d → m.isDir d = false → Collect m q acc r →
      Collect m (k :: q) acc r
  | dir {k q acc o d r} : m.find k = some o → o.proto = some d → m.isDir d = true →
      Collect m (q ++ o.loaded) (acc ++ o.loaded) r → Collect m (k :: q) acc r

/-- The nodes left for step VI, cdc_fuse_fs.cc:1171-1176, 1206-1215, 1303-1315. -/
def reachable (m : Mem P) (acc : List P) : List (Obj P) :=
  ((m.inodes.filter fun x => isNew x.2.state && decide (x.1 ∈ acc)).map (·.2)) ++
    if m.root.proto = some m.rootDir then [m.root] else []

/-- Step V, cdc_fuse_fs.cc:1171-1176, 1206-1218. -/
def reachBad (m : Mem P) (acc : List P) : Bool := m.root.proto ≠ some m.rootDir || m.inodes.any fun x => x.1 ∉ acc

/-- Step VI, `CheckConsistencyIndividualInodes` (cdc_fuse_fs.cc:1094-1115). -/
def soloBad (l : List (Obj P)) : Bool := l.any fun o => !o.consistent || o.nlookup + o.kids = 0

/-- What comes out: a log message that all is well, one with warnings, or the end of the program. -/
inductive Verdict
  | success | warning | ended
  deriving DecidableEq

/-- cdc_fuse_fs.cc:1231-1346: the warnings of the first two steps are appended to a JSON value, which
makes it an array; those of the other steps are its members.  A value that has been made an array has no
members: jsoncpp's `operator[]` throws an exception, which nobody catches. -/
def verdict (array members : Bool) : Verdict :=
  if array && members then .ended else if array || members then .warning else .success

/-- `CheckFUSEConsistency` (cdc_fuse_fs.cc:1225-1347); `before` is the number of nodes before the update. -/
inductive Examine (m : Mem P) (before : Nat) : Verdict → Prop
  | climb : Climb m (toCheck m) [] false none → Examine m before .ended
  | collect : Collect m m.root.loaded m.root.loaded none → Examine m before .ended
  | solo {acc o} : Collect m m.root.loaded m.root.loaded (some acc) → o ∈ reachable m acc → o.proto = none → Examine m before .ended
  | mk {v b acc} : Climb m (toCheck m) [] false (some (v, b)) → Collect m m.root.loaded m.root.loaded (some acc) →
      (∀ o ∈ reachable m acc, o.proto ≠ none) →
      Examine m before (verdict (rootBad m || sizeBad m before)
        (entriesBad m || (b || (v ≠ [] && rootIno ∉ v)) || reachBad m acc || soloBad (reachable m acc)))

/-! ## Specification -/

/-- A description that is reached from the root through directories. -/
inductive InManifest (m : Mem P) : P → Prop
  | root {k} : k ∈ m.root.loaded → InManifest m k
  | child {k o d c} : InManifest m k → m.find k = some o → o.proto = some d → m.isDir d = true → c ∈ o.loaded → InManifest m c

/-- A node in the table, or one above it. -/
inductive Above (m : Mem P) : Obj P → Prop
  | self {k o} : (k, o) ∈ m.inodes → Above m o
  | parent {o p} : Above m o → m.get o.parent = some p → Above m p

/-- The file system is in order. -/
structure Healthy (m : Mem P) (before : Nat) : Prop where
  rootParent : m.root.parent = rootIno
  rootState : m.root.state = .updatedProto ∨ m.root.state = .updated
  rootProto : m.root.proto = some m.rootDir
  /-- no node is lost -/
  number : m.inodes.length + m.invalid = before
  /-- every node has been given a new description, under which it is found -/
  entries : ∀ k o, (k, o) ∈ m.inodes → (o.state = .updatedProto ∨ o.state = .updated) ∧ o.proto = some k
  /-- which is part of the new manifest -/
  manifest : ∀ k o, (k, o) ∈ m.inodes → InManifest m k
  /-- every node is below valid nodes -/
  above : ∀ o, Above m o → ∃ p, m.get o.parent = some p ∧ p.state ≠ .invalid
  rooted : m.inodes ≠ [] → ∃ o, Above m o ∧ o.ino = rootIno
  /-- every node is one the kernel refers to, or above one, and makes sense by itself -/
  solo : ∀ o, (∃ k, (k, o) ∈ m.inodes) ∨ o = m.root → o.consistent = true ∧ 0 < o.nlookup + o.kids

/-! ## Proofs: what the examination means -/

theorem climb_above {m : Mem P} {q : List (Obj P)} {v : List Ino} {b : Bool} {r} (h : Climb m q v b r)
    (hab : ∀ o, Above m o → ∃ p, m.get o.parent = some p ∧ p.state ≠ .invalid) (hq : ∀ o ∈ q, Above m o) :
    ∃ v', r = some (v', b) := by
  induction h with
  | done => exact ⟨_, rfl⟩
  | seen _ _ ih => exact ih fun o ho => hq o (List.mem_cons_of_mem _ ho)
  | lost _ h1 =>
    obtain ⟨p, h2, _⟩ := hab _ (hq _ (List.mem_cons_self ..))
    rw [h1] at h2; cases h2
  | nameless _ h1 h3 =>
    obtain ⟨p, h2, h4⟩ := hab _ (hq _ (List.mem_cons_self ..))
    rw [h1] at h2; cases h2; exact absurd h3 h4
  | invalid _ h1 h3 =>
    obtain ⟨p, h2, h4⟩ := hab _ (hq _ (List.mem_cons_self ..))
    rw [h1] at h2; cases h2; exact absurd h3 h4
  | known _ _ _ _ _ ih => exact ih fun o ho => hq o (List.mem_cons_of_mem _ ho)
  | up _ h1 _ _ _ ih =>
    apply ih
    intro o ho
    rcases List.mem_append.mp ho with ho | ho
    · exact hq o (List.mem_cons_of_mem _ ho)
    · obtain rfl := List.mem_singleton.mp ho
      exact .parent (hq _ (List.mem_cons_self ..)) h1

/-- A warning stays. -/
theorem climb_mono {m : Mem P} {q : List (Obj P)} {v : List Ino} {b : Bool} {r} (h : Climb m q v b r)
    {v' : List Ino} {b' : Bool} (hr : r = some (v', b')) : (b = true → b' = true) ∧ ∀ i ∈ v, i ∈ v' := by
  induction h with
  | done => cases hr; exact ⟨id, fun _ h => h⟩
  | seen _ _ ih => exact ih hr
  | lost => cases hr
  | nameless => cases hr
  | invalid _ _ _ _ _ ih => exact ⟨fun _ => (ih hr).1 rfl, fun i hi => (ih hr).2 i (List.mem_cons_of_mem _ hi)⟩
  | known _ _ _ _ _ ih => exact ⟨(ih hr).1, fun i hi => (ih hr).2 i (List.mem_cons_of_mem _ hi)⟩
  | up _ _ _ _ _ ih => exact ⟨(ih hr).1, fun i hi => (ih hr).2 i (List.mem_cons_of_mem _ hi)⟩

/-- Everything visited, and everything queued, is found to be below valid nodes.  Nodes are told apart by
their addresses. -/
theorem climb_complete {m : Mem P} (A : Obj P → Prop) (hA : ∀ o p, A o → A p → o.ino = p.ino → o = p)
    (hup : ∀ o p, A o → m.get o.parent = some p → A p)
    {q : List (Obj P)} {v : List Ino} {b : Bool} {r} (h : Climb m q v b r) {v' : List Ino} (hr : r = some (v', false))
    (hq : ∀ o ∈ q, A o)
    (hv : ∀ o, A o → o.ino ∈ v → ∃ p, m.get o.parent = some p ∧ p.state ≠ .invalid ∧ (p.ino ∈ v ∨ ∃ x ∈ q, x.ino = p.ino)) :
    (∀ o, A o → o.ino ∈ v' → ∃ p, m.get o.parent = some p ∧ p.state ≠ .invalid ∧ p.ino ∈ v') ∧ (∀ o ∈ q, o.ino ∈ v') ∧
    (∀ i ∈ v', i ∈ v ∨ ∃ o, A o ∧ o.ino = i) := by
  induction h with
  | done =>
    cases hr
    refine ⟨fun o ho hi => ?_, fun _ h => (nomatch h), fun i hi => .inl hi⟩
    obtain ⟨p, h1, h2, h3 | ⟨x, hx, _⟩⟩ := hv o ho hi
    · exact ⟨p, h1, h2, h3⟩
    · cases hx
  | seen hs h ih =>
    obtain ⟨i1, i2, i3⟩ := ih hr (fun o ho => hq o (List.mem_cons_of_mem _ ho)) fun o ho hi => by
      obtain ⟨p, h1, h2, h3 | ⟨x, hx, e⟩⟩ := hv o ho hi
      · exact ⟨p, h1, h2, .inl h3⟩
      · rcases List.mem_cons.mp hx with rfl | hx
        · exact ⟨p, h1, h2, .inl (e ▸ hs)⟩
        · exact ⟨p, h1, h2, .inr ⟨x, hx, e⟩⟩
    refine ⟨i1, fun o ho => ?_, i3⟩
    rcases List.mem_cons.mp ho with rfl | ho
    · exact (climb_mono h hr).2 _ hs
    · exact i2 o ho
  | lost => cases hr
  | nameless => cases hr
  | invalid _ _ _ _ h _ => exact absurd ((climb_mono h hr).1 rfl) (by simp)
  | @known o q v b p r _ hg hval hk h ih =>
    have hAo := hq o (List.mem_cons_self ..)
    obtain ⟨i1, i2, i3⟩ := ih hr (fun o ho => hq o (List.mem_cons_of_mem _ ho)) fun o' ho' hi => by
      rcases List.mem_cons.mp hi with e | hi
      · obtain rfl := hA _ _ ho' hAo e
        exact ⟨p, hg, hval, .inl hk⟩
      · obtain ⟨p', h1, h2, h3 | ⟨x, hx, e⟩⟩ := hv o' ho' hi
        · exact ⟨p', h1, h2, .inl (List.mem_cons_of_mem _ h3)⟩
        · rcases List.mem_cons.mp hx with rfl | hx
          · exact ⟨p', h1, h2, .inl (e ▸ List.mem_cons_self ..)⟩
          · exact ⟨p', h1, h2, .inr ⟨x, hx, e⟩⟩
    refine ⟨i1, fun o' ho' => ?_, fun i hi => ?_⟩
    · rcases List.mem_cons.mp ho' with rfl | ho'
      · exact (climb_mono h hr).2 _ (List.mem_cons_self ..)
      · exact i2 o' ho'
    · rcases i3 i hi with h' | h'
      · rcases List.mem_cons.mp h' with rfl | h'
        · exact .inr ⟨o, hAo, rfl⟩
        · exact .inl h'
      · exact .inr h'
  | @up o q v b p r _ hg hval hk h ih =>
    have hAo := hq o (List.mem_cons_self ..)
    obtain ⟨i1, i2, i3⟩ := ih hr (fun o' ho' => by
        rcases List.mem_append.mp ho' with ho' | ho'
        · exact hq o' (List.mem_cons_of_mem _ ho')
        · obtain rfl := List.mem_singleton.mp ho'
          exact hup _ _ hAo hg) fun o' ho' hi => by
      rcases List.mem_cons.mp hi with e | hi
      · obtain rfl := hA _ _ ho' hAo e
        exact ⟨p, hg, hval, .inr ⟨p, by simp, rfl⟩⟩
      · obtain ⟨p', h1, h2, h3 | ⟨x, hx, e⟩⟩ := hv o' ho' hi
        · exact ⟨p', h1, h2, .inl (List.mem_cons_of_mem _ h3)⟩
        · rcases List.mem_cons.mp hx with rfl | hx
          · exact ⟨p', h1, h2, .inl (e ▸ List.mem_cons_self ..)⟩
          · exact ⟨p', h1, h2, .inr ⟨x, by simp [hx], e⟩⟩
    refine ⟨i1, fun o' ho' => ?_, fun i hi => ?_⟩
    · rcases List.mem_cons.mp ho' with rfl | ho'
      · exact (climb_mono h hr).2 _ (List.mem_cons_self ..)
      · exact i2 o' (by simp [ho'])
    · rcases i3 i hi with h' | h'
      · rcases List.mem_cons.mp h' with rfl | h'
        · exact .inr ⟨o, hAo, rfl⟩
        · exact .inl h'
      · exact .inr h'

/-- What holds for a description whose node has been looked at. -/
def Expanded (m : Mem P) (acc : List P) (k : P) : Prop :=
  ∀ o, m.find k = some o → o.proto ≠ none ∧ ∀ d c, o.proto = some d → m.isDir d = true → c ∈ o.loaded → c ∈ acc

/-- The descriptions found are those that can be reached. -/
theorem collect_spec {m : Mem P} {q acc : List P} {r} (h : Collect m q acc r) {res : List P} (hr : r = some res)
    (hq : ∀ k ∈ q, k ∈ acc) (hacc : ∀ k ∈ acc, InManifest m k) (hdone : ∀ k ∈ acc, k ∈ q ∨ Expanded m acc k) :
    (∀ k ∈ acc, k ∈ res) ∧ (∀ k ∈ res, InManifest m k) ∧ ∀ k ∈ res, Expanded m res k := by
  induction h with
  | done =>
    cases hr
    refine ⟨fun _ h => h, hacc, fun k hk => ?_⟩
    rcases hdone k hk with h | h
    · cases h
    · exact h
  | unknown hf _ ih =>
    refine ih hr (fun k hk => hq k (List.mem_cons_of_mem _ hk)) hacc fun k hk => ?_
    rcases hdone k hk with h | h
    · rcases List.mem_cons.mp h with rfl | h
      · exact .inr fun o h1 => by rw [hf] at h1; cases h1
      · exact .inl h
    · exact .inr h
  | null => cases hr
  | file hf hp hd _ ih =>
    refine ih hr (fun k hk => hq k (List.mem_cons_of_mem _ hk)) hacc fun k hk => ?_
    rcases hdone k hk with h | h
    · rcases List.mem_cons.mp h with rfl | h
      · refine .inr fun o h1 => ?_
        rw [hf] at h1; cases h1
        refine ⟨by rw [hp]; simp, fun d c h2 h3 => ?_⟩
        rw [hp] at h2; cases h2
        rw [hd] at h3; cases h3
      · exact .inl h
    · exact .inr h
  | @dir k0 q acc o0 d0 r hf hp hd _ ih =>
    have hk0 := hacc k0 (hq k0 (List.mem_cons_self ..))
    obtain ⟨i1, i2, i3⟩ := ih hr
      (fun k hk => by
        rcases List.mem_append.mp hk with hk | hk
        · exact List.mem_append_left _ (hq k (List.mem_cons_of_mem _ hk))
        · exact List.mem_append_right _ hk)
      (fun k hk => by
        rcases List.mem_append.mp hk with hk | hk
        · exact hacc k hk
        · exact .child hk0 hf hp hd hk)
      (fun k hk => by
        rcases List.mem_append.mp hk with hk | hk
        · rcases hdone k hk with h | h
          · rcases List.mem_cons.mp h with rfl | h
            · refine .inr fun o h1 => ?_
              rw [hf] at h1; cases h1
              exact ⟨by rw [hp]; simp, fun d c h2 h3 h4 => List.mem_append_right _ h4⟩
            · exact .inl (List.mem_append_left _ h)
          · exact .inr fun o h1 => ⟨(h o h1).1, fun d c h2 h3 h4 => List.mem_append_left _ ((h o h1).2 d c h2 h3 h4)⟩
        · exact .inl (List.mem_append_right _ hk))
    exact ⟨fun k hk => i1 k (List.mem_append_left _ hk), i2, i3⟩

theorem collect_iff {m : Mem P} {res : List P} (h : Collect m m.root.loaded m.root.loaded (some res)) :
    (∀ k, k ∈ res ↔ InManifest m k) ∧ ∀ k ∈ res, ∀ o, m.find k = some o → o.proto ≠ none := by
  obtain ⟨h1, h2, h3⟩ := collect_spec h rfl (fun _ h => h) (fun _ h => .root h) fun _ h => .inl h
  refine ⟨fun k => ⟨h2 k, fun h => ?_⟩, fun k hk o ho => (h3 k hk o ho).1⟩
  induction h with
  | root h => exact h1 _ h
  | child _ a b c d ih => exact (h3 _ ih _ a).2 _ _ b c d

/-- Nothing is accessed that does not exist. -/
theorem collect_some {m : Mem P} (hp : ∀ k o, m.find k = some o → o.proto ≠ none) {q acc : List P} {r} (h : Collect m q acc r) : r ≠ none := by
  induction h with
  | done => simp
  | unknown _ _ ih => exact ih
  | null h1 h2 => exact absurd h2 (hp _ _ h1)
  | file _ _ _ _ ih => exact ih
  | dir _ _ _ _ ih => exact ih

theorem find_mem {m : Mem P} {k : P} {o : Obj P} (h : m.find k = some o) : (k, o) ∈ m.inodes := by
  unfold Mem.find at h
  obtain ⟨x, h1, rfl⟩ := Option.map_eq_some_iff.mp h
  have := List.find?_some h1
  obtain rfl : x.1 = k := by simpa using this
  exact List.mem_of_find?_eq_some h1

theorem verdict_success {a b : Bool} : verdict a b = .success ↔ a = false ∧ b = false := by
  cases a <;> cases b <;> simp [verdict]

/-- The addresses of nodes are different, and the root has its own. -/
structure Addresses (m : Mem P) : Prop where
  root : m.root.ino = rootIno
  heap : ∀ i o, m.heap i = some o → o.ino = i
  table : ∀ k o, (k, o) ∈ m.inodes → o.ino ≠ rootIno ∧ m.heap o.ino = some o
  keys : (m.inodes.map Prod.fst).Nodup

theorem Addresses.find {m : Mem P} (h : Addresses m) {k : P} {o : Obj P} (hm : (k, o) ∈ m.inodes) : m.find k = some o := by
  unfold Mem.find
  have hk := h.keys
  revert hm hk
  generalize m.inodes = l
  intro hm hk
  induction l with
  | nil => cases hm
  | cons x l ih =>
    rw [List.map_cons, List.nodup_cons] at hk
    rcases List.mem_cons.mp hm with rfl | hm
    · simp
    · have : x.1 ≠ k := fun e => hk.1 (e ▸ List.mem_map.mpr ⟨_, hm, rfl⟩)
      rw [List.find?_cons_of_neg (by simpa using this)]
      exact ih hm hk.2

theorem Addresses.get {m : Mem P} (h : Addresses m) {i : Ino} {o : Obj P} (hg : m.get i = some o) : o.ino = i ∧ m.get o.ino = some o := by
  unfold Mem.get at hg ⊢
  split at hg
  · cases hg; rw [h.root, if_pos rfl]; rename_i e; exact ⟨e.symm, rfl⟩
  · rename_i hi
    have := h.heap _ _ hg
    subst this
    rw [if_neg hi]
    exact ⟨rfl, hg⟩

theorem Addresses.above {m : Mem P} (h : Addresses m) {o : Obj P} (ho : Above m o) : m.get o.ino = some o := by
  induction ho with
  | self hm =>
    obtain ⟨h1, h2⟩ := h.table _ _ hm
    unfold Mem.get
    rw [if_neg h1, h2]
  | parent _ hg => exact (h.get hg).2

/-- **C190**: whatever state the file system is in, if the examination comes to an end with the message that all is well, then all is
well: no node is lost, every node has the description under which it is found, which is part of the new manifest, all nodes above it
are valid, the kernel refers to it or to one below it, and it makes sense by itself. -/
theorem C190_success (m : Mem P) (ha : Addresses m) (before : Nat) (h : Examine m before .success) : Healthy m before := by
  generalize hv : Verdict.success = w at h
  cases h with
  | climb => cases hv
  | collect => cases hv
  | solo => cases hv
  | @mk v b acc hc hcol hnn =>
    obtain ⟨hA, hB⟩ := verdict_success.mp hv.symm
    simp only [Bool.or_eq_false_iff] at hA hB
    obtain ⟨h1, h2⟩ := hA
    obtain ⟨⟨⟨h3, h4, h5⟩, h6⟩, h7⟩ := hB
    have hroot : m.root.proto = some m.rootDir := by
      unfold reachBad at h6
      simp only [Bool.or_eq_false_iff] at h6
      simpa using h6.1
    have hentry : ∀ k o, (k, o) ∈ m.inodes → isNew o.state = true ∧ o.proto = some k ∨ o.state = .invalid ∧ o.proto = none := by
      intro k o hm
      unfold entriesBad at h3
      rw [List.any_eq_false] at h3
      have := h3 _ hm
      dsimp only at this
      cases hs : o.state <;> rw [hs] at this <;> simp [isNew] at this ⊢ <;> exact this
    obtain ⟨c1, c2⟩ := collect_iff hcol
    have hman : ∀ k o, (k, o) ∈ m.inodes → k ∈ acc := by
      intro k o hm
      unfold reachBad at h6
      simp only [Bool.or_eq_false_iff, List.any_eq_false] at h6
      simpa using h6.2 _ hm
    have hent : ∀ k o, (k, o) ∈ m.inodes → isNew o.state = true ∧ o.proto = some k := by
      intro k o hm
      rcases hentry k o hm with h | ⟨_, h⟩
      · exact h
      · exact absurd h (c2 k (hman k o hm) o (ha.find hm))
    have hcheck : ∀ k o, (k, o) ∈ m.inodes → o ∈ toCheck m := fun k o hm =>
      List.mem_filter.mpr ⟨List.mem_map.mpr ⟨_, hm, rfl⟩, (hent k o hm).1⟩
    subst h4
    obtain ⟨d1, d2, d3⟩ := climb_complete (Above m)
      (fun o p ho hp e => by
        have h1 := ha.above ho
        have h2 := ha.above hp
        rw [e, h2] at h1
        exact (Option.some.inj h1).symm)
      (fun o p ho hp => .parent ho hp) hc rfl
      (fun o ho => by
        obtain ⟨x, hx, rfl⟩ := List.mem_map.mp (List.mem_filter.mp ho).1
        exact .self (k := x.1) hx)
      (fun o _ hi => nomatch hi)
    have hall : ∀ o, Above m o → o.ino ∈ v := by
      intro o ho
      induction ho with
      | self hm => exact d2 _ (hcheck _ _ hm)
      | parent ho hg ih =>
        obtain ⟨p', e1, _, e3⟩ := d1 _ ho ih
        rw [hg] at e1
        cases e1
        exact e3
    have hreach : ∀ o, (∃ k, (k, o) ∈ m.inodes) ∨ o = m.root → o ∈ reachable m acc := by
      rintro o (⟨k, hm⟩ | rfl)
      · refine List.mem_append_left _ (List.mem_map.mpr ⟨(k, o), List.mem_filter.mpr ⟨hm, ?_⟩, rfl⟩)
        simp [(hent k o hm).1, hman k o hm]
      · exact List.mem_append_right _ (by rw [if_pos hroot]; exact List.mem_singleton.mpr rfl)
    have hnew : ∀ s, isNew s = true → s = .updatedProto ∨ s = .updated := by
      intro s; cases s <;> simp [isNew]
    unfold rootBad at h1
    simp only [Bool.or_eq_false_iff, decide_eq_false_iff_not, not_not, ne_eq] at h1
    refine ⟨h1.1.1, ?_, hroot, ?_, fun k o hm => ⟨hnew _ (hent k o hm).1, (hent k o hm).2⟩,
      fun k o hm => (c1 k).mp (hman k o hm), fun o ho => ?_, fun hne => ?_, fun o ho => ?_⟩
    · cases hs : m.root.state <;> simp_all
    · unfold sizeBad at h2
      have : before = m.inodes.length + m.invalid := by simpa using h2
      exact this.symm
    · obtain ⟨p, e1, e2, _⟩ := d1 o ho (hall o ho)
      exact ⟨p, e1, e2⟩
    · obtain ⟨x, hx⟩ := List.exists_mem_of_ne_nil _ hne
      have hx' : x.2.ino ∈ v := hall _ (.self (k := x.1) hx)
      have hr : rootIno ∈ v := by
        have : v ≠ [] := fun e => by rw [e] at hx'; cases hx'
        simpa [this] using h5
      rcases d3 _ hr with h | h
      · cases h
      · exact h
    · unfold soloBad at h7
      rw [List.any_eq_false] at h7
      have := h7 o (hreach o ho)
      simp only [Bool.or_eq_true, not_or, Bool.not_eq_true', decide_eq_true_eq] at this
      refine ⟨by simpa using this.1, by omega⟩

/-- The other direction: if all is well, the examination says so. -/
theorem healthy_success {m : Mem P} (ha : Addresses m) {before : Nat} (hh : Healthy m before) {w : Verdict} (h : Examine m before w) :
    w = .success := by
  have hnewB : ∀ k o, (k, o) ∈ m.inodes → isNew o.state = true := by
    intro k o hm
    rcases (hh.entries k o hm).1 with e | e <;> rw [e] <;> rfl
  have habove : ∀ o ∈ toCheck m, Above m o := by
    intro o ho
    obtain ⟨x, hx, rfl⟩ := List.mem_map.mp (List.mem_filter.mp ho).1
    exact .self (k := x.1) hx
  have hproto : ∀ k o, m.find k = some o → o.proto ≠ none := by
    intro k o hf
    rw [(hh.entries k o (find_mem hf)).2]
    simp
  have hreach : ∀ acc, ∀ o ∈ reachable m acc, (∃ k, (k, o) ∈ m.inodes) ∨ o = m.root := by
    intro acc o ho
    rcases List.mem_append.mp ho with ho | ho
    · obtain ⟨x, hx, rfl⟩ := List.mem_map.mp ho
      exact .inl ⟨x.1, (List.mem_filter.mp hx).1⟩
    · split at ho
      · exact .inr (List.mem_singleton.mp ho)
      · cases ho
  have hnn : ∀ o, (∃ k, (k, o) ∈ m.inodes) ∨ o = m.root → o.proto ≠ none := by
    rintro o (⟨k, hm⟩ | rfl)
    · rw [(hh.entries k o hm).2]; simp
    · rw [hh.rootProto]; simp
  cases h with
  | climb h =>
    obtain ⟨v, hv⟩ := climb_above h hh.above habove
    cases hv
  | collect h => exact absurd rfl (collect_some hproto h)
  | solo _ ho hn => exact absurd hn (hnn _ (hreach _ _ ho))
  | @mk v b acc hc hcol _ =>
    obtain ⟨v', hv'⟩ := climb_above hc hh.above habove
    cases hv'
    obtain ⟨c1, _⟩ := collect_iff hcol
    rw [verdict_success]
    simp only [Bool.or_eq_false_iff]
    refine ⟨⟨?_, ?_⟩, ⟨⟨?_, trivial, ?_⟩, ?_⟩, ?_⟩
    · unfold rootBad
      rcases hh.rootState with e | e <;> simp [hh.rootParent, e]
    · unfold sizeBad
      simp [hh.number]
    · unfold entriesBad
      rw [List.any_eq_false]
      intro x hx
      obtain ⟨e1, e2⟩ := hh.entries x.1 x.2 hx
      rcases e1 with e | e <;> simp [e, e2]
    · by_cases hne : m.inodes = []
      · have : toCheck m = [] := by simp [toCheck, hne]
        rw [this] at hc
        cases hc
        simp
      · obtain ⟨o, ho, hr⟩ := hh.rooted hne
        obtain ⟨d1, d2, d3⟩ := climb_complete (Above m)
          (fun o p ho hp e => by
            have h1 := ha.above ho
            have h2 := ha.above hp
            rw [e, h2] at h1
            exact (Option.some.inj h1).symm)
          (fun o p ho hp => .parent ho hp) hc rfl habove (fun o _ hi => nomatch hi)
        have hall : ∀ o, Above m o → o.ino ∈ v := by
          intro o ho
          induction ho with
          | self hm => exact d2 _ (List.mem_filter.mpr ⟨List.mem_map.mpr ⟨_, hm, rfl⟩, hnewB _ _ hm⟩)
          | parent ho hg ih =>
            obtain ⟨p', e1, _, e3⟩ := d1 _ ho ih
            rw [hg] at e1
            cases e1
            exact e3
        have := hall o ho
        rw [hr] at this
        simp [this]
    · unfold reachBad
      simp only [Bool.or_eq_false_iff, List.any_eq_false]
      refine ⟨by simp [hh.rootProto], fun x hx => ?_⟩
      simp [(c1 x.1).mpr (hh.manifest x.1 x.2 hx)]
    · unfold soloBad
      rw [List.any_eq_false]
      intro o ho
      obtain ⟨e1, e2⟩ := hh.solo o (hreach _ o ho)
      simp [e1]
      omega

/-- **C190** is false of the code: problems of two kinds at once are not reported, the program ends instead.  (The first warning makes the
report an array, the second one is added as a member of it.) -/
theorem C190_two_problems_violated (m : Mem P) (before : Nat) (h1 : m.root.parent ≠ rootIno ∨ m.inodes.length + m.invalid ≠ before)
    (h2 : m.root.proto ≠ some m.rootDir ∨ ∃ k o, (k, o) ∈ m.inodes ∧ (o.state = .initialized ∨ o.state = .updated ∧ o.proto ≠ some k))
    {w : Verdict} (h : Examine m before w) : w = .ended := by
  cases h with
  | climb => rfl
  | collect => rfl
  | solo => rfl
  | @mk v b acc _ _ _ =>
    have e1 : (rootBad m || sizeBad m before) = true := by
      unfold rootBad sizeBad
      rcases h1 with h | h
      · simp [h]
      · simp [Ne.symm h]
    have e2 : (entriesBad m || (b || (v ≠ [] && rootIno ∉ v)) || reachBad m acc || soloBad (reachable m acc)) = true := by
      rcases h2 with h | ⟨k, o, hm, h⟩
      · have : reachBad m acc = true := by simp [reachBad, h]
        simp [this]
      · have : entriesBad m = true := by
          unfold entriesBad
          rw [List.any_eq_true]
          refine ⟨_, hm, ?_⟩
          rcases h with h | ⟨h, h'⟩ <;> simp [h] <;> exact h'
        simp [this]
    rw [e1, e2]
    rfl

/-- Whatever is wrong, the examination does not say that all is well. -/
theorem C190_problem_noticed (m : Mem P) (ha : Addresses m) (before : Nat) (hn : ¬ Healthy m before) {w : Verdict} (h : Examine m before w) :
    w = .warning ∨ w = .ended := by
  cases w with
  | success => exact absurd (C190_success m ha before h) hn
  | warning => exact .inl rfl
  | ended => exact .inr rfl

/-! ## Examples -/

/-- One file below the root; `good`: it has been updated. -/
def exMem (good : Bool) : Mem Nat where
  root := ⟨1, 1, some 0, .updated, 1, 1, [7], true⟩
  inodes := [(7, ⟨16, 1, some 7, if good then .updated else .initialized, 1, 0, [], true⟩)]
  invalid := 0
  heap := fun i => if i = 16 then some ⟨16, 1, some 7, if good then .updated else .initialized, 1, 0, [], true⟩ else none
  rootDir := 0
  isDir := fun k => k = 0

example (good : Bool) : Addresses (exMem good) := by
  refine ⟨rfl, fun i o h => ?_, fun k o h => ?_, by simp [exMem]⟩
  · simp only [exMem] at h
    split at h
    · rename_i e; cases h; exact e.symm
    · cases h
  · obtain ⟨rfl, rfl⟩ : k = 7 ∧ o = _ := by simpa [exMem] using h
    exact ⟨by show (16 : Nat) ≠ 1; decide, rfl⟩

/-- All is well. -/
example : Examine (exMem true) 1 .success := by
  have h : Examine (exMem true) 1 (verdict _ _) := .mk (v := [1, 16]) (b := false) (acc := [7])
    (.up (by simp) rfl (by simp [exMem]) (by decide) (.known (by decide) rfl (by simp [exMem]) (by decide) .done))
    (.file rfl rfl rfl .done) (by decide)
  exact h

/-- The file has not been updated: a warning.  If, in addition, a node has been lost, the program ends. -/
example : Examine (exMem false) 1 .warning := by
  have h : Examine (exMem false) 1 (verdict _ _) := .mk (v := []) (b := false) (acc := [7]) .done (.file rfl rfl rfl .done) (by decide)
  exact h

example : Examine (exMem false) 2 .ended := by
  have h : Examine (exMem false) 2 (verdict _ _) := .mk (v := []) (b := false) (acc := [7]) .done (.file rfl rfl rfl .done) (by decide)
  exact h

end Verif.FuseFs.Check
