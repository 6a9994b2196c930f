import Verif.Store.Lemmas2

/-!
# Properties of content ids and chunk stores: C15, C16, C17, C18, C19, C23
-/
namespace Verif.Store

/-! ## C15 -/

/-- The sixteen lower-case hexadecimal digits. -/
def lowerHexDigits : List Char := "0123456789abcdef".toList

theorem kDirNames_eq : kDirNames = lowerHexDigits := by decide

/-- **C15.** Printing and parsing ids are inverse to each other, and parsing accepts exactly the
strings of forty lower-case hexadecimal digits. -/
theorem C15_hex_bijection :
    (∀ id : Id, id.length = 20 → fromHex (toHex id) = some id) ∧
    (∀ (s : Str) (id : Id), fromHex s = some id → toHex id = s ∧ id.length = 20) ∧
    (∀ s : Str, (fromHex s).isSome ↔ s.length = 40 ∧ ∀ c ∈ s, c ∈ lowerHexDigits) := by
  refine ⟨?_, ?_, ?_⟩
  · intro id h
    unfold fromHex
    rw [if_neg (by rw [toHex_length, h]; decide), fromHexLoop_toHex]
  · intro s id h
    unfold fromHex at h
    split at h
    · cases h
    · rename_i hl
      obtain ⟨h1, h2⟩ := fromHexLoop_some s id h
      unfold kHashSize at hl
      exact ⟨h1, by omega⟩
  · intro s
    unfold fromHex kHashSize
    rw [← kDirNames_eq]
    split
    · rename_i h; simp; intro h'; exact absurd h' h
    · rename_i h
      rw [fromHexLoop_isSome]
      constructor
      · rintro ⟨_, h'⟩; exact ⟨by omega, h'⟩
      · rintro ⟨_, h'⟩; exact ⟨by omega, h'⟩

example : fromHex (toHex (List.replicate 20 0xA7)) = some (List.replicate 20 0xA7) ∧
    fromHex ("A7".toList ++ List.replicate 38 '0') = none := by decide

/-! ## C16 -/

/-- **C16, injectivity and recovery.** For every directory depth, chunks have distinct paths and the id is
recovered from the path. -/
theorem C16_path_injective_invertible (depth : Nat) :
    (∀ a b : Id, cachePath depth a = cachePath depth b → a = b) ∧
    (∀ id : Id, id.length = 20 → parsePath depth (cachePath depth id) = some id) := by
  refine ⟨fun a b h => cachePath_inj h, fun id h => ?_⟩
  rw [parsePath_cachePath, if_pos (show id.length = kHashSize from h)]

/-- A path made of components. -/
def joinComponents (dirs : List Str) (name : Str) : Str := (dirs.map (· ++ ['/'])).flatten ++ name

theorem dirName_mem : ∀ i, i < 16 → ∀ j, j < 16 → dirName 2 (i + 16 * j) = [kDirNames.getD i '0', kDirNames.getD j '0'] := by
  decide +kernel

theorem mem_kDirNames_getD (c : Char) (h : c ∈ kDirNames) : ∃ i, i < 16 ∧ kDirNames.getD i '0' = c := by
  have : ∀ c ∈ kDirNames, ∃ i, i < 16 ∧ kDirNames.getD i '0' = c := by decide
  exact this c h

theorem pair_mem_dirNames (a b : Char) (ha : a ∈ kDirNames) (hb : b ∈ kDirNames) : [a, b] ∈ generateDirNames 2 := by
  obtain ⟨i, hi, rfl⟩ := mem_kDirNames_getD a ha
  obtain ⟨j, hj, rfl⟩ := mem_kDirNames_getD b hb
  unfold generateDirNames
  rw [List.mem_map]
  exact ⟨i + 16 * j, by rw [List.mem_range, show (1 : Nat) <<< (2 * 4) = 256 from rfl]; omega, dirName_mem i hi j hj⟩

theorem mem_dirHierarchy (dirs : List Str) (hd : ∀ d ∈ dirs, d ∈ generateDirNames 2) : ∀ (depth : Nat) (parent : List Str),
    dirs ≠ [] → dirs.length ≤ depth → parent ++ dirs ∈ dirHierarchy parent depth := by
  induction dirs with
  | nil => intro _ _ h; exact absurd rfl h
  | cons d ds ih =>
    intro depth parent _ hl
    cases depth with
    | zero => simp at hl
    | succ depth =>
      simp only [dirHierarchy, List.mem_flatten, List.mem_map]
      refine ⟨_, ⟨d, hd d (by simp), rfl⟩, ?_⟩
      cases ds with
      | nil => simp
      | cons e es =>
        rw [show parent ++ d :: e :: es = (parent ++ [d]) ++ (e :: es) by simp]
        exact List.mem_cons_of_mem _ (ih (fun x hx => hd x (by simp [hx])) depth (parent ++ [d]) (by simp)
          (by simpa using hl))

theorem addSepLoop_dirs : ∀ (n : Nat) (s : Str), 2 * n < s.length → (∀ c ∈ s, c ∈ kDirNames) →
    ∃ dirs name, addSepLoop 2 n s = joinComponents dirs name ∧ name ≠ [] ∧ dirs.length = n ∧
      ∀ d ∈ dirs, d ∈ generateDirNames 2
  | 0, s, h, _ => ⟨[], s, by simp [addSepLoop, joinComponents], by rintro rfl; simp at h, rfl, by simp⟩
  | n + 1, s, h, hc => by
    match s, h, hc with
    | a :: b :: rest, h, hc =>
      obtain ⟨dirs, name, h1, h2, h3, h4⟩ := addSepLoop_dirs n rest (by simp at h; omega) (fun c hc' => hc c (by simp [hc']))
      refine ⟨[a, b] :: dirs, name, ?_, h2, by simp [h3], ?_⟩
      · simp [addSepLoop, h1, joinComponents]
      · intro d hd
        rcases List.mem_cons.mp hd with rfl | hd
        · exact pair_mem_dirNames a b (hc a (by simp)) (hc b (by simp))
        · exact h4 d hd
    | [_], h, _ => simp at h
    | [], h, _ => simp at h

/-- **C16, directories.** With pre-created directories, the directory of every chunk path was created,
for every depth. -/
theorem C16_directories_exist (depth : Nat) (id : Id) (hid : id ≠ []) :
    ∃ dirs name, cachePath depth id = joinComponents dirs name ∧ name ≠ [] ∧
      (dirs = [] ∨ dirs ∈ dirHierarchy [] depth) := by
  have hne : toHex id ≠ [] := by
    intro h; have := congrArg List.length h; rw [toHex_length] at this
    simp only [List.length_nil] at this
    exact hid (List.length_eq_zero_iff.mp (by omega))
  unfold cachePath addPathSeparators
  split
  · exact ⟨[], toHex id, by simp [joinComponents], hne, Or.inl rfl⟩
  · have hl : 2 * min (((toHex id).length - 1) / 2) depth < (toHex id).length := by
      have := List.length_pos_iff.mpr hne
      omega
    obtain ⟨dirs, name, h1, h2, h3, h4⟩ := addSepLoop_dirs _ (toHex id) hl (toHex_chars id)
    refine ⟨dirs, name, h1, h2, ?_⟩
    by_cases hd : dirs = []
    · exact Or.inl hd
    · exact Or.inr (by have := mem_dirHierarchy dirs h4 depth [] hd (by omega); simpa using this)

/-- **C83, recognition, partial.** A path is taken for a chunk exactly if it consists of forty lower-case
hexadecimal digits once separators are removed (for depth 0: if it is exactly that). Missing for
the full claim: separators at other positions than where the store puts them, see the theorem below. -/
theorem C83_recognised_names_partial (depth : Nat) (p : Str) (id : Id) :
    parsePath depth p = some id ↔
      toHex id = (if depth > 0 then p.filter (fun c => !(c == '/' || c == '\\')) else p) ∧ id.length = 20 := by
  unfold parsePath
  constructor
  · exact C15_hex_bijection.2.1 _ id
  · rintro ⟨h, hl⟩; rw [← h]; exact C15_hex_bijection.1 id hl

/-- A stray copy of chunk `id` stored without subdirectories, listed first, and the chunk itself. -/
def strayDisk (id : Id) : Disk :=
  { files := [⟨toHex id, [7], 0⟩, ⟨cachePath 2 id, [7], 0⟩] }

/-- **C83, violated.** With depth 2 a file that is not where the store keeps the chunk is taken for the
chunk; pruning then deletes the real chunk although it is on the list of chunks to keep, and still
reports success. -/
theorem C83_stray_file_mistaken_violated :
    ∃ id : Id, id.length = 20 ∧ parsePath 2 (toHex id) = some id ∧ toHex id ≠ cachePath 2 id ∧
      (strayDisk id).contains 2 id = true ∧
      ((strayDisk id).prune 2 [id] [] false (fun _ => false)).2 = .ok ∧
      ((strayDisk id).prune 2 [id] [] false (fun _ => false)).1.contains 2 id = false := by
  refine ⟨List.replicate 20 0xA7, ?_⟩
  decide +kernel

/-! ## Specification of a store as a map -/

abbrev Map := Id → Option Bytes

/-- The bytes stored under an id. -/
def Disk.lookup (depth : Nat) (s : Disk) : Map := fun id => (s.find (cachePath depth id)).map File.data

/-- A cache directory as the store leaves it: distinct file names; chunk files at their place. Other
files are allowed. -/
def CleanDir (depth : Nat) (fs : List File) : Prop :=
  (fs.map File.path).Nodup ∧
  ∀ f ∈ fs, ∀ id, parsePath depth f.path = some id → f.path = cachePath depth id

theorem wf_of_clean {depth : Nat} {fs : List File} (h : CleanDir depth fs) : WF depth { files := fs } :=
  ⟨h.1, h.2, by simp⟩

/-- How an operation may change the map. Only a cleanup chooses (what to evict), and a prune that is
interrupted or cannot remove a file (it may leave unwanted chunks). -/
def Allowed (m : Map) (op : Op) (m' : Map) : Prop :=
  match op with
  | .put id d _ => m' = fun i => if i = id then some d else m i
  | .putFails _ _ _ none => m' = m
  | .putFails id d _ (some n) => m' = fun i => if i = id then some (d.take n) else m i
  | .get _ _ => m' = m
  | .getRange _ _ _ _ => m' = m
  | .list => m' = m
  | .remove id => m' = fun i => if i = id then none else m i
  | .wipe _ => m' = fun _ => none
  | .prune keep _ cancelled fails =>
    (∀ i, m' i = m i ∨ (i ∉ keep ∧ m' i = none)) ∧
    (cancelled = false → (∀ p, fails p = false) → ∀ i, i.length = 20 → i ∉ keep → m' i = none)
  | .cleanup none _ _ _ => m' = m
  | .cleanup (some _) _ _ _ => ∀ i, m' i = m i ∨ m' i = none

inductive SpecRun : Map → List Op → Map → Prop where
  | nil (m : Map) : SpecRun m [] m
  | cons {m m' m'' : Map} {op : Op} {ops : List Op} : Allowed m op m' → SpecRun m' ops m'' → SpecRun m (op :: ops) m''

theorem lookup_filter {depth : Nat} {s s' : Disk} {D : List Str} (e : s'.files = s.files.filter (fun f => decide (f.path ∉ D)))
    (id : Id) : s'.lookup depth id = if cachePath depth id ∈ D then none else s.lookup depth id := by
  unfold Disk.lookup Disk.find
  rw [e, find_filter_path s.files (fun p => decide (p ∉ D))]
  by_cases h : cachePath depth id ∈ D
  · simp [h]
  · simp [h]

theorem lookup_write {depth : Nat} {s s' : Disk} {i : Id} {d : Bytes} {now : Nat}
    (e : s'.files = writeFile s.files ⟨cachePath depth i, d, now⟩) (id : Id) :
    s'.lookup depth id = if id = i then some d else s.lookup depth id := by
  unfold Disk.lookup Disk.find
  rw [e, find_writeFile]
  by_cases h : id = i
  · subst h; simp
  · have : cachePath depth i ≠ cachePath depth id := fun h' => h (cachePath_inj h').symm
    simp [this, h]

theorem lookup_touch {depth : Nat} {s s' : Disk} {p : Str} {now : Nat} (e : s'.files = touch s.files p now) (id : Id) :
    s'.lookup depth id = s.lookup depth id := by
  unfold Disk.lookup Disk.find; rw [e, find_touch]

theorem lookup_files {depth : Nat} {s s' : Disk} (e : s'.files = s.files) : s'.lookup depth = s.lookup depth := by
  unfold Disk.lookup Disk.find; rw [e]

theorem mem_toDrop_iff {depth : Nat} {s : Disk} (h : WF depth s) (keep : List Id) (l : List File) (hl : l.Perm s.files)
    (id : Id) : cachePath depth id ∈ (toDrop depth keep l).map File.path → id ∉ keep := by
  intro hm
  obtain ⟨f, hf, e⟩ := List.mem_map.mp hm
  unfold toDrop at hf
  rw [List.mem_filter] at hf
  split at hf
  · exact absurd hf.2 (by simp)
  · rename_i id' hp
    have h1 := h.canon f (hl.mem_iff.mp hf.1) id' hp
    have : id = id' := cachePath_inj (e.symm.trans h1)
    subst this; simpa using hf.2

theorem allowed_step {depth : Nat} {s : Disk} (h : WF depth s) (op : Op) :
    Allowed (s.lookup depth) op ((s.step depth op).lookup depth) := by
  cases op with
  | put id d now => exact funext (lookup_write rfl)
  | putFails id d now n =>
    cases n with
    | none => rfl
    | some n => exact funext (lookup_write rfl)
  | get id now =>
    simp only [Allowed, Disk.step, Disk.get]
    split
    · rfl
    · exact funext (lookup_touch rfl)
  | getRange id o n now =>
    simp only [Allowed, Disk.step, Disk.getRange]
    split
    · rfl
    · split
      · rfl
      · exact funext (lookup_touch rfl)
  | remove id =>
    refine funext fun i => ?_
    rw [lookup_filter (D := [cachePath depth id]) (s := s)]
    · by_cases e : i = id
      · subst e; simp
      · have : cachePath depth i ≠ cachePath depth id := fun h' => e (cachePath_inj h')
        simp [this, e]
    · simp only [Disk.step, Disk.remove, removeFile]
      apply List.filter_congr; intro f _; simp
  | wipe c => rfl
  | list => exact lookup_files (collect_files s)
  | cleanup t c k fails =>
    cases t with
    | none => rfl
    | some t =>
      obtain ⟨D, _, e, _⟩ := cleanup_spec h t c k fails
      intro i
      show ((s.cleanup (some t) c k fails).1).lookup depth i = _ ∨ ((s.cleanup (some t) c k fails).1).lookup depth i = _
      rw [lookup_filter e]
      split
      · exact Or.inr rfl
      · exact Or.inl rfl
  | prune keep order c fails =>
    obtain ⟨l, D, hl, hD, e, _, _, hok, hfin⟩ := prune_spec h keep order c fails
    have hsub : ∀ x ∈ D, x ∈ toDrop depth keep l := by
      rcases hD with rfl | hD
      · simp
      · exact fun x hx => hD.subset hx
    refine ⟨fun i => ?_, fun hc hf i hi hk => ?_⟩
    · show ((s.prune depth keep order c fails).1).lookup depth i = _ ∨ (_ ∧ ((s.prune depth keep order c fails).1).lookup depth i = _)
      rw [lookup_filter e]
      split
      · rename_i hm
        refine Or.inr ⟨mem_toDrop_iff h keep l hl i ?_, rfl⟩
        obtain ⟨f, hf, e'⟩ := List.mem_map.mp hm
        exact List.mem_map.mpr ⟨f, hsub f hf, e'⟩
      · exact Or.inl rfl
    · show ((s.prune depth keep order c fails).1).lookup depth i = none
      obtain ⟨hd, _⟩ := hok (hfin hc hf)
      rw [lookup_filter e]
      split
      · rfl
      · rename_i hm
        unfold Disk.lookup Disk.find
        cases hfind : s.files.find? (fun f => f.path = cachePath depth i) with
        | none => rfl
        | some f =>
          exfalso
          apply hm
          have h1 := List.find?_some hfind
          simp only [decide_eq_true_eq] at h1
          have h2 := List.mem_of_find?_eq_some hfind
          rw [hd]
          refine List.mem_map.mpr ⟨f, ?_, h1⟩
          unfold toDrop
          rw [List.mem_filter]
          refine ⟨hl.mem_iff.mpr h2, ?_⟩
          rw [h1, parsePath_cachePath, if_pos (show i.length = kHashSize from hi)]
          simpa using hk

theorem specRun_run {depth : Nat} (ops : List Op) : ∀ {s : Disk}, WF depth s →
    SpecRun (s.lookup depth) ops ((s.run depth ops).lookup depth) := by
  induction ops with
  | nil => intro s _; exact .nil _
  | cons op ops ih => intro s h; exact .cons (allowed_step h op) (ih (wf_step h op))

/-! ## C17 -/

/-- **C17.** After every history of operations, including failing writes and interrupted
maintenance, starting from any directory the store may have left behind, the disk store behaves as a
map: the bytes under each id evolve as the map specification allows, and reads, range reads and
`Contains` all answer from that map. -/
theorem C17_disk_store_refines_map (depth : Nat) (fs : List File) (hc : CleanDir depth fs) (ops : List Op) :
    ∃ m : Map, SpecRun (Disk.lookup depth { files := fs }) ops m ∧
      ∀ id now offset size,
        ((Disk.run depth { files := fs } ops).get depth id now).1 = m id ∧
        ((Disk.run depth { files := fs } ops).getRange depth id offset size now).1 =
          (if size = 0 then some [] else (m id).map fun d => (d.drop offset).take size) ∧
        ((Disk.run depth { files := fs } ops).contains depth id = true ↔ m id ≠ none) := by
  refine ⟨_, specRun_run ops (wf_of_clean hc), ?_⟩
  intro id now offset size
  refine ⟨?_, ?_, ?_⟩
  · unfold Disk.get Disk.lookup
    split <;> simp_all
  · unfold Disk.getRange Disk.lookup
    split
    · rfl
    · split <;> simp_all
  · unfold Disk.contains Disk.lookup
    cases (Disk.find _ _) <;> simp

/-- The operation cannot affect chunk `id`. -/
def Op.Spares (id : Id) : Op → Prop
  | .put i _ _ => i ≠ id
  | .putFails i _ _ n => i ≠ id ∨ n = none
  | .remove i => i ≠ id
  | .prune keep _ _ _ => id ∈ keep
  | .wipe _ => False
  | .cleanup t _ _ _ => t = none
  | _ => True

theorem specRun_spares {id : Id} {m m' : Map} {ops : List Op} (h : SpecRun m ops m') (hs : ∀ op ∈ ops, op.Spares id) :
    m' id = m id := by
  induction h with
  | nil => rfl
  | cons ha _ ih =>
    rename_i m m1 m2 op ops _
    rw [ih (fun o ho => hs o (by simp [ho]))]
    have := hs op (by simp)
    cases op with
    | put i d now => rw [ha]; exact if_neg (Ne.symm this)
    | putFails i d now n =>
      cases n with
      | none => rw [ha]
      | some n =>
        rw [ha]
        rcases this with e | e
        · exact if_neg (Ne.symm e)
        · cases e
    | get => rw [ha]
    | getRange => rw [ha]
    | list => rw [ha]
    | remove i => rw [ha]; exact if_neg (Ne.symm this)
    | wipe => exact this.elim
    | prune keep o c f =>
      rcases ha.1 id with e | ⟨e, _⟩
      · exact e
      · exact absurd this e
    | cleanup t =>
      simp only [Op.Spares] at this
      subst this
      rw [ha]

/-- **C17, last put wins.** A chunk that was put and not removed, wiped, pruned away or
subjected to a cleanup since is returned with exactly the bytes put. -/
theorem C17_last_put_returned (depth : Nat) (fs : List File) (hc : CleanDir depth fs) (pre post : List Op) (id : Id)
    (d : Bytes) (t now : Nat) (hs : ∀ op ∈ post, op.Spares id) :
    ((Disk.run depth { files := fs } (pre ++ .put id d t :: post)).get depth id now).1 = some d := by
  have hw : WF depth (Disk.run depth { files := fs } pre) := wf_run pre (wf_of_clean hc)
  have hr : Disk.run depth { files := fs } (pre ++ .put id d t :: post) =
      Disk.run depth (Disk.step depth (Disk.run depth { files := fs } pre) (.put id d t)) post := by
    simp [Disk.run, List.foldl_append]
  have h2 := specRun_spares (specRun_run post (wf_step hw (.put id d t))) hs
  have h3 : (Disk.step depth (Disk.run depth { files := fs } pre) (.put id d t)).lookup depth id = some d := by
    have := allowed_step hw (.put id d t)
    simp only [Allowed] at this
    rw [this]; simp
  rw [hr]
  rw [h3] at h2
  revert h2
  generalize Disk.run depth _ post = s
  unfold Disk.lookup Disk.get
  intro h2
  split <;> simp_all

example : CleanDir 2 [⟨cachePath 2 (List.replicate 20 3), [1, 2], 5⟩, ⟨"README".toList, [9], 5⟩] ∧
    (Op.prune [List.replicate 20 4] [] false (fun _ => false)).Spares (List.replicate 20 4) := by
  refine ⟨⟨by decide +kernel, ?_⟩, by simp [Op.Spares]⟩
  intro f hf id hp
  simp only [List.mem_cons, List.not_mem_nil, or_false] at hf
  rcases hf with rfl | rfl
  · exact parsePath_cachePath_some (depth := 2) (id := List.replicate 20 3) hp
  · have : parsePath 2 "README".toList = none := by decide +kernel
    rw [this] at hp; cases hp

/-- **C17, listing.** After every history, listing returns exactly the ids under which chunks are stored, each once. -/
theorem C17_list (depth : Nat) (fs : List File) (hc : CleanDir depth fs) (ops : List Op) :
    let s := Disk.run depth { files := fs } ops
    ((s.list depth).1).Nodup ∧ ∀ id : Id, id ∈ (s.list depth).1 ↔ id.length = 20 ∧ ∃ d, ∀ now, (s.get depth id now).1 = some d := by
  intro s
  have hw : WF depth s := wf_run ops (wf_of_clean hc)
  have hl : (if s.rootExists then s.files else []) = s.files := by
    cases h : s.rootExists with
    | true => rfl
    | false => simp [hw.root h]
  unfold Disk.list
  rw [hl]
  have hcanon := hw.canon
  have hnd := hw.nodup
  have hget : ∀ id d, (∀ now, (s.get depth id now).1 = some d) ↔ (s.files.find? (fun f => f.path = cachePath depth id)).map File.data = some d := by
    intro id d
    unfold Disk.get Disk.find
    cases s.files.find? (fun f => f.path = cachePath depth id) <;> simp
  simp only [hget]
  generalize s.files = l at *
  clear hl hw hget s
  constructor
  · induction l with
    | nil => simp
    | cons f l ih =>
      have hn : f.path ∉ l.map File.path ∧ (l.map File.path).Nodup := List.nodup_cons.mp hnd
      have ih := ih (fun g hg => hcanon g (List.mem_cons_of_mem _ hg)) hn.2
      cases hp : parsePath depth f.path with
      | none => rw [List.filterMap_cons_none (f := fun f : File => parsePath depth f.path) hp]; exact ih
      | some id =>
        rw [List.filterMap_cons_some (f := fun f : File => parsePath depth f.path) hp, List.nodup_cons]
        refine ⟨fun hm => ?_, ih⟩
        obtain ⟨g, hg, hgp⟩ := List.mem_filterMap.mp hm
        exact hn.1 (List.mem_map.mpr ⟨g, hg, (hcanon g (by simp [hg]) id hgp).trans (hcanon f (by simp) id hp).symm⟩)
  · intro id
    rw [List.mem_filterMap]
    constructor
    · rintro ⟨f, hf, hp⟩
      refine ⟨((C83_recognised_names_partial depth f.path id).mp hp).2, ?_⟩
      have hpath := hcanon f hf id hp
      cases h : l.find? (fun f => f.path = cachePath depth id) with
      | some g => exact ⟨g.data, rfl⟩
      | none =>
        rw [List.find?_eq_none] at h
        exact absurd (by simpa using hpath) (h f hf)
    · rintro ⟨h20, d, hd⟩
      obtain ⟨f, hf, _⟩ := Option.map_eq_some_iff.mp hd
      have h1 := List.find?_some hf
      simp only [decide_eq_true_eq] at h1
      exact ⟨f, List.mem_of_find?_eq_some hf, by rw [h1]; exact (C16_path_injective_invertible depth).2 id h20⟩

/-- Two chunks and a foreign file: two ids are listed. -/
example : ((Disk.mk [⟨cachePath 2 (List.replicate 20 3), [1, 2], 5⟩, ⟨"README".toList, [9], 5⟩, ⟨cachePath 2 (List.replicate 20 4), [], 5⟩] 0 false true).list 2).1 =
    [List.replicate 20 3, List.replicate 20 4] := by decide +kernel

/-! ## C18 -/

/-- Bytes on disk. -/
def Disk.realSize (s : Disk) : Nat := (s.files.map fun f => f.data.length).sum

/-- Bytes of the files that are at least as recently used as `f` (including `f`); ties are broken by
path. -/
def recentBytes (s : Disk) (f : File) : Nat :=
  ((s.files.filter fun g => !olderThan g f).map fun g => g.data.length).sum

/-- **C18.** For every directory the store may find, every history without a failing write and every
threshold: after a successful cleanup exactly those files are left that fit into the
threshold together with all more recently used files (so eviction is in least-recently-used order
and stops as soon as possible), they occupy at most the threshold, and the cached size does not
underestimate the real one. -/
theorem C18_cleanup_keeps_most_recent (depth : Nat) (fs : List File) (hc : CleanDir depth fs) (ops : List Op)
    (hw : ∀ op ∈ ops, op.writesOk = true) (t : Nat) (cc : Bool) (k : Option Nat) (fails : Str → Bool) (s' : Disk)
    (h : (Disk.run depth { files := fs } ops).cleanup (some t) cc k fails = (s', .ok)) :
    s'.files = (Disk.run depth { files := fs } ops).files.filter
      (fun f => decide (recentBytes (Disk.run depth { files := fs } ops) f ≤ t)) ∧
    s'.realSize ≤ t ∧ (s'.sizeInit = true → s'.realSize ≤ s'.size) := by
  have hwf := wf_run (depth := depth) ops (wf_of_clean hc)
  have hsi : SizeInv (Disk.run depth { files := fs } ops) :=
    sizeInv_run ops (wf_of_clean hc) (by intro h; cases h) hw
  generalize Disk.run depth { files := fs } ops = s at *
  obtain ⟨D, _, e, er, hinv, hok⟩ := cleanup_spec hwf t cc k fails
  rw [h] at e hinv hok
  have hD := hok rfl hsi
  simp only at e
  have hsub : ∀ f ∈ D, f ∈ s.files := fun f hf =>
    (lruSorted_perm s.files).mem_iff.mp ((evicted_prefix t _).subset (hD ▸ hf))
  have hnd : D.Nodup := by
    rw [hD]
    exact (evicted_prefix t _).sublist.nodup
      ((lruSorted_perm s.files).nodup_iff.mpr (List.Nodup.of_map _ hwf.nodup))
  have htot := totalSize_filter_removed s.files D hsub hnd hwf.nodup
  refine ⟨?_, ?_, hinv hsi⟩
  · rw [e]
    apply List.filter_congr
    intro f hf
    have hinj : f.path ∈ D.map File.path ↔ f ∈ D := by
      constructor
      · intro hm
        obtain ⟨g, hg, e'⟩ := List.mem_map.mp hm
        rw [← List.inj_on_of_nodup_map hwf.nodup (hsub g hg) hf e']; exact hg
      · intro hm; exact List.mem_map_of_mem hm
    have hmem := mem_evicted t (lruSorted s.files) (lruSorted_strict s.files hwf.nodup) f
      ((lruSorted_perm s.files).mem_iff.mpr hf)
    rw [← hD] at hmem
    have hp : totalSize ((lruSorted s.files).filter (fun g => !olderThan g f)) = recentBytes s f :=
      totalSize_perm ((lruSorted_perm s.files).filter _)
    rw [hp] at hmem
    have : f.path ∉ D.map File.path ↔ recentBytes s f ≤ t := by
      rw [hinj, hmem]; omega
    exact decide_eq_decide.mpr this
  · show totalSize s'.files ≤ t
    rw [e]
    have h1 := evicted_total t (lruSorted s.files)
    rw [← hD, totalSize_perm (lruSorted_perm s.files)] at h1
    omega

/-- **C18, interrupted cleanup.** Whatever the outcome (interrupted, failing to remove a file), no file
is evicted while an older one is kept. -/
theorem C18_lru_order_always (depth : Nat) (fs : List File) (hc : CleanDir depth fs) (ops : List Op)
    (t : Nat) (cc : Bool) (k : Option Nat) (fails : Str → Bool) (f g : File)
    (hf : f ∈ (Disk.run depth { files := fs } ops).files) (hg : g ∈ (Disk.run depth { files := fs } ops).files)
    (hf' : f ∉ ((Disk.run depth { files := fs } ops).cleanup (some t) cc k fails).1.files)
    (hg' : g ∈ ((Disk.run depth { files := fs } ops).cleanup (some t) cc k fails).1.files) :
    f.mtime ≤ g.mtime := by
  have hwf := wf_run (depth := depth) ops (wf_of_clean hc)
  generalize Disk.run depth { files := fs } ops = s at *
  obtain ⟨D, hD, e, _⟩ := cleanup_spec hwf t cc k fails
  rw [e] at hf' hg'
  simp only [List.mem_filter, decide_eq_true_eq, not_and, Decidable.not_not] at hf' hg'
  have hfD := hf' hf
  have hpre : D <+: lruSorted s.files := by
    rcases hD with rfl | hD
    · exact List.nil_prefix
    · exact hD.trans (evicted_prefix t _)
  obtain ⟨rest, hr⟩ := hpre
  obtain ⟨f2, hf2, e2⟩ := List.mem_map.mp hfD
  have hf2s : f2 ∈ s.files := (lruSorted_perm s.files).mem_iff.mp (by rw [← hr]; simp [hf2])
  have hff : f2 = f := List.inj_on_of_nodup_map hwf.nodup hf2s hf e2
  rw [hff] at hf2
  have hgr : g ∈ rest := by
    have := (lruSorted_perm s.files).mem_iff.mpr hg
    rw [← hr, List.mem_append] at this
    rcases this with h | h
    · exact absurd (List.mem_map_of_mem h) hg'.2
    · exact h
  have hs := lruSorted_strict s.files hwf.nodup
  rw [← hr, List.pairwise_append] at hs
  have ho := hs.2.2 f hf2 g hgr
  unfold olderThan at ho
  by_cases em : f.mtime = g.mtime
  · omega
  · rw [if_neg em] at ho; simp at ho; omega

/-- What one operation does to the time a chunk was last used: written or read. -/
def Op.use (id : Id) (last : Option Nat) : Op → Option Nat
  | .put i _ now => if i = id then some now else last
  | .putFails i _ now (some _) => if i = id then some now else last
  | .get i now => if i = id then last.map fun _ => now else last
  | .getRange i _ size now => if i = id ∧ size ≠ 0 then last.map fun _ => now else last
  | _ => last

theorem mtime_step {depth : Nat} {s : Disk} (h : WF depth s) (id : Id) (last : Option Nat)
    (hl : ∀ f ∈ s.files, f.path = cachePath depth id → last = some f.mtime) (op : Op) :
    ∀ f ∈ (s.step depth op).files, f.path = cachePath depth id → op.use id last = some f.mtime := by
  have hwrite : ∀ (i : Id) (d : Bytes) (now : Nat), ∀ f ∈ writeFile s.files ⟨cachePath depth i, d, now⟩,
      f.path = cachePath depth id → (if i = id then some now else last) = some f.mtime := by
    intro i d now f hf hp
    unfold writeFile at hf
    simp only [List.mem_append, List.mem_filter, decide_eq_true_eq, List.mem_singleton] at hf
    rcases hf with ⟨hf, hne⟩ | rfl
    · rw [if_neg (fun e => hne (by rw [hp, e])), hl f hf hp]
    · rw [if_pos (cachePath_inj hp)]
  have htouch : ∀ (i : Id) (now : Nat), ∀ f ∈ touch s.files (cachePath depth i) now,
      f.path = cachePath depth id → (if i = id then last.map fun _ => now else last) = some f.mtime := by
    intro i now f hf hp
    obtain ⟨g, hg, rfl⟩ := List.mem_map.mp hf
    by_cases e : g.path = cachePath depth i
    · rw [if_pos e] at hp ⊢
      rw [if_pos (cachePath_inj (e.symm.trans hp)), hl g hg hp]; rfl
    · rw [if_neg e] at hp ⊢
      rw [if_neg (fun e' => e (by rw [hp, e'])), hl g hg hp]
  cases op with
  | put i d now => exact hwrite i d now
  | putFails i d now n =>
    cases n with
    | none => exact hl
    | some n => exact hwrite i (d.take n) now
  | get i now =>
    intro f hf hp
    unfold Disk.step Disk.get at hf
    unfold Op.use
    dsimp only at hf ⊢
    cases hfind : s.find (cachePath depth i) with
    | none =>
      rw [hfind] at hf
      have := hl f hf hp
      by_cases e : i = id
      · subst e
        have := List.find?_eq_none.mp hfind f hf
        simp [hp] at this
      · rw [if_neg e, this]
    | some g => rw [hfind] at hf; exact htouch i now f hf hp
  | getRange i o n now =>
    intro f hf hp
    unfold Disk.step Disk.getRange at hf
    unfold Op.use
    dsimp only at hf ⊢
    by_cases hn : n = 0
    · rw [if_pos hn] at hf
      rw [if_neg (fun e => e.2 hn)]
      exact hl f hf hp
    · rw [if_neg hn] at hf
      cases hfind : s.find (cachePath depth i) with
      | none =>
        rw [hfind] at hf
        have := hl f hf hp
        by_cases e : i = id
        · subst e
          have := List.find?_eq_none.mp hfind f hf
          simp [hp] at this
        · rw [if_neg (fun e' => e e'.1), this]
      | some g =>
        rw [hfind] at hf
        have := htouch i now f hf hp
        by_cases e : i = id
        · rw [if_pos e] at this; rw [if_pos ⟨e, hn⟩]; exact this
        · rw [if_neg e] at this; rw [if_neg (fun e' => e e'.1)]; exact this
  | remove i => intro f hf hp; exact hl f (List.mem_filter.mp hf).1 hp
  | prune keep order c fails =>
    obtain ⟨l, D, _, _, e, _⟩ := prune_spec h keep order c fails
    intro f hf hp
    have hf' : f ∈ (Disk.prune depth s keep order c fails).1.files := hf
    rw [e] at hf'
    exact hl f (List.mem_filter.mp hf').1 hp
  | wipe c => intro f hf; cases hf
  | cleanup t c k fails =>
    intro f hf hp
    have hf' : f ∈ (s.cleanup t c k fails).1.files := hf
    cases t with
    | none => exact hl f hf' hp
    | some t =>
      obtain ⟨D, _, e, _⟩ := cleanup_spec h t c k fails
      rw [e] at hf'
      exact hl f (List.mem_filter.mp hf').1 hp
  | list =>
    intro f hf hp
    have hf' : f ∈ s.collect.files := hf
    rw [collect_files] at hf'
    exact hl f hf' hp

theorem mtime_run {depth : Nat} (id : Id) (ops : List Op) : ∀ {s : Disk} (last : Option Nat), WF depth s →
    (∀ f ∈ s.files, f.path = cachePath depth id → last = some f.mtime) →
    ∀ f ∈ (s.run depth ops).files, f.path = cachePath depth id → ops.foldl (Op.use id) last = some f.mtime := by
  induction ops with
  | nil => intro s last _ hl; exact hl
  | cons op ops ih =>
    intro s last h hl
    exact ih (s := s.step depth op) (op.use id last) (wf_step h op) (mtime_step h id last hl op)

/-- **C18, recency.** The time by which chunks are ranked is the time of last use: for every history,
the time stamp of a stored chunk is that of the last write or read of it (or the one it had when the
store was opened). -/
theorem C18_rank_is_last_use (depth : Nat) (fs : List File) (hc : CleanDir depth fs) (ops : List Op)
    (id : Id) (f : File) (hf : f ∈ (Disk.run depth { files := fs } ops).files)
    (hp : f.path = cachePath depth id) :
    some f.mtime =
      ops.foldl (Op.use id) ((fs.find? fun g => g.path = cachePath depth id).map File.mtime) := by
  refine (mtime_run id ops _ (wf_of_clean hc) ?_ f hf hp).symm
  intro g hg hgp
  cases hfind : fs.find? (fun g => g.path = cachePath depth id) with
  | none => have := List.find?_eq_none.mp hfind g hg; simp [hgp] at this
  | some g' =>
    have h1 := List.find?_some hfind
    simp only [decide_eq_true_eq] at h1
    have h2 := List.mem_of_find?_eq_some hfind
    rw [Option.map_some, List.inj_on_of_nodup_map hc.1 h2 hg (h1.trans hgp.symm)]

example : ∃ f ∈ (Disk.run 1 {} [.put (List.replicate 20 1) [1] 5, .get (List.replicate 20 1) 8]).files,
    f.path = cachePath 1 (List.replicate 20 1) ∧ f.mtime = 8 :=
  ⟨⟨cachePath 1 (List.replicate 20 1), [1], 8⟩, by decide +kernel, rfl, rfl⟩

/-- **C84, violated by a failing write.** If writing a chunk fails half-way the file stays but is not
counted; a later cleanup then succeeds while the directory is over the threshold. -/
theorem C84_failed_write_violated :
    ∃ (ops : List Op) (t : Nat) (s' : Disk),
      (Disk.run 2 {} ops).cleanup (some t) false none (fun _ => false) = (s', .ok) ∧ ¬ s'.realSize ≤ t := by
  refine ⟨[.list, .putFails (List.replicate 20 1) [1, 2, 3, 4] 7 (some 3)], 2, _, rfl, ?_⟩
  decide +kernel

/-- **C84, what holds.** Whatever has failed before: from the moment the store lists its directory, the capacity is
enforced again, as long as no further write fails half-way. (A store that is opened lists its directory at the first
cleanup, `C18_cleanup_keeps_most_recent`.) Missing: cleanups between the failed write and the next listing, see
`C84_failed_write_violated`. -/
theorem C84_enforced_again_partial (depth : Nat) (fs : List File) (hc : CleanDir depth fs) (ops ops' : List Op)
    (hw : ∀ op ∈ ops', op.writesOk = true) (t : Nat) (cc : Bool) (k : Option Nat) (fails : Str → Bool) (s' : Disk)
    (h : (Disk.run depth { files := fs } (ops ++ .list :: ops')).cleanup (some t) cc k fails = (s', .ok)) :
    s'.realSize ≤ t ∧ (s'.sizeInit = true → s'.realSize ≤ s'.size) := by
  have hwf := wf_run (depth := depth) (ops ++ .list :: ops') (wf_of_clean hc)
  have hsi : SizeInv (Disk.run depth { files := fs } (ops ++ .list :: ops')) := by
    unfold Disk.run
    rw [List.foldl_append, List.foldl_cons]
    have h1 := wf_run (depth := depth) ops (wf_of_clean hc)
    refine sizeInv_run ops' (wf_step h1 .list) ?_ hw
    show SizeInv (Disk.collect _)
    unfold Disk.collect
    split
    · intro _; exact Nat.le_refl _
    · rename_i hr
      intro _
      have : (List.foldl (Disk.step depth) { files := fs } ops).files = [] := h1.root (Bool.eq_false_iff.mpr hr)
      rw [this]; exact Nat.zero_le _
  generalize Disk.run depth { files := fs } (ops ++ .list :: ops') = s at *
  obtain ⟨D, _, e, er, hinv, hok⟩ := cleanup_spec hwf t cc k fails
  rw [h] at e hinv hok
  have hD := hok rfl hsi
  simp only at e
  have hsub : ∀ f ∈ D, f ∈ s.files := fun f hf =>
    (lruSorted_perm s.files).mem_iff.mp ((evicted_prefix t _).subset (hD ▸ hf))
  have hnd : D.Nodup := by
    rw [hD]
    exact (evicted_prefix t _).sublist.nodup
      ((lruSorted_perm s.files).nodup_iff.mpr (List.Nodup.of_map _ hwf.nodup))
  have htot := totalSize_filter_removed s.files D hsub hnd hwf.nodup
  refine ⟨?_, hinv hsi⟩
  show totalSize s'.files ≤ t
  rw [e]
  have h1 := evicted_total t (lruSorted s.files)
  rw [← hD, totalSize_perm (lruSorted_perm s.files)] at h1
  omega

/-- A history with a failed write, a listing and a cleanup. -/
example : ∃ s', (Disk.run 1 {} ([.list, .putFails (List.replicate 20 1) [1, 2, 3, 4] 7 (some 3)] ++ .list ::
    [.put (List.replicate 20 2) [2] 8])).cleanup (some 2) false none (fun _ => false) = (s', .ok) ∧
    s'.files.map File.data = [[2]] :=
  ⟨_, Prod.ext rfl (by decide +kernel), by decide +kernel⟩

/-- A cleanup that evicts one of three chunks. -/
example : ∃ s', (Disk.run 1 {} [.put (List.replicate 20 1) [1, 1, 1] 5, .put (List.replicate 20 2) [2, 2] 3,
    .put (List.replicate 20 3) [3] 9]).cleanup (some 5) false none (fun _ => false) = (s', .ok) ∧
    s'.files.map File.data = [[1, 1, 1], [3]] :=
  ⟨_, Prod.ext rfl (by decide +kernel), by decide +kernel⟩

/-! ## C19 -/

/-- **C19, disk store.** For every history, a prune that is not interrupted and can remove files leaves
exactly the chunks that were present and requested, with unchanged bytes, leaves files that are not
chunks alone, and reports NotFound exactly if a requested chunk was missing. -/
theorem C19_disk_prune_exact (depth : Nat) (fs : List File) (hc : CleanDir depth fs) (ops : List Op)
    (keep : List Id) (hk : ∀ i ∈ keep, i.length = 20) (order : List File) (s' : Disk) (st : Status)
    (h : (Disk.run depth { files := fs } ops).prune depth keep order false (fun _ => false) = (s', st)) :
    (∀ i : Id, i.length = 20 →
      s'.lookup depth i = if i ∈ keep then (Disk.run depth { files := fs } ops).lookup depth i else none) ∧
    (∀ f ∈ (Disk.run depth { files := fs } ops).files, parsePath depth f.path = none → f ∈ s'.files) ∧
    (st = .ok ↔ ∀ i ∈ keep, (Disk.run depth { files := fs } ops).lookup depth i ≠ none) ∧
    (st = .ok ∨ st = .notFound) := by
  have hwf := wf_run (depth := depth) ops (wf_of_clean hc)
  generalize Disk.run depth { files := fs } ops = s at *
  have ha := allowed_step hwf (.prune keep order false (fun _ => false))
  have hs' : s.step depth (.prune keep order false (fun _ => false)) = s' := by simp only [Disk.step, h]
  rw [hs'] at ha
  obtain ⟨l, D, hl, hD, e, _, _, hok, hfin⟩ := prune_spec hwf keep order false (fun _ => false)
  rw [h] at e hok hfin
  have hst := hfin rfl (fun _ => rfl)
  simp only at e hok hst
  obtain ⟨hd, hok2⟩ := hok hst
  refine ⟨?_, ?_, ?_, hst⟩
  · intro i hi
    split
    · rename_i hm
      rcases ha.1 i with e' | ⟨e', _⟩
      · exact e'
      · exact absurd hm e'
    · rename_i hm; exact ha.2 rfl (fun _ => rfl) i hi hm
  · intro f hf hp
    rw [e, hd, filter_not_mem_toDrop depth keep s.files l hl, List.mem_filter]
    exact ⟨hf, by simp [hp]⟩
  · rw [hok2, List.filter_eq_nil_iff]
    constructor
    · intro h' i hi hnone
      have h1 := h' i hi
      simp only [decide_eq_true_eq, not_forall] at h1
      obtain ⟨f, hf, hp⟩ := h1
      have hp' : parsePath depth f.path = some i := Decidable.of_not_not hp
      have hpath := hwf.canon f (hl.mem_iff.mp hf) i hp'
      unfold Disk.lookup Disk.find at hnone
      rw [Option.map_eq_none_iff, List.find?_eq_none] at hnone
      exact absurd (by simpa using hpath) (by simpa using hnone f (hl.mem_iff.mp hf))
    · intro h' i hi
      simp only [decide_eq_true_eq, not_forall]
      have := h' i hi
      unfold Disk.lookup Disk.find at this
      cases hf : s.files.find? (fun f => f.path = cachePath depth i) with
      | none => rw [hf] at this; exact absurd rfl this
      | some f =>
        have h1 := List.find?_some hf
        simp only [decide_eq_true_eq] at h1
        refine ⟨f, hl.mem_iff.mpr (List.mem_of_find?_eq_some hf), ?_⟩
        rw [h1, parsePath_cachePath, if_pos (show i.length = kHashSize from hk i hi)]
        simp

/-! ## In-memory store -/

theorem mem_find_filter (m : Mem) (P : Id → Bool) (i : Id) :
    Mem.find (m.filter (fun e => P e.1)) i = if P i then Mem.find m i else none := by
  unfold Mem.find
  induction m with
  | nil => simp
  | cons e m ih =>
    rw [List.filter_cons]
    by_cases h1 : P e.1
    · rw [if_pos h1, List.find?_cons, List.find?_cons]
      by_cases h2 : e.1 = i
      · subst h2; simp [h1]
      · simp only [h2, decide_false]; exact ih
    · rw [if_neg h1, ih, List.find?_cons]
      by_cases h2 : e.1 = i
      · subst h2; simp [h1]
      · simp [h2]

theorem mem_find_remove (m : Mem) (id i : Id) : (m.remove id).find i = if i = id then none else m.find i := by
  unfold Mem.remove
  rw [mem_find_filter m (fun x => decide (x ≠ id))]
  by_cases h : i = id <;> simp [h]

theorem mem_find_put (m : Mem) (id i : Id) (d : Bytes) : (m.put id d).find i = if i = id then some d else m.find i := by
  have h0 := mem_find_remove m id i
  unfold Mem.put
  unfold Mem.remove at h0
  unfold Mem.find at *
  rw [List.find?_append]
  by_cases h : i = id
  · subst h
    rw [if_pos rfl] at h0
    rw [Option.map_eq_none_iff] at h0
    rw [h0]; simp
  · rw [if_neg h] at h0
    rw [if_neg h, ← h0]
    have : ¬ id = i := fun e => h e.symm
    simp [this]

theorem mem_find_removeAll (ids : List Id) : ∀ (m : Mem) (i : Id),
    Mem.find (ids.foldl Mem.remove m) i = if i ∈ ids then none else m.find i := by
  induction ids with
  | nil => intro m i; simp
  | cons x ids ih =>
    intro m i
    rw [List.foldl_cons, ih, mem_find_remove]
    by_cases h1 : i = x <;> by_cases h2 : i ∈ ids <;> simp [h1, h2]

/-- Keys are distinct (a map). -/
def Mem.Distinct (m : Mem) : Prop := (m.map Prod.fst).Nodup

theorem memPruneLoop_spec : ∀ (m : Mem) (keep : List Id), m.Distinct →
    (memPruneLoop m keep).1 = (m.map Prod.fst).filter (fun i => decide (i ∉ keep)) ∧
    (memPruneLoop m keep).2 = keep.filter (fun i => decide (i ∉ m.map Prod.fst))
  | [], keep, _ => ⟨rfl, (List.filter_eq_self.mpr (by simp)).symm⟩
  | (id, d) :: m, keep, h => by
    unfold Mem.Distinct at h
    rw [List.map_cons, List.nodup_cons] at h
    simp only [memPruneLoop]
    split
    · rename_i hk
      obtain ⟨h1, h2⟩ := memPruneLoop_spec m (keep.filter (· ≠ id)) h.2
      rw [h1, h2]
      refine ⟨?_, ?_⟩
      · rw [List.map_cons, List.filter_cons, if_neg (by simpa using hk)]
        apply List.filter_congr
        intro x hx
        have : x ≠ id := fun e => h.1 (e ▸ hx)
        simp [this]
      · rw [List.filter_filter]
        apply List.filter_congr
        intro x _
        by_cases hx : x = id <;> simp [hx]
    · rename_i hk
      obtain ⟨h1, h2⟩ := memPruneLoop_spec m keep h.2
      rw [h1, h2]
      refine ⟨?_, ?_⟩
      · rw [List.map_cons, List.filter_cons, if_pos (by simpa using hk)]
      · apply List.filter_congr
        intro x hx
        have : x ≠ id := fun e => hk (e ▸ hx)
        simp [this]

theorem mem_find_ne_none (m : Mem) (i : Id) : m.find i ≠ none ↔ i ∈ m.map Prod.fst := by
  unfold Mem.find
  rw [Ne, Option.map_eq_none_iff, List.find?_eq_none]
  simp only [decide_eq_true_eq, not_forall, Decidable.not_not, List.mem_map]
  constructor
  · rintro ⟨x, hx, e⟩; exact ⟨x, hx, e⟩
  · rintro ⟨x, hx, e⟩; exact ⟨x, hx, e⟩

theorem distinct_remove (m : Mem) (id : Id) (h : m.Distinct) : (m.remove id).Distinct :=
  (List.filter_sublist.map _).nodup h

theorem distinct_step (m : Mem) (op : MemOp) (h : m.Distinct) : (m.step op).Distinct := by
  cases op with
  | put id d =>
    unfold Mem.Distinct
    simp only [Mem.step, Mem.put, List.map_append, List.map_cons, List.map_nil]
    rw [List.nodup_append]
    refine ⟨(List.filter_sublist.map _).nodup h, by simp, ?_⟩
    intro a ha b hb
    simp only [List.mem_singleton] at hb
    subst hb
    simp only [List.mem_map, List.mem_filter, decide_eq_true_eq] at ha
    obtain ⟨f, ⟨_, hf⟩, rfl⟩ := ha
    exact hf
  | remove id => exact distinct_remove m id h
  | prune keep =>
    simp only [Mem.step, Mem.prune]
    generalize (memPruneLoop m keep).1 = ids
    induction ids generalizing m with
    | nil => exact h
    | cons x ids ih => exact ih _ (distinct_remove m x h)
  | wipe => simp [Mem.step, Mem.Distinct]

theorem distinct_run (ops : List MemOp) : ∀ m : Mem, m.Distinct → (m.run ops).Distinct := by
  induction ops with
  | nil => intro m h; exact h
  | cons op ops ih => intro m h; exact ih _ (distinct_step m op h)

/-- **C19, in-memory store.** -/
theorem C19_mem_prune_exact (ops : List MemOp) (keep : List Id) :
    (∀ i, ((Mem.run [] ops).prune keep).1.find i = if i ∈ keep then (Mem.run [] ops).find i else none) ∧
    (((Mem.run [] ops).prune keep).2 = .ok ↔ ∀ i ∈ keep, (Mem.run [] ops).find i ≠ none) := by
  have hd : (Mem.run [] ops).Distinct := distinct_run ops [] (by simp [Mem.Distinct])
  generalize Mem.run [] ops = m at *
  obtain ⟨h1, h2⟩ := memPruneLoop_spec m keep hd
  constructor
  · intro i
    simp only [Mem.prune]
    rw [mem_find_removeAll, h1]
    by_cases hk : i ∈ keep
    · simp [hk]
    · rw [if_neg hk]
      split
      · rfl
      · rename_i hm
        simp only [List.mem_filter, hk, not_false_eq_true, decide_true, and_true] at hm
        refine Decidable.byContradiction fun h => hm ?_
        exact (mem_find_ne_none m i).mp h
  · simp only [Mem.prune]
    rw [h2]
    constructor
    · intro h i hi
      rw [mem_find_ne_none]
      split at h
      · rename_i he
        rw [List.filter_eq_nil_iff] at he
        simpa using he i hi
      · cases h
    · intro h
      rw [if_pos]
      rw [List.filter_eq_nil_iff]
      intro i hi
      have := (mem_find_ne_none m i).mp (h i hi)
      simpa using this

/-! ## C23 -/

/-- The map after a history. -/
def specMem (m : Map) : List MemOp → Map
  | [] => m
  | .put id d :: ops => specMem (fun i => if i = id then some d else m i) ops
  | .remove id :: ops => specMem (fun i => if i = id then none else m i) ops
  | .prune keep :: ops => specMem (fun i => if i ∈ keep then m i else none) ops
  | .wipe :: ops => specMem (fun _ => none) ops

theorem mem_step_find (m : Mem) (hd : m.Distinct) (op : MemOp) : (m.step op).find = specMem m.find [op] := by
  funext i
  cases op with
  | put id d => exact mem_find_put m id i d
  | remove id => exact mem_find_remove m id i
  | wipe => rfl
  | prune keep =>
    simp only [specMem, Mem.step, Mem.prune]
    rw [mem_find_removeAll, (memPruneLoop_spec m keep hd).1]
    by_cases hk : i ∈ keep
    · simp [hk]
    · rw [if_neg hk]
      split
      · rfl
      · rename_i hm
        simp only [List.mem_filter, hk, not_false_eq_true, decide_true, and_true] at hm
        exact Decidable.byContradiction fun h => hm ((mem_find_ne_none m i).mp h)

theorem mem_run_find (ops : List MemOp) : ∀ (m : Mem), m.Distinct → (m.run ops).find = specMem m.find ops := by
  induction ops with
  | nil => intro m _; rfl
  | cons op ops ih =>
    intro m hd
    have h := ih (m.step op) (distinct_step m op hd)
    rw [mem_step_find m hd op] at h
    show ((m.step op).run ops).find = _
    rw [h]
    cases op <;> rfl

/-- **C23.** After every history the in-memory store agrees with a map; range reads return exactly the
part of the requested range that exists. -/
theorem C23_mem_store_refines_map (ops : List MemOp) (id : Id) (offset size : Nat) :
    (Mem.run [] ops).get id = specMem (fun _ => none) ops id ∧
    (Mem.run [] ops).getRange id offset size =
      (specMem (fun _ => none) ops id).map (fun d => (d.drop offset).take size) ∧
    ((Mem.run [] ops).contains id = true ↔ specMem (fun _ => none) ops id ≠ none) := by
  have h : (Mem.run [] ops).find = specMem (fun _ => none) ops := by
    rw [mem_run_find ops [] (by simp [Mem.Distinct])]; rfl
  refine ⟨by rw [← h]; rfl, ?_, ?_⟩
  · rw [← h]
    unfold Mem.getRange
    cases (Mem.run [] ops).find id with
    | none => rfl
    | some d =>
      simp only [Option.map_some]
      split
      · rename_i ho; rw [List.drop_of_length_le ho]; simp
      · rename_i ho
        congr 1
        rcases Nat.le_total (d.length - offset) size with hl | hl
        · rw [Nat.min_eq_left hl, List.take_of_length_le (by simp), List.take_of_length_le (by simp; omega)]
        · rw [Nat.min_eq_right hl]
  · rw [← h]
    unfold Mem.contains
    cases (Mem.run [] ops).find id <;> simp

/-- **C23, added data.** Data that was added is returned under its hash; nothing else changes unless it has the same hash. -/
theorem C23_added (hash : Bytes → Id) (ops : List MemOp) (data : Bytes) (id : Id) :
    ((Mem.run [] ops).addData hash data).get id = if id = hash data then some data else (Mem.run [] ops).get id := by
  unfold Mem.addData Mem.get
  exact mem_find_put _ _ _ _

example : (Mem.run [] [.put [1] [7, 8, 9], .put [2] [5], .prune [[1], [3]]]).getRange [1] 1 10 = some [8, 9] ∧
    ((Mem.run [] [.put [1] [7]]).prune [[1], [3]]).2 = .notFound := by decide

end Verif.Store
