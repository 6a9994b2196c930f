import Verif.Updater.UpdateProps
import Verif.Asset.Dir
import Verif.FastCdc.Props

/-! # C82: what is mounted is the source directory

The manifest updater (manifest/manifest_updater.cc, see `Update`) on one side, and the asset tree of the FUSE file system (cdc_fuse_fs/asset.cc, see `Verif.Asset`)
on the other: names, attributes and bytes of the source directory arrive unchanged. -/
namespace Verif.Updater
open Verif.Manifest

/-! ### Specification -/

/-- The client reads lists from the store `S`. Requests may fail (`St.fails`), and other threads may run (`St.conc`). -/
structure Serves (hash : Stored → Id) (S : List Stored) (St : Asset.Store) : Prop where
  chunks : St.chunkLists = findChunks hash S
  assets : St.assetLists = findAssets hash S

/-- `Reached St root p a`: the client got the asset `a` for the path `p`, by looking up names and listing directories, in any state of the directories
on the way. -/
inductive Reached (St : Asset.Store) (root : Manifest.Asset) : List Name → Manifest.Asset → Prop where
  | root : Reached St root [] root
  | lookup {p d n a s s'} : Reached St root p d → Asset.Other St d (Asset.initial d) s → Asset.lookup St d n s (.ok (some a)) s' →
      Reached St root (p ++ [n]) a
  | listing {p d l a s s'} : Reached St root p d → Asset.Other St d (Asset.initial d) s → Asset.allChildren St d s (.ok l) s' → a ∈ l →
      Reached St root (p ++ [a.name]) a

/-- Ids of chunks of files in the source directory are not those of other data. -/
def Identifies (P : Env) (src : Node) (truth : Id → List UInt8) : Prop :=
  ∀ p t c, src.at p = some (.file t c) → ∀ x ∈ P.chunk c, truth (P.cid x) = x

/-! ### Chunk lists -/

theorem refsFrom_eq {truth : Id → List UInt8} {cid : List UInt8 → Id} (off : Nat) (cs : List (List UInt8)) (h : ∀ x ∈ cs, truth (cid x) = x) :
    refsFrom cid off cs = Asset.refsAt truth off (cs.map cid) := by
  induction cs generalizing off with
  | nil => rfl
  | cons c cs ih =>
    rw [refsFrom, List.map_cons, Asset.refsAt, h c (by simp), ih _ fun x hx => h x (by simp [hx])]

theorem bytes_eq {truth : Id → List UInt8} {cid : List UInt8 → Id} (cs : List (List UInt8)) (h : ∀ x ∈ cs, truth (cid x) = x) :
    Asset.bytes truth (cs.map cid) = cs.flatten := by
  unfold Asset.bytes
  rw [List.map_map]
  congr 1
  conv_rhs => rw [← List.map_id cs]
  exact List.map_congr_left fun x hx => h x hx

theorem refsFrom_split (cid : List UInt8 → Id) : ∀ (cs : List (List UInt8)) (off : Nat) (l r : List Ref), refsFrom cid off cs = l ++ r →
    ∃ ca cb, cs = ca ++ cb ∧ l = refsFrom cid off ca ∧ r = refsFrom cid (off + ca.flatten.length) cb := by
  intro cs
  induction cs with
  | nil =>
    intro off l r h
    obtain ⟨rfl, rfl⟩ := List.append_eq_nil_iff.mp h.symm
    exact ⟨[], [], rfl, rfl, rfl⟩
  | cons c cs ih =>
    intro off l r h
    cases l with
    | nil =>
      refine ⟨[], c :: cs, rfl, rfl, ?_⟩
      rw [List.nil_append] at h
      exact h.symm
    | cons x l =>
      rw [refsFrom, List.cons_append, List.cons.injEq] at h
      obtain ⟨h1, h2⟩ := h
      obtain ⟨ca, cb, rfl, rfl, rfl⟩ := ih _ _ _ h2
      refine ⟨c :: ca, cb, rfl, by rw [← h1]; rfl, ?_⟩
      rw [List.flatten_cons, List.length_append, Nat.add_assoc]

theorem refsFrom_shift (cid : List UInt8 → Id) : ∀ (cs : List (List UInt8)) (off base : Nat) (l : List Ref),
    shift base l = refsFrom cid (base + off) cs → l = refsFrom cid off cs := by
  intro cs
  induction cs with
  | nil =>
    intro off base l h
    cases l with
    | nil => rfl
    | cons => cases h
  | cons c cs ih =>
    intro off base l h
    cases l with
    | nil => cases h
    | cons x l =>
      rw [refsFrom] at h
      unfold shift at h
      rw [List.map_cons, List.cons.injEq] at h
      obtain ⟨h1, h2⟩ := h
      rw [refsFrom, ih (off + c.length) base l (by rw [← Nat.add_assoc]; exact h2)]
      congr 1
      cases x with
      | mk o i =>
        simp only [Ref.mk.injEq] at h1 ⊢
        exact ⟨by omega, h1.2⟩

/-- Chunk lists as the builder writes them are what the file system expects. -/
theorem indirect_lists {truth : Id → List UInt8} {cid : List UInt8 → Id} {get : Id → Option (List Ref)} (is : List Indirect) :
    ∀ (off : Nat) (cs : List (List UInt8)), (∀ i ∈ is, ∃ id tl, get i.listId = some (⟨0, id⟩ :: tl)) → (∀ x ∈ cs, truth (cid x) = x) →
      flatIndirect get is = some (refsFrom cid off cs) →
      ∃ lists : List (Id × List Id), is = Asset.indirectAt truth off lists ∧ (∀ l ∈ lists, get l.1 = some (Asset.refsAt truth 0 l.2)) ∧
        cs.flatten = (lists.map fun l => Asset.bytes truth l.2).flatten := by
  induction is with
  | nil =>
    intro off cs _ _ h
    cases cs with
    | nil => exact ⟨[], rfl, (fun _ h => nomatch h), rfl⟩
    | cons => cases h
  | cons i is ih =>
    intro off cs hl ht h
    obtain ⟨id, tl, hi⟩ := hl i (by simp)
    unfold flatIndirect at h
    rw [hi] at h
    cases hr : flatIndirect get is with
    | none => rw [hr] at h; cases h
    | some r =>
      rw [hr] at h
      simp only [Option.some.injEq] at h
      obtain ⟨ca, cb, rfl, h1, rfl⟩ := refsFrom_split cid cs off _ _ h.symm
      have hta : ∀ x ∈ ca, truth (cid x) = x := fun x hx => ht x (by simp [hx])
      have htb : ∀ x ∈ cb, truth (cid x) = x := fun x hx => ht x (by simp [hx])
      have ho : i.offset = off := by
        cases ca with
        | nil => cases h1
        | cons c ca =>
          unfold shift at h1
          rw [refsFrom, List.map_cons, List.cons.injEq, Ref.mk.injEq] at h1
          exact h1.1.1
      obtain ⟨lists, k1, k2, k3⟩ := ih _ cb (fun j hj => hl j (by simp [hj])) htb hr
      refine ⟨(i.listId, ca.map cid) :: lists, ?_, ?_, ?_⟩
      · rw [Asset.indirectAt, bytes_eq ca hta, ← k1, ← ho]
      · intro l hl'
        rcases List.mem_cons.mp hl' with rfl | hl'
        · show get i.listId = some (Asset.refsAt truth 0 (ca.map cid))
          rw [hi, ← refsFrom_eq 0 ca hta]
          congr 1
          exact refsFrom_shift cid ca 0 i.offset _ (by rw [Nat.add_zero, h1, ho])
        · exact k2 l hl'
      · rw [List.flatten_append, k3, List.map_cons, List.flatten_cons, bytes_eq ca hta]

/-! ### Assets of the manifest -/

section
variable {P : Env} {S : List Stored} {src : Node} {St : Asset.Store}

/-- `a` stands for what is at the path `p` in the source directory. -/
def StandsFor (P : Env) (S : List Stored) (src : Node) (p : List Name) (a : Manifest.Asset) : Prop :=
  ∃ x : Part, x.a = a ∧ Exp P.cfg.hash (nmS P.cfg.hash S) ⟨[], S⟩ x ∧ Tidy (Rd P.cfg.hash S) x.t ∧
    ∀ r, reads P.cfg.hash S (look x.t) r = want P src (p ++ r)

theorem standsFor_root {id : Id} {x : Part} (h : Saved P.cfg.hash S S id (want P src) x) : StandsFor P S src [] x.a :=
  ⟨x, rfl, h.exp, h.tidy, fun r => by rw [h.reads]; rfl⟩

theorem StandsFor.seen {p : List Name} {a : Manifest.Asset} (h : StandsFor P S src p a) :
    ∃ y, src.at p = some y ∧ Rd P.cfg.hash S a.info ∧ Manifest.seen P.cfg.hash S a = some (wantMeta P (p.getLastD []) y) := by
  obtain ⟨x, rfl, hx, ht, hr⟩ := h
  have h1 := hr []
  rw [reads_nil, List.append_nil] at h1
  have hrd := ht.fields
  rw [hx.info] at hrd
  obtain ⟨m', hm'⟩ := rd_seen ht.fields
  have hm'' : Manifest.seen P.cfg.hash S x.t = some m' := hm'
  rw [hm''] at h1
  unfold want at h1
  obtain ⟨y, hy, h2⟩ := Option.map_eq_some_iff.mp h1.symm
  refine ⟨y, hy, hrd, ?_⟩
  rw [h2, ← hm'']
  unfold Manifest.seen
  rw [hx.info]

/-- The entries of a directory. -/
theorem StandsFor.entries (hS : Serves P.cfg.hash S St) {p : List Name} {d : Manifest.Asset} (h : StandsFor P S src p d) :
    ∃ es, Asset.Entries St d es ∧ (es.map Asset.name).Nodup ∧ (∀ a ∈ es, StandsFor P S src (p ++ [a.name]) a) ∧
      ∀ n, (∀ a ∈ es, a.name ≠ n) → src.at (p ++ [n]) = none := by
  obtain ⟨x, rfl, hx, ht, hr⟩ := h
  obtain ⟨m, ds, gs, rfl, hok⟩ := hx.cases'
  refine ⟨(allParts ds gs).map Part.a, ⟨gs.map fun g => g.2.map Part.a, ?_, ?_⟩, ?_, ?_, ?_⟩
  · rw [hS.assets]
    show (gs.map Prod.fst).map _ = _
    rw [List.map_map, List.map_map]
    exact List.map_congr_left fun g hg => hok.lists g hg
  · unfold allParts
    rw [List.map_append, List.map_flatMap]
    show _ = ds.map Part.a ++ _
    rw [List.flatMap_def]
  · have := ht.nodup
    have e : ((dirPart m ds gs).t.children.map Asset.name) = ((allParts ds gs).map Part.a).map Asset.name := by
      show (((ds ++ gs.flatMap Prod.snd).map Part.t).map Asset.name) = _
      rw [List.map_map, List.map_map]
      exact List.map_congr_left fun y hy => part_name hok hy
    rw [e] at this; exact this
  · intro a ha
    obtain ⟨y, hy, rfl⟩ := List.mem_map.mp ha
    refine ⟨y, rfl, hok.all y hy, tidy_part ht hy, fun r => ?_⟩
    have := hr (y.a.name :: r)
    unfold reads at this
    rw [look_part hok ht hy] at this
    rw [List.append_assoc]
    exact this
  · intro n hn
    have := hr [n]
    unfold reads at this
    rw [look_absent hok fun y hy => hn y.a (List.mem_map.mpr ⟨y, hy, rfl⟩)] at this
    unfold want at this
    simpa using this.symm

/-- The contents of a file. -/
theorem StandsFor.encodes (hS : Serves P.cfg.hash S St) (hchunk : ∀ c, (P.chunk c).flatten = c) {truth : Id → List UInt8} (ht : Identifies P src truth)
    {p : List Name} {a : Manifest.Asset} (h : StandsFor P S src p a) {t : Int} {c : List UInt8} (hp : src.at p = some (.file t c)) :
    Asset.Encodes truth St a c := by
  obtain ⟨y, hy, hrd, hs⟩ := h.seen
  rw [hp] at hy
  cases hy
  unfold Manifest.seen at hs
  obtain ⟨cs, hcs, hm⟩ := Option.map_eq_some_iff.mp hs
  have h1 : cs = refsFrom P.cid 0 (P.chunk c) := (congrArg Meta.chunks hm : _)
  have h2 : a.info.kind = .file := (congrArg Meta.kind hm : _)
  have h3 : a.info.fileSize = c.length := (congrArg Meta.fileSize hm : _)
  subst h1
  unfold flatChunks at hcs
  obtain ⟨r, hr, h4⟩ := Option.map_eq_some_iff.mp hcs
  obtain ⟨ca, cb, h5, h6, rfl⟩ := refsFrom_split P.cid _ _ _ _ h4.symm
  have hta : ∀ x ∈ ca, truth (P.cid x) = x := fun x hx => ht p t c hp x (by rw [h5]; simp [hx])
  have htb : ∀ x ∈ cb, truth (P.cid x) = x := fun x hx => ht p t c hp x (by rw [h5]; simp [hx])
  rw [Nat.zero_add] at hr
  obtain ⟨lists, k1, k2, k3⟩ := indirect_lists a.info.indirect _ cb hrd.2.1 htb hr
  refine ⟨ca.map P.cid, lists, h2, h3, ?_, ?_, ?_, ?_⟩
  · rw [h6, refsFrom_eq 0 ca hta]
  · rw [bytes_eq ca hta]; exact k1
  · rw [hS.chunks]; exact k2
  · rw [bytes_eq ca hta, ← k3, ← List.flatten_append, ← h5, hchunk]

theorem StandsFor.dir {p : List Name} {d : Manifest.Asset} (h : StandsFor P S src p d) : d.info.kind = .directory ↔ ∃ t es, src.at p = some (.dir t es) := by
  obtain ⟨y, hy, -, hs⟩ := h.seen
  unfold Manifest.seen at hs
  obtain ⟨cs, -, hm⟩ := Option.map_eq_some_iff.mp hs
  have h2 : d.info.kind = (wantMeta P (p.getLastD []) y).kind := (congrArg Meta.kind hm : _)
  rw [h2, hy]
  cases y with
  | file => exact ⟨(fun h => nomatch h), fun ⟨_, _, h⟩ => nomatch h⟩
  | dir t es => exact ⟨fun _ => ⟨t, es, rfl⟩, fun _ => rfl⟩

theorem lookup_notDir {d : Manifest.Asset} (hd : d.info.kind ≠ .directory) {n : Name} {s s' : Asset.State} {r} (h : Asset.lookup St d n s r s') : r = .error := by
  unfold Asset.lookup at h
  rw [if_pos hd] at h
  exact h.1

theorem allChildren_notDir {d : Manifest.Asset} (hd : d.info.kind ≠ .directory) {s s' : Asset.State} {r} (h : Asset.allChildren St d s r s') : r = .error := by
  unfold Asset.allChildren at h
  rw [if_pos hd] at h
  exact h.1

theorem Reached.standsFor (hS : Serves P.cfg.hash S St) {root : Manifest.Asset} (h0 : StandsFor P S src [] root) {p : List Name} {a : Manifest.Asset}
    (h : Reached St root p a) : StandsFor P S src p a := by
  induction h with
  | root => exact h0
  | @lookup p d n a s s' _ ho hl ih =>
    by_cases hd : d.info.kind = .directory
    · obtain ⟨es, h1, -, h3, -⟩ := ih.entries hS
      obtain ⟨k1, k2⟩ := (Asset.C26_lookup St d hd es h1 n s s' ho _ hl).1 a rfl
      rw [← k2]; exact h3 a k1
    · cases lookup_notDir hd hl
  | @listing p d l a s s' _ ho hl ha ih =>
    by_cases hd : d.info.kind = .directory
    · obtain ⟨es, h1, h2, h3, -⟩ := ih.entries hS
      have := (Asset.C26_listing_complete St d hd es h1 h2 s s' ho _ hl).1 l rfl
      exact h3 a (this.mem_iff.mp ha)
    · cases allChildren_notDir hd hl

end
/-! ### Every operation has a result -/

/-- From every state the program has a result. -/
def Total {α : Type} (m : Asset.Prog α) : Prop := ∀ s, ∃ a s', m s a s'

theorem total_pure {α : Type} (a : α) : Total (pure a : Asset.Prog α) := fun s => ⟨a, s, rfl, rfl⟩

theorem total_bind {α β : Type} {m : Asset.Prog α} {f : α → Asset.Prog β} (h1 : Total m) (h2 : ∀ a, Total (f a)) : Total (m >>= f) := by
  intro s
  obtain ⟨a, s', h⟩ := h1 s
  obtain ⟨b, s'', h'⟩ := h2 a s'
  exact ⟨b, s'', a, s', h, h'⟩

theorem total_atomic {St : Asset.Store} {d : Manifest.Asset} {α : Type} {step : Asset.State → α → Asset.State → Prop} (h : ∀ s, ∃ a s', step s a s') :
    Total (Asset.atomic St d step) := by
  intro s
  obtain ⟨a, s', h'⟩ := h s
  exact ⟨a, s', s, .inl rfl, h'⟩

theorem total_fetchDirList (St : Asset.Store) (d : Manifest.Asset) (s : Asset.State) : ∃ r s', Asset.fetchDirList St d s r s' := by
  unfold Asset.fetchDirList
  split
  · exact ⟨_, _, rfl, rfl⟩
  · cases h : d.indirect[s.dirLists.length]? with
    | none => exact ⟨none, s, .inl ⟨.inr rfl, rfl, rfl⟩⟩
    | some id => cases h' : St.assetLists id with
      | none => exact ⟨none, s, .inl ⟨.inr h', rfl, rfl⟩⟩
      | some as => exact ⟨_, _, .inr ⟨id, as, rfl, h', rfl, rfl⟩⟩

theorem total_fetchNext (St : Asset.Store) (d : Manifest.Asset) : Total (Asset.fetchNext St d) :=
  total_bind (total_atomic fun s => ⟨_, s, rfl, rfl⟩) fun all => by
    split
    · exact total_pure _
    · exact total_atomic (total_fetchDirList St d)

theorem total_lookup (St : Asset.Store) (d : Manifest.Asset) (n : Name) : Total (Asset.lookup St d n) := by
  unfold Asset.lookup
  split
  · exact total_pure _
  · have : ∀ k, Total (Asset.lookupLoop St d n k) := by
      intro k
      induction k with
      | zero => exact total_pure _
      | succ k ih =>
        refine total_bind (total_atomic fun s => ⟨_, s, rfl, rfl⟩) fun a => ?_
        cases a with
        | some => exact total_pure _
        | none =>
          refine total_bind (total_fetchNext St d) fun f => ?_
          match f with
          | none => exact total_pure _
          | some false => exact total_pure _
          | some true => exact ih
    exact this _

theorem total_allChildren (St : Asset.Store) (d : Manifest.Asset) : Total (Asset.allChildren St d) := by
  unfold Asset.allChildren
  split
  · exact total_pure _
  · refine total_bind ?_ fun r => ?_
    · have : ∀ k, Total (Asset.fetchAll St d k) := by
        intro k
        induction k with
        | zero => exact total_pure _
        | succ k ih =>
          refine total_bind (total_fetchNext St d) fun f => ?_
          match f with
          | none => exact total_pure _
          | some false => exact total_pure _
          | some true => exact ih
      exact this _
    · cases r with
      | error => exact total_pure _
      | diverged => exact total_pure _
      | ok => exact total_bind (total_atomic fun s => ⟨_, s, rfl, rfl⟩) fun _ => total_pure _

theorem total_getIndirectList (St : Asset.Store) (d : Manifest.Asset) (i : Nat) : Total (Asset.getIndirectList St d i) := by
  unfold Asset.getIndirectList
  split
  · exact total_pure _
  · refine total_bind (total_atomic fun s => ⟨_, s, rfl, rfl⟩) fun f => ?_
    cases f with
    | some => exact total_pure _
    | none =>
      refine total_bind (total_atomic fun s => ?_) fun _ => total_pure _
      unfold Asset.fetchChunkList
      dsimp only
      split
      · exact ⟨_, _, rfl, rfl⟩
      · cases h : d.info.indirect[i]? with
        | none => exact ⟨none, _, .inl ⟨.inr rfl, rfl, rfl⟩⟩
        | some ind => cases h' : St.chunkLists ind.listId with
          | none => exact ⟨none, _, .inl ⟨.inr h', rfl, rfl⟩⟩
          | some refs => exact ⟨_, _, .inr ⟨ind, refs, rfl, h', rfl, rfl⟩⟩

theorem total_chunkLoop (d : Manifest.Asset) (n : Nat) {next : Asset.Loop → Asset.Prog (Option Asset.Loop)} (h : ∀ l, Total (next l)) :
    ∀ (refs : List Ref) (first : Bool) (l : Asset.Loop), Total (Asset.chunkLoop d n next first refs l) := by
  intro refs
  induction refs with
  | nil => intro _ l; exact h l
  | cons r refs ih =>
    intro first l
    unfold Asset.chunkLoop
    split
    · exact total_pure _
    · dsimp only
      split
      · exact total_pure _
      · exact ih _ _

theorem total_listLoop (St : Asset.Store) (d : Manifest.Asset) (k : Nat) : ∀ (n : Nat) (l : Asset.Loop), Total (Asset.listLoop St d k n l) := by
  induction k with
  | zero =>
    intro n l
    unfold Asset.listLoop
    split <;> exact total_pure _
  | succ k ih =>
    intro n l
    refine total_bind (total_getIndirectList St d _) fun r => ?_
    cases r with
    | error => exact total_pure _
    | eof => dsimp only; split <;> exact total_pure _
    | refs refs => exact total_chunkLoop d n (ih _) refs _ l

theorem total_read (St : Asset.Store) (d : Manifest.Asset) {G : Asset.Reader} (hG : ∀ ts, ∃ ok ts', G ts ok ts') (prefetch offset size : Nat) :
    Total (Asset.read St d G prefetch offset size) := by
  unfold Asset.read
  split
  · exact total_pure _
  split
  · exact total_pure _
  refine total_bind ?_ fun r => ?_
  · unfold Asset.startList
    split
    · exact total_pure _
    · exact total_getIndirectList St d _
  · cases r with
    | error => exact total_pure _
    | eof => exact total_pure _
    | refs refs =>
      unfold Asset.readFrom
      dsimp only
      split
      · exact total_pure _
      · refine total_bind (total_chunkLoop d _ (total_listLoop St d _ _) _ _ _) fun r => ?_
        cases r with
        | none => exact total_pure _
        | some l =>
          intro s
          obtain ⟨ok, ts', h⟩ := hG l.tasks
          exact ⟨_, s, rfl, ok, ts', h, rfl⟩

/-! ### Results -/

section
variable (P : Env) (hsort : ∀ l, (P.cfg.sort l).Perm l) (hchunk : ∀ c, (P.chunk c).flatten = c) (src : Node) (srcs : List Node) (S : List Stored) (id : Id)
  (hup : Updates P (src :: srcs) S id) (hver : Versions S (src :: srcs)) (hc : NoCollision P.cfg.hash S) (St : Asset.Store) (hS : Serves P.cfg.hash S St)
  (root : Manifest.Asset) (hroot : findManifest P.cfg.hash S id = some root)
include hsort hchunk hup hver hc hS hroot

theorem reached_standsFor {p : List Name} {a : Manifest.Asset} (h : Reached St root p a) : StandsFor P S src p a := by
  obtain ⟨s, r, x, he, hs⟩ := updates_saved hsort hchunk hc hup hver List.prefix_rfl
  cases he
  have h1 := hs.root
  rw [hroot] at h1
  cases h1
  exact h.standsFor hS (standsFor_root hs)

/-- C82, attributes: whatever the client finds at a path is at that path in the source directory, and has its type, time, size and permissions. Partial: see
`C81_manifest_mirrors_source_partial`. -/
theorem C82_attributes_partial (p : List Name) (a : Manifest.Asset) (h : Reached St root p a) :
    ∃ x, src.at p = some x ∧ a.info.name = p.getLastD [] ∧ a.info.kind = x.kind ∧ a.info.mtime = x.mtime ∧ a.info.fileSize = x.size ∧
      a.info.inProgress = false ∧ ∀ t c, x = .file t c → a.info.perms = if isExecutable (c.take P.buf) then 0o755 else 0o644 := by
  obtain ⟨y, hy, -, hs⟩ := (reached_standsFor P hsort hchunk src srcs S id hup hver hc St hS root hroot h).seen
  unfold Manifest.seen at hs
  obtain ⟨cs, -, hm⟩ := Option.map_eq_some_iff.mp hs
  have h1 : a.info.name = _ := (congrArg Meta.name hm : _)
  have h2 : a.info.kind = _ := (congrArg Meta.kind hm : _)
  have h3 : a.info.mtime = _ := (congrArg Meta.mtime hm : _)
  have h4 : a.info.fileSize = _ := (congrArg Meta.fileSize hm : _)
  have h5 : a.info.inProgress = _ := (congrArg Meta.inProgress hm : _)
  have h6 : a.info.perms = _ := (congrArg Meta.perms hm : _)
  refine ⟨y, hy, ?_⟩
  cases y with
  | file t c => exact ⟨h1, h2, h3, h4, h5, fun _ _ e => by cases e; exact h6⟩
  | dir t es => exact ⟨h1, h2, h3, h4, h5, fun _ _ e => nomatch e⟩

/-- C82, contents: a read of a file at any offset and of any size, in any state of the asset and with other threads running, returns exactly these bytes of the
file in the source directory (clipped at the end), or fails; and it only fails if the data store failed or did not deliver. Partial: see
`C81_manifest_mirrors_source_partial`. -/
theorem C82_contents_partial (truth : Id → List UInt8) (ht : Identifies P src truth) (G : Asset.Reader) (hG : Asset.GoodReader truth G)
    (p : List Name) (a : Manifest.Asset) (h : Reached St root p a) (t : Int) (c : List UInt8) (hp : src.at p = some (.file t c))
    (offset size prefetch : Nat) (hpre : size ≤ prefetch) (s s' : Asset.State) (hs : Asset.Other St a (Asset.initial a) s) (r : Option (Nat × List UInt8))
    (hr : Asset.read St a G prefetch offset size s r s') :
    (∀ n data, r = some (n, data) → data = (c.drop offset).take size ∧ n = data.length) ∧
    (r = none → St.fails ∨ ∃ ts ok ts', G ts ok ts' ∧ (ok = false ∨ Provider.readDone ts' = false)) :=
  Asset.C25_read_right_bytes truth St a c
    ((reached_standsFor P hsort hchunk src srcs S id hup hver hc St hS root hroot h).encodes hS hchunk ht hp) G hG offset size prefetch hpre s s' hs r hr

/-- C82, lookups: looking up a name in a directory fails only if the data store fails, and what it finds is in the source directory. If no other thread uses the directory
at the same time, it finds everything that is there (with other threads it may not: `C86_lookup_race_violated`). Partial: see `C81_manifest_mirrors_source_partial`. -/
theorem C82_lookup_partial (p : List Name) (d : Manifest.Asset) (h : Reached St root p d) (t : Int) (es : List (Name × Node)) (hp : src.at p = some (.dir t es))
    (n : Name) (s s' : Asset.State) (hs : Asset.Other St d (Asset.initial d) s) (r : Asset.DirRes (Option Manifest.Asset))
    (hl : Asset.lookup St d n s r s') :
    (∀ a, r = .ok (some a) → (src.at (p ++ [n])).isSome) ∧ (r = .error → St.fails) ∧ r ≠ .diverged ∧
    (¬ St.conc → r = .ok none → src.at (p ++ [n]) = none) := by
  have hst := reached_standsFor P hsort hchunk src srcs S id hup hver hc St hS root hroot h
  obtain ⟨es', h1, h2, h3, h4⟩ := hst.entries hS
  obtain ⟨k1, k2, k3, k4⟩ := Asset.C26_lookup St d (hst.dir.mpr ⟨t, es, hp⟩) es' h1 n s s' hs r hl
  refine ⟨fun a ha => ?_, k3, k4, fun hcc hr => h4 n (k2 hcc hr)⟩
  obtain ⟨l1, l2⟩ := k1 a ha
  obtain ⟨y, hy, -⟩ := (h3 a l1).seen
  rw [← l2, hy]; rfl

/-- C82, listings: listing a directory gives each name in the directory on disk exactly once, also with other threads, and fails only if the data
store fails. Partial: see `C81_manifest_mirrors_source_partial`. -/
theorem C82_listing_partial (p : List Name) (d : Manifest.Asset) (h : Reached St root p d) (t : Int) (es : List (Name × Node)) (hp : src.at p = some (.dir t es))
    (s s' : Asset.State) (hs : Asset.Other St d (Asset.initial d) s) (r : Asset.DirRes (List Manifest.Asset)) (hl : Asset.allChildren St d s r s') :
    (∀ l, r = .ok l → (l.map Asset.name).Perm (es.map Prod.fst)) ∧ (r = .error → St.fails) ∧ r ≠ .diverged := by
  have hst := reached_standsFor P hsort hchunk src srcs S id hup hver hc St hS root hroot h
  obtain ⟨es', h1, h2, h3, h4⟩ := hst.entries hS
  obtain ⟨k1, k2, k3⟩ := Asset.C26_listing_complete St d (hst.dir.mpr ⟨t, es, hp⟩) es' h1 h2 s s' hs r hl
  refine ⟨fun l hr => ((k1 l hr).map Asset.name).trans ?_, k2, k3⟩
  have hpr := versions_head hver
  refine (List.perm_ext_iff_of_nodup h2 (hpr p t es hp)).mpr fun n => ?_
  constructor
  · intro hn
    obtain ⟨a, ha, rfl⟩ := List.mem_map.mp hn
    obtain ⟨y, hy, -⟩ := (h3 a ha).seen
    refine Decidable.byContradiction fun hne => ?_
    rw [at_no_entry hp (n := a.name) (fun e he e1 => hne (List.mem_map.mpr ⟨e, he, e1⟩)) []] at hy
    cases hy
  · intro hn
    obtain ⟨⟨n', y⟩, he, rfl⟩ := List.mem_map.mp hn
    refine Decidable.byContradiction fun hne => ?_
    have := h4 n' fun a ha e1 => hne (List.mem_map.mpr ⟨a, ha, e1⟩)
    rw [at_entry hpr hp he []] at this
    cases y <;> cases this

/-- C82, completeness: everything in the source directory can be found by looking up its path, whatever state the directories on the way are in, and every file can
be read, if the data store does not fail and no other thread runs at the same time. Partial: see `C81_manifest_mirrors_source_partial`. -/
theorem C82_everything_is_there_partial (hf : ¬ St.fails) (hcc : ¬ St.conc) (p : List Name) (x : Node) (hp : src.at p = some x) :
    ∃ a, Reached St root p a ∧
      ∀ t c truth G, x = .file t c → Identifies P src truth → Asset.GoodReader truth G → (∀ ts, ∃ ok ts', G ts ok ts') →
        (∀ ts ok ts', G ts ok ts' → ok = true ∧ Provider.readDone ts' = true) → ∀ offset size prefetch, size ≤ prefetch →
        ∀ s, Asset.Other St a (Asset.initial a) s → ∃ s', Asset.read St a G prefetch offset size s (some (((c.drop offset).take size).length, (c.drop offset).take size)) s' := by
  have key : ∀ (p r : List Name), src.at (p ++ r) = some x → ∃ a, Reached St root p a := by
    intro p
    induction hn : p.length generalizing p with
    | zero => intro r _; cases List.length_eq_zero_iff.mp hn; exact ⟨root, .root⟩
    | succ k ih =>
      intro r hp
      rcases List.eq_nil_or_concat p with rfl | ⟨p, n, rfl⟩
      · cases hn
      rw [List.concat_eq_append] at hn hp ⊢
      obtain ⟨d, hd⟩ := ih p (by simpa using hn) ([n] ++ r) (by rw [← List.append_assoc]; exact hp)
      have hy : ∃ y, src.at (p ++ [n]) = some y := by
        rw [at_append] at hp
        obtain ⟨y, hy, -⟩ := Option.bind_eq_some_iff.mp hp
        exact ⟨y, hy⟩
      obtain ⟨y, hy⟩ := hy
      obtain ⟨t, es, hpd⟩ : ∃ t es, src.at p = some (.dir t es) := by
        rw [at_append] at hy
        obtain ⟨z, hz, h2⟩ := Option.bind_eq_some_iff.mp hy
        cases z with
        | file => cases h2
        | dir t es => exact ⟨t, es, hz⟩
      obtain ⟨res, s', hl⟩ := total_lookup St d n (Asset.initial d)
      obtain ⟨-, k2, k3, k4⟩ := C82_lookup_partial P hsort hchunk src srcs S id hup hver hc St hS root hroot p d hd t es hpd n _ _ (.refl _) _ hl
      match res, k2, k3, k4, hl with
      | .error, k2, _, _, _ => exact absurd (k2 rfl) hf
      | .diverged, _, k3, _, _ => exact absurd rfl k3
      | .ok none, _, _, k4, _ => rw [k4 hcc rfl] at hy; cases hy
      | .ok (some a), _, _, _, hl => exact ⟨a, .lookup hd (.refl _) hl⟩
  obtain ⟨a, ha⟩ := key p [] (by rw [List.append_nil]; exact hp)
  refine ⟨a, ha, ?_⟩
  rintro t c truth G rfl ht hG hG1 hG2 offset size prefetch hpre s hs
  obtain ⟨r, s', hr⟩ := total_read St a hG1 prefetch offset size s
  obtain ⟨k1, k2⟩ := C82_contents_partial P hsort hchunk src srcs S id hup hver hc St hS root hroot truth ht G hG p a ha t c hp offset size prefetch hpre s s' hs r hr
  match r, k1, k2, hr with
  | none, _, k2, _ =>
    rcases k2 rfl with h | ⟨ts, ok, ts', h, h'⟩
    · exact absurd h hf
    · obtain ⟨h1, h2⟩ := hG2 ts ok ts' h
      rcases h' with h' | h'
      · rw [h1] at h'; cases h'
      · rw [h2] at h'; cases h'
  | some (n, data), k1, _, hr =>
    obtain ⟨rfl, rfl⟩ := k1 n data rfl
    exact ⟨s', hr⟩

end

end Verif.Updater
