import Verif.Manifest.Closed
import Verif.Util.Sort

/-! # C30, C54: what goes wrong when a manifest is loaded, changed and flushed -/
namespace Verif.Manifest

/-! ### Specification -/

/-- The fields of an asset as a reader sees them, with all chunks in one list; `none` if a chunk list is missing. -/
def seen (hash : Stored → Id) (S : List Stored) (a : Asset) : Option Meta :=
  (flatChunks (findChunks hash S) a.info).map fun cs => { a.info with chunks := cs, indirect := [] }

/-- `Has hash S a path m`: following `path` from `a` through the lists in the store `S` leads to an asset with the fields `m`. -/
inductive Has (hash : Stored → Id) (S : List Stored) : Asset → List Name → Meta → Prop where
  | here {a : Asset} {m : Meta} : seen hash S a = some m → Has hash S a [] m
  | child {a c : Asset} {es : List Asset} {path : List Name} {m : Meta} : entries (findAssets hash S) a = some es → c ∈ es →
      Has hash S c path m → Has hash S a (c.name :: path) m

/-- All fields found at a path. -/
def allAt (hash : Stored → Id) (S : List Stored) : Asset → List Name → List Meta
  | a, [] => (seen hash S a).toList
  | a, n :: path => (((entries (findAssets hash S) a).getD []).filter fun c => c.name = n).flatMap fun c => allAt hash S c path

theorem has_iff (hash : Stored → Id) (S : List Stored) (a : Asset) (path : List Name) (m : Meta) :
    Has hash S a path m ↔ m ∈ allAt hash S a path := by
  induction path generalizing a with
  | nil =>
    constructor
    · intro h; cases h with | here h => simp [allAt, h]
    · intro h; simp only [allAt, Option.mem_toList] at h; exact .here h
  | cons n path ih =>
    constructor
    · intro h
      cases h with
      | @child _ c es _ _ h1 h2 h3 =>
        simp only [allAt, List.mem_flatMap, List.mem_filter]
        exact ⟨c, ⟨by rw [h1]; exact h2, by simp⟩, (ih c).mp h3⟩
    · intro h
      simp only [allAt, List.mem_flatMap, List.mem_filter, decide_eq_true_eq] at h
      obtain ⟨c, ⟨h1, rfl⟩, h2⟩ := h
      cases he : entries (findAssets hash S) a with
      | none => rw [he] at h1; cases h1
      | some es => rw [he] at h1; exact .child he h1 ((ih c).mpr h2)

/-- C30: loading a manifest, changing fields of the asset at one path and flushing changes nothing at any other path (provided the path
existed, there are no hash collisions and flushing succeeds). -/
def ChangesStayLocal : Prop :=
  ∀ (cfg : Cfg) (b0 b1 b2 b3 b4 : Builder) (id id' : Id) (fuel fuel' : Nat) (kind : Kind) (path : List Name) (name : Name)
    (f : Asset → Asset) (m : Meta),
    (∀ l, (cfg.sort l).Perm l) → Steps cfg (empty cfg) b0 → flush cfg fuel b0 = some (id, b1) →
    loadManifest cfg b1.store id = some b2 → Has cfg.hash b1.store b2.root (path ++ [name]) m → m.kind = kind →
    NoNewLists f → (∀ a, (f a).name = a.name ∧ (f a).info.kind = a.info.kind ∧ (f a).children = a.children ∧ (f a).indirect = a.indirect) →
    editAsset cfg kind true path name f b2 = .ok b3 → flush cfg fuel' b3 = some (id', b4) → NoCollision cfg.hash b4.store →
    ∀ p m, p ≠ path ++ [name] → (Has cfg.hash b1.store b1.root p m ↔ Has cfg.hash b4.store b4.root p m)

/-- C54: a manifest that was flushed once can be loaded, extended by new files and flushed again. -/
def FlushAlwaysWorks : Prop :=
  ∀ (cfg : Cfg) (b0 b1 : Builder) (id : Id) (fuel : Nat),
    (∀ l, (cfg.sort l).Perm l) → Steps cfg (empty cfg) b0 → flush cfg fuel b0 = some (id, b1) → NoCollision cfg.hash b1.store →
    ∀ b2, loadManifest cfg b1.store id = some b2 →
    ∀ (name : Name) (b3 : Builder), editAsset cfg .file true [] name (fun a => a) b2 = .ok b3 →
    ∃ fuel' id' b4, flush cfg fuel' b3 = some (id', b4)

namespace Alias

mutual
/-- An injective enough stand-in for the content id. -/
def encode : Asset → Id
  | .mk m cs ids => [m.name.length.toUInt8] ++ m.name ++ [m.mtime.toNat.toUInt8, m.fileSize.toUInt8, (m.chunks.length).toUInt8, ids.length.toUInt8] ++
      m.indirect.flatMap (·.listId) ++ ids.flatten ++ encodeL cs
def encodeL : List Asset → Id
  | [] => [0]
  | a :: as => [1] ++ encode a ++ encodeL as
end

def hash : Stored → Id
  | .chunks l => 1 :: l.flatMap fun r => r.offset.toUInt8 :: r.id
  | .assets l => 2 :: encodeL l
  | .manifest r => 3 :: encode r

def cfg : Cfg := { maxSize := 60, hash := hash, sort := id, now := 5 }

def setTime (t : Int) : Asset → Asset
  | .mk m cs ids => .mk { m with mtime := t } cs ids

/-- `GetOrCreateAsset(<dir>/<nine letters c>)` and `SetMtimeSeconds`. -/
def put (dir : UInt8) (c : UInt8) (t : Int) (b : Builder) : Except Err Builder :=
  editAsset cfg .file true [[dir]] [c, c, c, c, c, c, c, c, c] (setTime t) b

def get (r : Except Err Builder) : Builder := r.toOption.getD (empty cfg)

/-- Directories `A` and `B` with the same three files. -/
def c1 := get (put 65 1 1 (empty cfg))
def c2 := get (put 65 2 1 c1)
def c3 := get (put 65 3 1 c2)
def c4 := get (put 66 1 1 c3)
def c5 := get (put 66 2 1 c4)
def b0 := get (put 66 3 1 c5)
def f1 := (flush cfg 20 b0).getD ([], b0)
def b2 := (loadManifest cfg f1.2.store f1.1).getD b0
/-- The time stamp of the third file in `B` is changed. -/
def b3 := get (put 66 3 9 b2)
def f4 := (flush cfg 20 b3).getD ([], b3)

theorem get_ok {r : Except Err Builder} (h : r.toOption.isSome = true) : r = .ok (get r) := by
  cases r with
  | error => cases h
  | ok => rfl

theorem getD_some {α : Type} {o : Option α} {d : α} (h : o.isSome = true) : o = some (o.getD d) := by
  cases o with
  | none => cases h
  | some => rfl

theorem setTime_ok (t : Int) : NoNewLists (setTime t) ∧ ∀ a, (setTime t a).name = a.name ∧ (setTime t a).info.kind = a.info.kind ∧
    (setTime t a).children = a.children ∧ (setTime t a).indirect = a.indirect :=
  ⟨fun a => by cases a; exact ⟨fun _ h => h, fun _ h => h, fun _ h => .inl h⟩, fun a => by cases a; exact ⟨rfl, rfl, rfl, rfl⟩⟩


theorem steps_b0 : Steps cfg (empty cfg) b0 := by
  have key : ∀ {b : Builder} (dir c : UInt8) (t : Int), Steps cfg (empty cfg) b → (put dir c t b).toOption.isSome = true →
      Steps cfg (empty cfg) (get (put dir c t b)) := fun dir c t hs ho =>
    .cons hs (.edit .file true [[dir]] [c, c, c, c, c, c, c, c, c] (setTime t) (setTime_ok t).1 (get_ok ho))
  refine key 66 3 1 (key 66 2 1 (key 66 1 1 (key 65 3 1 (key 65 2 1 (key 65 1 1 (.nil _) ?_) ?_) ?_) ?_) ?_) ?_ <;> decide +kernel

theorem noCollision : NoCollision hash f4.2.store := by
  have : ∀ p ∈ f4.2.store, ∀ q ∈ f4.2.store, hash p = hash q → p = q := by decide +kernel
  exact fun p q hp hq => this p hp q hq

def old : Meta := { name := [3, 3, 3, 3, 3, 3, 3, 3, 3], kind := .file, mtime := 1, perms := 0o644 }

/-- C30 is violated: two directories whose overflow lists are identical share one list in memory (`asset_lists_` is keyed by
content id, manifest_builder.cc:351-363), so that a change to a file in `B` is written to the file in `A` instead. -/
theorem C30_changes_stay_local_violated : ¬ ChangesStayLocal := by
  intro h
  have := h cfg b0 f1.2 b2 b3 f4.2 f1.1 f4.1 20 20 .file [[66]] [3, 3, 3, 3, 3, 3, 3, 3, 3] (setTime 9) old
    (fun _ => .refl _) steps_b0 (getD_some (by decide +kernel)) (getD_some (by decide +kernel))
    ((has_iff _ _ _ _ _).mpr (by decide +kernel)) rfl (setTime_ok 9).1 (setTime_ok 9).2 (get_ok (by decide +kernel)) (getD_some (by decide +kernel)) noCollision
    [[65], [3, 3, 3, 3, 3, 3, 3, 3, 3]] old (by decide)
  rw [has_iff, has_iff] at this
  revert this
  decide +kernel

/-- The change is lost where it was made. -/
example : ¬ Has hash f4.2.store f4.2.root [[66], [3, 3, 3, 3, 3, 3, 3, 3, 3]] { old with mtime := 9 } := by
  rw [has_iff]; decide +kernel

end Alias

/-! ### C54 -/

namespace Reflush

def hash : Stored → Id
  | .chunks l => [1, l.length.toUInt8]
  | .assets l => [2, l.length.toUInt8]
  | .manifest r => [3, r.children.length.toUInt8]

def cfg : Cfg := { maxSize := 640, hash := hash, sort := fun l => Util.isort (fun a b => decide (assetSize b ≤ assetSize a)) l, now := 5 }

/-- A file with thirty chunks. -/
def big : Asset → Asset
  | .mk m cs ids => .mk { m with fileSize := 120, chunks := (List.range 30).map fun i => ⟨4 * i, [i.toUInt8]⟩ } cs ids

def longName (c : UInt8) : Name := List.replicate 100 c

def get (r : Except Err Builder) : Builder := r.toOption.getD (empty cfg)

def add (c : UInt8) (b : Builder) : Except Err Builder := editAsset cfg .file true [] (longName c) (fun a => a) b

def c1 := get (editAsset cfg .file true [] [9] big (empty cfg))
def c2 := get (add 1 c1)
def c3 := get (add 2 c2)
def c4 := get (add 3 c3)
def b0 := get (add 4 c4)
def f1 := (flush cfg 20 b0).getD ([], b0)
def b2 := (loadManifest cfg f1.2.store f1.1).getD b0
def d1 := get (add 5 b2)
def f3 := (flush cfg 20 d1).getD ([], d1)
def b5 := (loadManifest cfg f3.2.store f3.1).getD b0
def b6 := get (add 6 b5)

theorem get_ok {r : Except Err Builder} (h : r.toOption.isSome = true) : r = .ok (get r) := by
  cases r with
  | error => cases h
  | ok => rfl

theorem big_ok : NoNewLists big :=
  fun a => by cases a; exact ⟨fun _ h => h, fun _ h => h, fun _ h => .inl h⟩

theorem id_ok : NoNewLists fun a => a := fun _ => ⟨fun _ h => h, fun _ h => h, fun _ h => .inl h⟩

set_option maxRecDepth 20000 in
theorem steps : Steps cfg (empty cfg) d1 := by
  have key : ∀ {b : Builder} (c : UInt8), Steps cfg (empty cfg) b → (add c b).toOption.isSome = true →
      Steps cfg (empty cfg) (get (add c b)) := fun c hs ho => .cons hs (.edit .file true [] (longName c) _ id_ok (get_ok ho))
  have h1 : Steps cfg (empty cfg) c1 :=
    .cons (.nil _) (.edit .file true [] [9] big big_ok (get_ok (by decide +kernel)))
  have h2 : Steps cfg (empty cfg) b0 := by
    refine key 4 (key 3 (key 2 (key 1 h1 ?_) ?_) ?_) ?_ <;> decide +kernel
  have h3 : Steps cfg (empty cfg) f1.2 := .cons h2 (.flush 20 f1.1 (Alias.getD_some (by decide +kernel)))
  have h4 : Steps cfg (empty cfg) b2 := .cons h3 (.load f1.1 (Alias.getD_some (by decide +kernel)))
  exact key 5 h4 (by decide +kernel)

set_option maxRecDepth 20000 in
theorem noCollision : NoCollision hash f3.2.store := by
  have : ∀ p ∈ f3.2.store, ∀ q ∈ f3.2.store, hash p = hash q → p = q := by decide +kernel
  exact fun p q hp hq => this p hp q hq

theorem flushList_files {cfg : Cfg} {fuel : Nat} {l l' : List Asset} {w w' : Work} (hl : ∀ a ∈ l, a.info.kind ≠ .directory)
    (h : flushList cfg fuel l w = some (l', w')) : l' = l ∧ w' = w := by
  induction l generalizing fuel l' w' with
  | nil => cases fuel with
    | zero => simp [flushList] at h
    | succ => simp only [flushList] at h; cases h; exact ⟨rfl, rfl⟩
  | cons a l ih => cases fuel with
    | zero => simp [flushList] at h
    | succ fuel =>
      simp only [flushList] at h
      rw [if_neg (hl a (by simp))] at h
      dsimp only at h
      split at h
      · cases h
      · rename_i hb
        obtain ⟨rfl, rfl⟩ := ih (fun x hx => hl x (by simp [hx])) hb
        cases h; exact ⟨rfl, rfl⟩

theorem flush_fails {cfg : Cfg} {b : Builder} (hl : ∀ a ∈ b.root.children, a.info.kind ≠ .directory) (hi : b.root.indirect = [])
    (he : enforceDir cfg b.root [] ⟨b.lists, b.store⟩ = none) (fuel : Nat) : flush cfg fuel b = none := by
  unfold flush
  cases fuel with
  | zero => rfl
  | succ fuel =>
    unfold flushDir
    split
    · rfl
    · rename_i h
      split at h
      · cases h
      rename_i hcs
      obtain ⟨rfl, rfl⟩ := flushList_files hl hcs
      rw [hi] at h
      split at h
      · cases h
      rename_i ids over w2 hids
      have : ids = [] ∧ over = [] ∧ w2 = ⟨b.lists, b.store⟩ := by
        cases fuel with
        | zero => simp [flushIndirect] at hids
        | succ => simp only [flushIndirect] at hids; cases hids; exact ⟨rfl, rfl, rfl⟩
      obtain ⟨rfl, rfl, rfl⟩ := this
      have hr : (Asset.mk b.root.info b.root.children [] : Asset) = b.root := by
        cases hb : b.root with
        | mk m cs ids => rw [hb] at hi; simp only [Asset.indirect_mk] at hi; rw [hi]; rfl
      rw [hr, he] at h
      cases h

set_option maxRecDepth 20000 in
/-- C54 is violated: a file whose chunk list was cut to a sixteenth of the limit is over that size again by the references to
its indirect chunk lists. When its directory is over the limit in a later flush, `EnforceFileProtoSize` is called for
it again and fails (manifest_builder.cc:521-529), and so does flushing the manifest, however often it is tried. -/
theorem C54_flush_always_works_violated : ¬ FlushAlwaysWorks := by
  intro h
  obtain ⟨fuel, id, b, hf⟩ := h cfg d1 f3.2 f3.1 20 (fun l => Util.isort_perm l) steps (Alias.getD_some (by decide +kernel)) noCollision
    b5 (Alias.getD_some (by decide +kernel)) (longName 6) b6 (get_ok (by decide +kernel))
  rw [flush_fails (by decide +kernel) (by decide +kernel) (by
    have : (enforceDir cfg b6.root [] ⟨b6.lists, b6.store⟩).isNone = true := by decide +kernel
    exact Option.isNone_iff_eq_none.mp this)] at hf
  cases hf

/-- C54, partial: splitting a directory none of whose files has indirect chunk lists yet does not fail. Missing: that a
directory that was split before can be flushed again, which is false (see above). -/
theorem C54_first_split_works_partial (cfg : Cfg) (dir : Asset) (over : List Asset) (w : Work)
    (hsort : ∀ l, (cfg.sort l).Perm l) (h : ∀ a ∈ dir.children, a.info.indirect = []) :
    (enforceDir cfg dir over w).isSome = true := by
  have hfile : ∀ limit a w, a.info.indirect = [] → (enforceFile cfg limit a w).isSome = true := by
    intro limit a w ha
    unfold enforceFile
    dsimp only
    split
    · rfl
    rw [if_neg (by rw [ha]; simp)]
    split <;> rfl
  have hfiles : ∀ limit size cs w, (∀ a ∈ cs, a.info.indirect = []) → (enforceFiles cfg limit size cs w).isSome = true := by
    intro limit size cs
    induction cs generalizing size with
    | nil => intro w _; rfl
    | cons a cs ih =>
      intro w ha
      unfold enforceFiles
      split
      · rfl
      split
      · rw [Option.isSome_map]; exact ih _ _ fun x hx => ha x (by simp [hx])
      · split
        · rename_i hn
          have := hfile limit a w (ha a (by simp))
          rw [hn] at this; cases this
        · rw [Option.isSome_map]; exact ih _ _ fun x hx => ha x (by simp [hx])
  unfold enforceDir
  split
  · rfl
  dsimp only
  split
  · rename_i hn
    split at hn
    · cases hn
    · have := hfiles (cfg.maxSize / 16) (assetSize dir) (cfg.sort dir.children) w
        fun a ha => h a ((hsort _).mem_iff.mp ha)
      rw [hn] at this; cases this
  · rfl

example : ∀ a ∈ b0.root.children, a.info.indirect = [] := by decide +kernel

end Reflush
end Verif.Manifest
