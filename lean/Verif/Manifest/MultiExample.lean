import Verif.Manifest.MultiHist

/-! # Example: a directory that is split, changed and split again (C30, C80) -/
namespace Verif.Manifest
namespace MultiExample
open Reflush (longName)

def tag (a : Asset) : List UInt8 := (a.name.headD 0) :: [a.info.mtime.toNat.toUInt8, (a.children.flatMap fun c => [c.name.headD 0, c.info.mtime.toNat.toUInt8]).foldl (· * 31 + ·) 7]

/-- A toy hash; that it has no collision is checked below. -/
def hash : Stored → Id
  | .chunks l => [1, l.length.toUInt8]
  | .assets l => 2 :: l.flatMap tag
  | .manifest r => 3 :: r.children.flatMap tag

def cfg : Cfg := { Reflush.cfg with hash := hash }

def get (r : Except Err Builder) : Builder := r.toOption.getD (empty cfg)

theorem get_ok {r : Except Err Builder} (h : r.toOption.isSome = true) : r = .ok (get r) := by
  cases r with
  | error => cases h
  | ok => rfl

def add (t : Int) (c : UInt8) (b : Builder) : Except Err Builder := editAsset cfg .file true [[100]] (longName c) (onInfo (setTimePerms t 0o600)) b
def e1 := get (add 7 1 (empty cfg))
def e2 := get (add 7 2 e1)
def e3 := get (add 7 3 e2)
def e4 := get (add 7 4 e3)
def e5 := get (add 7 5 e4)
def e6 := get (add 7 6 e5)
def e7 := get (add 7 7 e6)
def e8 := get (add 7 8 e7)
def f1 := (flush cfg 20 e8).getD ([], e8)
/-- The directory has five direct entries and three in an asset list. -/
def b2 := (loadManifest cfg f1.2.store f1.1).getD e8
def d1 := get (add 9 7 b2)
def d2 := get (deleteAsset cfg [[100]] (longName 2) d1)
def d3 := get (add 9 9 d2)
def f4 := (flush cfg 20 d3).getD ([], d3)

example : (f1.2.root.children.map fun d => (d.children.length, d.indirect.length)) = [(5, 1)] ∧
    (f4.2.root.children.map fun d => (d.children.length, d.indirect.length)) = [(5, 1)] := by decide +kernel

def putF (t : Int) (c : UInt8) (F : Tree) : Tree := F.put (newMeta cfg) [[100], longName c] .file (setTimePerms t 0o600)

def R : Tree := Tree.root (newMeta cfg [] .directory)
def F1 : Tree := putF 7 8 (putF 7 7 (putF 7 6 (putF 7 5 (putF 7 4 (putF 7 3 (putF 7 2 (putF 7 1 R)))))))
def F2 : Tree := putF 9 9 ((putF 9 7 F1).delete [[100], longName 2])

def paths : List (List Name) := [] :: [[100]] :: (List.range 9).map fun i => [[100], longName (i + 1).toUInt8]

theorem put_paths {F : Tree} (h : ∀ p, F p ≠ none → p ∈ paths) (t : Int) (c : UInt8) (hc : [[100], longName c] ∈ paths) :
    ∀ p, putF t c F p ≠ none → p ∈ paths := by
  intro p hp
  unfold putF Tree.put at hp
  by_cases h1 : p = [[100], longName c]
  · rw [h1]; exact hc
  rw [if_neg h1] at hp
  by_cases h2 : [[100], longName c] <+: p
  · rw [if_pos h2] at hp
    split at hp
    · exact h p hp
    · exact absurd rfl hp
  rw [if_neg h2] at hp
  by_cases h3 : p <+: [[100], longName c]
  · obtain ⟨t, ht⟩ := h3
    match p, ht with
    | [], _ => simp [paths]
    | [a], ht =>
      have := (List.cons.inj ht).1
      rw [this]; simp [paths]
    | [a, b], ht =>
      exfalso; apply h1
      have e1 := List.cons.inj ht
      have e2 := List.cons.inj e1.2
      rw [e1.1, e2.1]
    | a :: b :: c' :: r, ht => simp at ht
  · rw [if_neg h3] at hp
    exact h p hp

theorem R_paths : ∀ p, R p ≠ none → p ∈ paths := by
  intro p hp
  unfold R Tree.root at hp
  split at hp
  · rename_i h; rw [h]; simp [paths]
  · exact absurd rfl hp

theorem F1_paths : ∀ p, F1 p ≠ none → p ∈ paths :=
  put_paths (put_paths (put_paths (put_paths (put_paths (put_paths (put_paths (put_paths R_paths 7 1 (by decide +kernel)) 7 2 (by decide +kernel)) 7 3 (by decide +kernel))
    7 4 (by decide +kernel)) 7 5 (by decide +kernel)) 7 6 (by decide +kernel)) 7 7 (by decide +kernel)) 7 8 (by decide +kernel)

theorem F2_paths : ∀ p, F2 p ≠ none → p ∈ paths := by
  refine put_paths ?_ 9 9 (by decide +kernel)
  intro p hp
  unfold Tree.delete at hp
  split at hp
  · exact absurd rfl hp
  · exact put_paths F1_paths 9 7 (by decide +kernel) p hp

theorem paths_names : ∀ x ∈ paths, ∀ y ∈ paths, x.getLast? = y.getLast? → x = y := by decide +kernel

theorem add_hist {b : Builder} {G F : Tree} {L Q} (t : Int) (c : UInt8) (h : Hist cfg b G F L Q) (ho : (add t c b).toOption.isSome = true) :
    Hist cfg (get (add t c b)) G (putF t c F) L Q :=
  .edit .file true [[100]] (longName c) _ h (setters_change [] 0 .nil t 0o600 false []).2.2.1 (get_ok ho)

set_option maxRecDepth 20000 in
theorem flushed1 : flush cfg 20 e8 = some (f1.1, f1.2) := by
  have h : (flush cfg 20 e8).isSome = true := by decide +kernel
  have e : f1 = (flush cfg 20 e8).getD ([], e8) := by unfold f1; rfl
  generalize flush cfg 20 e8 = o at h e
  rw [← Prod.eta f1, e]; exact Alias.getD_some h

set_option maxRecDepth 20000 in
theorem flushed4 : flush cfg 20 d3 = some (f4.1, f4.2) := by
  have h : (flush cfg 20 d3).isSome = true := by decide +kernel
  have e : f4 = (flush cfg 20 d3).getD ([], d3) := by unfold f4; rfl
  generalize flush cfg 20 d3 = o at h e
  rw [← Prod.eta f4, e]; exact Alias.getD_some h

set_option maxRecDepth 20000 in
theorem loaded2 : loadManifest cfg f1.2.store f1.1 = some b2 := by
  have h : (loadManifest cfg f1.2.store f1.1).isSome = true := by decide +kernel
  have e : b2 = (loadManifest cfg f1.2.store f1.1).getD e8 := by unfold b2; rfl
  generalize loadManifest cfg f1.2.store f1.1 = o at h e
  rw [e]; exact Alias.getD_some h

set_option maxRecDepth 20000 in
theorem hist : Hist cfg f4.2 F2 F2 [(f4.1, F2), (f1.1, F1)] [(F1, F2), (R, F1)] := by
  have h0 : Hist cfg (empty cfg) R R [] [] := .start []
  have h1 : Hist cfg e1 _ _ _ _ := add_hist 7 1 h0 (by decide +kernel)
  have h2 : Hist cfg e2 _ _ _ _ := add_hist 7 2 h1 (by decide +kernel)
  have h3 : Hist cfg e3 _ _ _ _ := add_hist 7 3 h2 (by decide +kernel)
  have h4 : Hist cfg e4 _ _ _ _ := add_hist 7 4 h3 (by decide +kernel)
  have h5 : Hist cfg e5 _ _ _ _ := add_hist 7 5 h4 (by decide +kernel)
  have h6 : Hist cfg e6 _ _ _ _ := add_hist 7 6 h5 (by decide +kernel)
  have h7 : Hist cfg e7 _ _ _ _ := add_hist 7 7 h6 (by decide +kernel)
  have h8 : Hist cfg e8 R F1 [] [] := add_hist 7 8 h7 (by decide +kernel)
  have h9 := h8.flush 20 f1.1 flushed1
  have h10 := h9.load f1.1 F1 (by simp) loaded2
  have h11 : Hist cfg d1 _ _ _ _ := add_hist 9 7 h10 (by decide +kernel)
  have h12 : Hist cfg d2 _ _ _ _ := h11.delete [[100]] (longName 2) (get_ok (by decide +kernel))
  have h13 : Hist cfg d3 F1 F2 [(f1.1, F1)] [(R, F1)] := add_hist 9 9 h12 (by decide +kernel)
  exact h13.flush 20 f4.1 flushed4

theorem unshared : ∀ q ∈ [(F1, F2), (R, F1)], Unshared cfg.hash f4.2.store q.1 q.2 := by
  intro q hq
  rcases List.mem_cons.1 hq with rfl | hq
  · exact (noTwins_of_names paths F1_paths F2_paths paths_names).unshared
  · rw [List.mem_singleton.1 hq]
    exact (noTwins_of_names paths R_paths F1_paths paths_names).unshared

set_option maxRecDepth 20000 in
theorem noCollision : NoCollision cfg.hash f4.2.store := by
  have : ∀ p ∈ f4.2.store, ∀ q ∈ f4.2.store, cfg.hash p = cfg.hash q → p = q := by decide +kernel
  exact fun p q hp hq => this p hp q hq

/-- Both manifests read back, and the second one has the change of a file in the asset list. -/
example : (∃ b, loadManifest cfg f4.2.store f1.1 = some b ∧ b.store = f4.2.store ∧ ∀ p m, Has cfg.hash b.store b.root p m ↔ F1 p = some m) ∧
    ∃ b, loadManifest cfg f4.2.store f4.1 = some b ∧ b.store = f4.2.store ∧ ∀ p m, Has cfg.hash b.store b.root p m ↔ F2 p = some m :=
  ⟨C80_every_saved_manifest_reads_back_partial cfg (fun l => Util.isort_perm l) f4.2 _ _ _ _ hist unshared noCollision f1.1 F1 (by simp),
    C80_every_saved_manifest_reads_back_partial cfg (fun l => Util.isort_perm l) f4.2 _ _ _ _ hist unshared noCollision f4.1 F2 (by simp)⟩

example : F2 [[100], longName 2] = none ∧ F1 [[100], longName 2] ≠ none := by
  constructor
  · unfold F2 putF
    rw [put_other (by decide) (by decide), Tree.delete, if_pos (by decide)]
  · unfold F1
    simp only [putF]
    rw [put_other (by decide) (by decide), put_other (by decide) (by decide), put_other (by decide) (by decide), put_other (by decide) (by decide),
      put_other (by decide) (by decide), put_other (by decide) (by decide), put_new]
    · simp
    · rw [put_other (by decide) (by decide)]; rfl

end MultiExample

end Verif.Manifest
