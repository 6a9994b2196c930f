import Verif.Updater.HealExample

/-!
# Two equal directories (C80-C82, C122-C124)

What becomes of the source directory in the manifest if two directories are equal and so large that they are split: the
builder keeps one list in memory for both (C30). One file in the second directory is changed; the change shows up in the
first one. These theorems show that the conditions on asset lists in C81, C82 and C122-C124 cannot be dropped.
-/
namespace Verif.Updater
open Verif.Manifest

/-- Looking up a name finds the entry, if no other thread runs and the store works. -/
theorem Reached.entry {S : List Stored} {hash : Stored → Id} {St : Asset.Store} (hS : Serves hash S St) (hf : ¬ St.fails) (hcc : ¬ St.conc)
    {root d a : Manifest.Asset} {p : List Name} {n : Name} {es : List Manifest.Asset} (hd : Reached St root p d) (hk : d.info.kind = .directory)
    (he : entries (findAssets hash S) d = some es) (hn : (es.map Asset.name).Nodup) (ha : (es.find? fun a => a.name = n) = some a) :
    Reached St root (p ++ [n]) a := by
  have hes : Asset.Entries St d es := by
    obtain ⟨l, hl, rfl⟩ := Option.map_eq_some_iff.mp he
    have key : ∀ (ids : List Id) (l : List Manifest.Asset), flatAssets (findAssets hash S) ids = some l →
        ∃ lists : List (List Manifest.Asset), ids.map St.assetLists = lists.map some ∧ l = lists.flatten := by
      intro ids
      induction ids with
      | nil => intro l h; cases h; exact ⟨[], rfl, rfl⟩
      | cons i ids ih =>
        intro l h
        rw [flatAssets] at h
        split at h
        · rename_i l1 l2 h1 h2
          cases h
          obtain ⟨ls, k1, k2⟩ := ih _ h2
          refine ⟨l1 :: ls, ?_, by rw [k2]; rfl⟩
          rw [List.map_cons, List.map_cons, k1, hS.assets, h1]
        · cases h
    obtain ⟨ls, k1, k2⟩ := key _ _ hl
    exact ⟨ls, k1, by rw [k2]⟩
  obtain ⟨res, s', hl⟩ := total_lookup St d n (Asset.initial d)
  have := Asset.C26_lookup_independent_of_history St d hk es hes hn n hcc hf _ _ (.refl _) _ hl
  rw [ha] at this
  rw [this] at hl
  exact .lookup hd (.refl _) hl

namespace Ex
open Reflush (longName)

/-- Eight files; the last one with a given time and content. -/
def eight (t : Int) (c : List UInt8) : List (Name × Node) :=
  [(longName 1, .file 5 [1]), (longName 2, .file 5 [2, 2]), (longName 3, .file 5 []), (longName 4, .file 5 [4]), (longName 5, .file 5 [5]),
    (longName 6, .file 5 [6]), (longName 7, .file 5 [7]), (longName 8, .file t c)]

/-- Two equal directories. -/
def src4 : Node := .dir 1 [([97], .dir 2 (eight 5 [8])), ([98], .dir 2 (eight 5 [8]))]
/-- The last file of the second one has changed. -/
def src5 : Node := .dir 1 [([97], .dir 2 (eight 5 [8])), ([98], .dir 2 (eight 6 [9, 9]))]

def empty0 : Builder := { root := newAsset P.cfg [] .directory, store := [] }
def u4 := (updateOnce P src4 empty0).getD ([], empty0)
def l5 := (loadManifest P.cfg u4.2.store u4.1).getD u4.2
def u5 := (updateOnce P src5 l5).getD ([], l5)
def l6 := (loadManifest P.cfg u5.2.store u5.1).getD u5.2

set_option maxRecDepth 20000 in
theorem updated4 : updateOnce P src4 empty0 = some (u4.1, u4.2) := by
  unfold u4
  exact getD_pair (by decide +kernel)

theorem load_some {S : List Stored} {id : Id} {d : Builder} (h : (loadManifest P.cfg S id).isSome = true) :
    loadManifest P.cfg S id = some ((loadManifest P.cfg S id).getD d) := Alias.getD_some h

set_option maxRecDepth 20000 in
theorem loaded5 : loadManifest P.cfg u4.2.store u4.1 = some l5 := load_some (by decide +kernel)

set_option maxRecDepth 20000 in
theorem updated5 : updateOnce P src5 l5 = some (u5.1, u5.2) := by
  unfold u5
  exact getD_pair (by decide +kernel)

set_option maxRecDepth 20000 in
theorem loaded6 : loadManifest P.cfg u5.2.store u5.1 = some l6 := load_some (by decide +kernel)

set_option maxRecDepth 20000 in
theorem noCollision5 : NoCollision P.cfg.hash u5.2.store := by
  have h : ∀ p ∈ u5.2.store, ∀ q ∈ u5.2.store, hash p = hash q → p = q := by decide +kernel
  exact fun p q hp hq e => h p hp q hq e

theorem updates5 : Updates P [src5, src4] u5.2.store u5.1 := by
  obtain ⟨b1, h1, f1⟩ := updateOnce_run updated4
  obtain ⟨b2, h2, f2⟩ := updateOnce_run updated5
  exact .next 50 (.first [] 50 h1 f1) loaded5 h2 f2

set_option maxRecDepth 20000 in
theorem proper4 : src4.Proper := proper_of (by decide +kernel)

set_option maxRecDepth 20000 in
theorem proper5 : src5.Proper := proper_of (by decide +kernel)

set_option maxRecDepth 20000 in
theorem detects5 : Detects src4 src5 := detects_of (by decide +kernel)

/-- What the manifest has for the last file of the first directory: time, size and content of the one in the second. -/
def mixed : Meta := wantMeta P (longName 8) (.file 6 [9, 9])

set_option maxRecDepth 20000 in
theorem has5 : Has P.cfg.hash u5.2.store l6.root [[97], longName 8] mixed := by
  rw [has_iff]; decide +kernel

set_option maxRecDepth 20000 in
theorem lost5 : Has P.cfg.hash u5.2.store l6.root [[98], longName 8] (wantMeta P (longName 8) (.file 5 [8])) := by
  rw [has_iff]; decide +kernel

theorem mixed_ne : wantMeta P (longName 8) (.file 5 [8]) ≠ mixed := by
  intro h
  have := congrArg Meta.mtime h
  exact absurd this (by decide)

end Ex

open Ex
open Reflush (longName)

/-- C81 and C80 are violated if two directories are equal and so large that they are split: a file of the second one is
changed; after the next update the manifest has the new time, size and content at the file of the first one, which was not
touched, and the old ones at the changed file. Nothing else is unusual: the source directory does not change during the
updates, all steps succeed, changed files differ in time and size, and there is no hash collision. -/
theorem C81_equal_directories_violated : ∃ (P : Env) (src0 src : Node) (S : List Stored) (id : Id) (b : Builder) (p q : List Name) (m m' : Meta),
    (∀ l, (P.cfg.sort l).Perm l) ∧ (∀ c, (P.chunk c).flatten = c) ∧ Updates P [src, src0] S id ∧ src.Proper ∧ src0.Proper ∧ Detects src0 src ∧
    NoCollision P.cfg.hash S ∧ loadManifest P.cfg S id = some b ∧
    src0.at p = src.at p ∧ want P src p = some m ∧ want P src q = some m' ∧ m ≠ m' ∧
    Has P.cfg.hash S b.root p m' ∧ Has P.cfg.hash S b.root q m :=
  ⟨P, src4, src5, u5.2.store, u5.1, l6, [[97], longName 8], [[98], longName 8], _, mixed, hsort, hchunk, updates5, proper5, proper4, detects5,
    noCollision5, loaded6, rfl, rfl, rfl, mixed_ne, has5, lost5⟩

/-- A client that uses the store directly. -/
def St5 : Asset.Store :=
  { chunkLists := findChunks P.cfg.hash u5.2.store, assetLists := findAssets P.cfg.hash u5.2.store, fails := False, conc := False }

set_option maxRecDepth 20000 in
/-- C82 is violated for the same reason: a client that looks up the file of the first directory, which has one byte in the
source directory, finds a file of two bytes. -/
theorem C82_equal_directories_violated : ∃ root a, findManifest P.cfg.hash u5.2.store u5.1 = some root ∧ Updates P [src5, src4] u5.2.store u5.1 ∧
    src5.at [[97], longName 8] = some (.file 5 [8]) ∧ Reached St5 root [[97], longName 8] a ∧ a.info.fileSize = 2 ∧ a.info.chunks = [⟨0, [9, 9]⟩] ∧
    a.info.inProgress = false := by
  have h0 := loaded6
  unfold loadManifest at h0
  obtain ⟨root, hroot, hr⟩ := Option.map_eq_some_iff.mp h0
  have hroot' : l6.root = root := by rw [← hr]
  have h1 : ∃ d es a es', entries (findAssets P.cfg.hash u5.2.store) l6.root = some es ∧ (es.map Asset.name).Nodup ∧
      (es.find? fun a => a.name = [97]) = some d ∧ l6.root.info.kind = .directory ∧ d.info.kind = .directory ∧
      entries (findAssets P.cfg.hash u5.2.store) d = some es' ∧ (es'.map Asset.name).Nodup ∧ (es'.find? fun a => a.name = longName 8) = some a ∧
      a.info.fileSize = 2 ∧ a.info.chunks = [⟨0, [9, 9]⟩] ∧ a.info.inProgress = false := by
    have key : ((entries (findAssets P.cfg.hash u5.2.store) l6.root).any fun es => decide (es.map Asset.name).Nodup &&
        ((es.find? fun a => a.name = [97]).any fun d => decide (l6.root.info.kind = .directory) && decide (d.info.kind = .directory) &&
          (entries (findAssets P.cfg.hash u5.2.store) d).any fun es' => decide (es'.map Asset.name).Nodup &&
            ((es'.find? fun a => a.name = longName 8).any fun a => decide (a.info.fileSize = 2) && decide (a.info.chunks = [⟨0, [9, 9]⟩]) &&
              !a.info.inProgress))) = true := by decide +kernel
    rw [Option.any_eq_true_iff_get] at key
    obtain ⟨g1, key⟩ := key
    simp only [Bool.and_eq_true, decide_eq_true_eq] at key
    obtain ⟨k1, key⟩ := key
    rw [Option.any_eq_true_iff_get] at key
    obtain ⟨g2, key⟩ := key
    simp only [Bool.and_eq_true, decide_eq_true_eq] at key
    obtain ⟨⟨k2, k3⟩, key⟩ := key
    rw [Option.any_eq_true_iff_get] at key
    obtain ⟨g3, key⟩ := key
    simp only [Bool.and_eq_true, decide_eq_true_eq] at key
    obtain ⟨k4, key⟩ := key
    rw [Option.any_eq_true_iff_get] at key
    obtain ⟨g4, key⟩ := key
    simp only [Bool.and_eq_true, decide_eq_true_eq, Bool.not_eq_true'] at key
    obtain ⟨⟨k5, k6⟩, k7⟩ := key
    exact ⟨_, _, _, _, (Option.some_get g1).symm, k1, (Option.some_get g2).symm, k2, k3, (Option.some_get g3).symm, k4, (Option.some_get g4).symm, k5, k6, k7⟩
  obtain ⟨d, es, a, es', e1, e2, e3, e4, e5, e6, e7, e8, e9, e10, e11⟩ := h1
  rw [hroot'] at e1 e4
  have hS : Serves P.cfg.hash u5.2.store St5 := ⟨rfl, rfl⟩
  have r1 := (Reached.root (St := St5) (root := root)).entry hS (fun h => h) (fun h => h) e4 e1 e2 e3
  have r2 := r1.entry hS (fun h => h) (fun h => h) e5 e6 e7 e8
  exact ⟨root, a, hroot, updates5, rfl, r2, e9, e10, e11⟩

/-! ### The same with the source directory changing between the updates -/

namespace Ex

/-- The directory is `src4` during the first update and `src5` from the time 20 on. -/
def W5 : World := changing src4 src5 20 [] []

def v4 := (roughOnce src4 src5 20 [] [] P 0 empty0).getD (0, [], empty0)
def m5 := (loadManifest P.cfg (v4.2.2.store ++ []) v4.2.1).getD v4.2.2
def v5 := (roughOnce src4 src5 20 [] [] P 20 m5).getD (0, [], m5)
def m6 := (loadManifest P.cfg v5.2.2.store v5.2.1).getD v5.2.2

set_option maxRecDepth 20000 in
theorem rough4 : roughOnce src4 src5 20 [] [] P 0 empty0 = some (v4.1, v4.2.1, v4.2.2) := by
  unfold v4
  exact getD_triple (by decide +kernel)

set_option maxRecDepth 20000 in
theorem time4 : v4.1 = 19 := by decide +kernel

set_option maxRecDepth 20000 in
theorem reloaded5 : loadManifest P.cfg (v4.2.2.store ++ []) v4.2.1 = some m5 := load_some (by decide +kernel)

set_option maxRecDepth 20000 in
theorem rough5 : roughOnce src4 src5 20 [] [] P 20 m5 = some (v5.1, v5.2.1, v5.2.2) := by
  unfold v5
  exact getD_triple (by decide +kernel)

set_option maxRecDepth 20000 in
theorem reloaded6 : loadManifest P.cfg v5.2.2.store v5.2.1 = some m6 := load_some (by decide +kernel)

set_option maxRecDepth 20000 in
theorem roughCollision5 : NoCollision P.cfg.hash v5.2.2.store := by
  have h : ∀ p ∈ v5.2.2.store, ∀ q ∈ v5.2.2.store, hash p = hash q → p = q := by decide +kernel
  exact fun p q hp hq e => h p hp q hq e

set_option maxRecDepth 20000 in
theorem roughHas5 : Has P.cfg.hash v5.2.2.store m6.root [[97], longName 8] mixed := by
  rw [has_iff]; decide +kernel

theorem past5 : Past P W5 20 (v4.2.2.store ++ []) (some v4.2.1) := by
  obtain ⟨b, h1, h2⟩ := roughOnce_rough proper4 proper5 rough4
  rw [time4] at h1
  exact .interrupted 20 [] (.update 50 (.init []) rfl h1 h2) (by decide)

theorem at97 (s : Nat) : (W5.dir s).at [[97], longName 8] = some (.file 5 [8]) := by
  show (if s < 20 then src4 else src5).at _ = _
  split <;> rfl

/-- There never was a file with that time or content at this place. -/
theorem mixed_not_good (t : Nat) : ¬ Good P W5 t [[97], longName 8] mixed := by
  intro h
  generalize hm : mixed = m at h
  cases h with
  | dir s _ h1 => rw [at97] at h1; cases h1
  | file s s' _ _ h1 _ =>
    rw [at97] at h1
    cases h1
    have : (6 : Int) = 5 := congrArg Meta.mtime hm
    exact absurd this (by decide)
  | unreadable s s' _ _ h1 _ =>
    rw [at97] at h1
    cases h1
    exact absurd (congrArg Meta.mtime hm) (by decide)

end Ex

/-- C123 and C124 are violated for the same reason: the manifest stored by the second update has, for a file that was the
same all the time and could be read, a time, size and content that no file at this place ever had. -/
theorem C123_equal_directories_violated : ∃ t S id b0 b b' t' new r, Past P W5 t S id ∧ opens P.cfg S id = some b0 ∧ Rough P W5 t b0 b [] t' ∧
    flush P.cfg 50 b = some (new, b') ∧ NoCollision P.cfg.hash b'.store ∧ loadManifest P.cfg b'.store new = some r ∧
    Stays W5 t t' [[97], longName 8] (.file 5 [8]) ∧ Has P.cfg.hash b'.store r.root [[97], longName 8] mixed ∧
    ¬ Good P W5 t' [[97], longName 8] mixed ∧ mixed.inProgress = false := by
  obtain ⟨b, h1, h2⟩ := roughOnce_rough proper4 proper5 rough5
  refine ⟨20, _, _, m5, b, _, _, _, m6, past5, reloaded5, h1, h2, roughCollision5, reloaded6, stays_changing rfl rfl (by simp) (by simp), roughHas5,
    mixed_not_good _, rfl⟩

/-- C124, as in `C124_untouched_right_partial`. -/
theorem C124_equal_directories_violated : ¬ ∀ (P : Env) (_ : ∀ l, (P.cfg.sort l).Perm l) (_ : ∀ c, (P.chunk c).flatten = c) (W : World) (t : Nat)
    (S : List Stored) (id : Option Id) (_ : Past P W t S id) (b0 b b' : Builder) (t' : Nat) (fuel : Nat) (new : Id)
    (_ : opens P.cfg S id = some b0) (_ : Rough P W t b0 b [] t') (_ : flush P.cfg fuel b = some (new, b')) (_ : NoCollision P.cfg.hash b'.store),
    ∃ r, loadManifest P.cfg b'.store new = some r ∧
      ∀ p x, Stays W t t' p x → ∀ m, Has P.cfg.hash b'.store r.root p m ↔ m = wantMeta P (p.getLastD []) x := by
  intro h
  obtain ⟨t, S, id, b0, b, b', t', new, r, h1, h2, h3, h4, h5, h6, h7, h8, -⟩ := C123_equal_directories_violated
  obtain ⟨r', k1, k2⟩ := h P hsort hchunk W5 t S id h1 b0 b b' t' 50 new h2 h3 h4 h5
  rw [h6] at k1
  cases k1
  exact mixed_ne ((k2 _ _ h7 _).mp h8).symm

/-- C122, as in `C122_recovers_partial`: an undisturbed update after others. -/
theorem C122_equal_directories_violated : ∃ S id b0 b b' new r, Past P W5 20 S id ∧ opens P.cfg S id = some b0 ∧ Run P src5 b0 b [] ∧
    flush P.cfg 50 b = some (new, b') ∧ NoCollision P.cfg.hash b'.store ∧ src5.Proper ∧ Settled W5 20 src5 ∧ loadManifest P.cfg b'.store new = some r ∧
    ∃ p m, Has P.cfg.hash b'.store r.root p m ∧ want P src5 p ≠ some m := by
  have e : updateOnce P src5 m5 = some ((updateOnce P src5 m5).getD ([], m5)) := Alias.getD_some (by
    set_option maxRecDepth 20000 in decide +kernel)
  obtain ⟨b, h1, h2⟩ := updateOnce_run e
  refine ⟨_, _, m5, b, _, _, _, past5, reloaded5, h1, h2, ?_, proper5, ⟨?_, ?_⟩, load_some (d := m5) ?_, [[97], longName 8], mixed, ?_, ?_⟩
  · have h : ∀ p ∈ ((updateOnce P src5 m5).getD ([], m5)).2.store, ∀ q ∈ ((updateOnce P src5 m5).getD ([], m5)).2.store, hash p = hash q → p = q := by
      set_option maxRecDepth 20000 in decide +kernel
    exact fun p q hp hq e => h p hp q hq e
  · exact fun p s s' m c0 c c' hs _ => reads_changing detects5 p s s' m c0 c c' hs
  · intro p s s' m c0 hs _
    refine empty_changing ?_ p s s' m c0 hs
    have h : ∀ e ∈ src5.all, e.2.kind = .file → e.2.size = 0 → isFile (src4.at e.1) = true := by
      set_option maxRecDepth 20000 in decide +kernel
    exact fun e he hk hz => ⟨by simp, isFile_iff (h e he hk hz)⟩
  · set_option maxRecDepth 20000 in decide +kernel
  · rw [has_iff]; set_option maxRecDepth 20000 in decide +kernel
  · intro h
    exact mixed_ne (Option.some.inj h)

end Verif.Updater
