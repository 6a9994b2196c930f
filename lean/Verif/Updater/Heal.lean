import Verif.Updater.UpdateProps

/-! # C122-C124: updates that are disturbed, that fail and that are interrupted

Updates of a source directory that changes all the time, of files and directories that cannot be read, and updates that are interrupted:
whatever the manifest is after these, one update that is not disturbed makes it equal to the source directory (C122). During and after a disturbed update nothing is in the
manifest that was not in the source directory (C123), and what is not touched is right (C124). -/
namespace Verif.Updater
open Verif.Manifest

/-! ### Model -/

/-- The source directory in the course of time. -/
structure World where
  /-- what is in it at this time -/
  dir : Nat → Node
  /-- reading this file, which ends at this time, can give this content; it may be something in between if the file is changed while it is read -/
  reads : Nat → List Name → List UInt8 → Prop
  /-- reading this file at this time can fail, for example as it is locked or has just been deleted -/
  fails : Nat → List Name → Prop
  /-- listing this directory at this time can fail -/
  unlisted : Nat → List Name → Prop

/-- `HandleFileChunkerResult`, manifest_updater.cc:704-719, for a task that failed. The chunks of the asset are already removed. -/
def failed (m : Meta) : Meta := { m with inProgress := false, fileSize := 0 }

/-- `QueueTasks`, manifest_updater.cc:590-608, and `HandleDirScannerResult`, 740-763, for a task that failed, 239-241: there are no operations. -/
def scanFailed (cfg : Cfg) (p : List Name) (b : Builder) : Except Err Builder :=
  match findDir cfg p b with
  | .error e => .error e
  | .ok b => atDir cfg p (onInfo (setInProgress false)) b

/-- `Rough P W t0 b0 b q t`: an update was started at time `t0` or later, with the builder `b0`, and at time `t` the builder is `b` and the assets `q` remain to
be processed. As `Run` in Update.lean, but the source directory may change meanwhile, and tasks may fail. A directory need not be listed at
one moment: each entry is as it was at some moment during the scan, and entries that come or go meanwhile may be missing. -/
inductive Rough (P : Env) (W : World) (t0 : Nat) (b0 : Builder) : Builder → Todo → Nat → Prop where
  | start {b m es} (t : Nat) : t0 ≤ t → W.dir t = .dir m es → begin_ P.cfg m b0 = .ok b → Rough P W t0 b0 b [([], .directory)] t
  | scan {b b' q new listing t} (p : List Name) (t' : Nat) : Rough P W t0 b0 b q t → t ≤ t' → (p, .directory) ∈ q →
      (listing.map Info.name).Nodup → (∀ i ∈ listing, ∃ s x, t ≤ s ∧ s ≤ t' ∧ (W.dir s).at (p ++ [i.name]) = some x ∧ i = x.info i.name) →
      (∀ n, (∀ s, t ≤ s → s ≤ t' → (W.dir s).at (p ++ [n]) ≠ none) → ∃ i ∈ listing, i.name = n) →
      scanDir P.cfg listing p b = .ok (b', new) → Rough P W t0 b0 b' (q.erase (p, .directory) ++ new) t'
  | scanFails {b b' q t} (p : List Name) (t' : Nat) : Rough P W t0 b0 b q t → t ≤ t' → (p, .directory) ∈ q → W.unlisted t' p → scanFailed P.cfg p b = .ok b' →
      Rough P W t0 b0 b' (q.erase (p, .directory)) t'
  | file {b b' q c t} (p : List Name) (n : Name) (t' : Nat) : Rough P W t0 b0 b q t → t ≤ t' → (p ++ [n], .file) ∈ q → W.reads t' (p ++ [n]) c →
      editAsset P.cfg .file false p n (onInfo (chunked P c)) b = .ok b' → Rough P W t0 b0 b' (q.erase (p ++ [n], .file)) t'
  | fileFails {b b' q t} (p : List Name) (n : Name) (t' : Nat) : Rough P W t0 b0 b q t → t ≤ t' → (p ++ [n], .file) ∈ q → W.fails t' (p ++ [n]) →
      editAsset P.cfg .file false p n (onInfo failed) b = .ok b' → Rough P W t0 b0 b' (q.erase (p ++ [n], .file)) t'
  | push {b b' q t} (fuel : Nat) (id : Id) : Rough P W t0 b0 b q t → flush P.cfg fuel b = some (id, b') → Rough P W t0 b0 b' q t

/-- The builder at the start of an update, manifest_updater.cc:778-801: a new one if no manifest id is stored. -/
def opens (cfg : Cfg) (S : List Stored) : Option Id → Option Builder
  | none => some { root := newAsset cfg [] .directory, store := S }
  | some id => loadManifest cfg S id

/-- `Past P W t S id`: what happened up to the time `t`. The store is `S`, and `id` is stored under `GetManifestStoreId()`. An update that does not get to its
end - an error, the process is killed - leaves some more chunks in the store but does not change the stored id, which is written last (874-880). Chunks are
not removed from the store. -/
inductive Past (P : Env) (W : World) : Nat → List Stored → Option Id → Prop where
  | init (S : List Stored) : Past P W 0 S none
  | update {t t' S id b0 b b' id'} (fuel : Nat) : Past P W t S id → opens P.cfg S id = some b0 → Rough P W t b0 b [] t' →
      flush P.cfg fuel b = some (id', b') → Past P W t' b'.store (some id')
  | interrupted {t S id} (t' : Nat) (chunks : List Stored) : Past P W t S id → t ≤ t' → Past P W t' (S ++ chunks) id

/-! ### Specification -/

/-- Whenever a file was found with the time it has now, then what was read from then on, if it has as many bytes as the file has now, is what the file has now; and if
the file is empty, it was not tried in vain to read it. -/
structure Settled (W : World) (t : Nat) (src : Node) : Prop where
  reads : ∀ p s s' m c0 c c', s ≤ s' → s' ≤ t → (W.dir s).at p = some (.file m c0) → W.reads s' p c → src.at p = some (.file m c') → c.length = c'.length → c = c'
  empty : ∀ p s s' m c0, s ≤ s' → s' ≤ t → (W.dir s).at p = some (.file m c0) → W.fails s' p → src.at p ≠ some (.file m [])

/-- The kinds, times and sizes that the file or directory may get in the manifest. -/
def Seen (W : World) (t : Nat) : Stamps := fun p k m size =>
  ∃ s x, s ≤ t ∧ (W.dir s).at p = some x ∧ x.kind = k ∧ x.mtime = m ∧
    (x.size = size ∨ k = .file ∧ ∃ s', s' ≤ t ∧ ((∃ c, W.reads s' p c ∧ c.length = size) ∨ W.fails s' p ∧ size = 0))

/-- The same, with a version of the source directory at last. -/
def Known (W : World) (t : Nat) (src : Node) : Stamps := fun p k m size => stampsOf [src] p k m size ∨ Seen W t p k m size

/-- A finished asset: a directory or file that was at this place at some time `s`, not after `t`. A file has the chunks of what was read from it then or later, or it is empty as it
could not be read. -/
inductive Good (P : Env) (W : World) (t : Nat) (p : List Name) : Meta → Prop where
  | dir {a es} (s : Nat) : s ≤ t → (W.dir s).at p = some (.dir a es) → Good P W t p (wantMeta P (p.getLastD []) (.dir a es))
  | file {a c0 c} (s s' : Nat) : s ≤ s' → s' ≤ t → (W.dir s).at p = some (.file a c0) → W.reads s' p c → Good P W t p (wantMeta P (p.getLastD []) (.file a c))
  | unreadable {a c0} (s s' : Nat) : s ≤ s' → s' ≤ t → (W.dir s).at p = some (.file a c0) → W.fails s' p →
      Good P W t p { name := p.getLastD [], kind := .file, mtime := a, perms := 0o755, fileSize := 0 }

/-- Nothing happens to `x` at `p` from `t0` to `t`: it is there all the time, it and the directories on the way can be read, and a file is not taken for unchanged wrongly: see `Settled`.
Only a directory's entries may change. -/
structure Stays (W : World) (t0 t : Nat) (p : List Name) (x : Node) : Prop where
  there : ∀ s, t0 ≤ s → s ≤ t → ∃ y, (W.dir s).at p = some y ∧ y.kind = x.kind ∧ y.mtime = x.mtime ∧ (x.kind = .file → y = x)
  listed : ∀ s d, t0 ≤ s → s ≤ t → d <+: p → (d = p → x.kind = .directory) → ¬ W.unlisted s d
  reads : ∀ s c, t0 ≤ s → s ≤ t → W.reads s p c → ∀ a c', x = .file a c' → c = c'
  readable : ∀ s, t0 ≤ s → s ≤ t → ¬ W.fails s p
  before : ∀ s s' a c0 c c', s ≤ s' → s' ≤ t → (W.dir s).at p = some (.file a c0) → W.reads s' p c → x = .file a c' → c.length = c'.length → c = c'
  empty : ∀ s s' a c0, s ≤ s' → s' ≤ t → (W.dir s).at p = some (.file a c0) → W.fails s' p → x ≠ .file a []

/-- All the time there is a directory `d` without an entry `n`, and the directories on the way can be read. -/
structure Absent (W : World) (t0 t : Nat) (d : List Name) (n : Name) : Prop where
  there : ∀ s, t0 ≤ s → s ≤ t → ∃ a es, (W.dir s).at d = some (.dir a es) ∧ (W.dir s).at (d ++ [n]) = none
  listed : ∀ s d', t0 ≤ s → s ≤ t → d' <+: d → ¬ W.unlisted s d'

/-! ### The invariant -/

structure R (P : Env) (W : World) (t0 t : Nat) (F : Tree) (q : Todo) : Prop where
  apart : ∀ e ∈ q, ∀ e' ∈ q, e.1 <+: e'.1 → e = e'
  nodup : q.Nodup
  pend : ∀ e ∈ q, ∃ s x, t0 ≤ s ∧ s ≤ t ∧ (W.dir s).at e.1 = some x ∧ x.kind = e.2 ∧ F e.1 = some (pendMeta (e.1.getLastD []) x)
  good : ∀ p m, p ≠ [] → F p = some m → (∀ e ∈ q, e.1 ≠ p) → Good P W t p m
  plain : Plain F

/-- What is known about the rest of the source directory. -/
structure Loc (P : Env) (W : World) (t0 t : Nat) (F : Tree) (q : Todo) : Prop where
  stays : ∀ p x, Stays W t0 t p x → (∃ e ∈ q, e.1 <+: p) ∨ F p = some (wantMeta P (p.getLastD []) x)
  absent : ∀ d n, Absent W t0 t d n → (∃ e ∈ q, e.1 <+: d) ∨ ∀ r, F (d ++ n :: r) = none

section
variable {P : Env} {W : World} {t0 t : Nat} {F : Tree} {q : Todo} {src : Node}

theorem Good.later {t' : Nat} (h : t ≤ t') {p : List Name} {m : Meta} (hg : Good P W t p m) : Good P W t' p m := by
  cases hg with
  | dir s h1 h2 => exact .dir s (Nat.le_trans h1 h) h2
  | file s s' h1 h2 h3 h4 => exact .file s s' h1 (Nat.le_trans h2 h) h3 h4
  | unreadable s s' h1 h2 h3 h4 => exact .unreadable s s' h1 (Nat.le_trans h2 h) h3 h4

theorem R.later {t' : Nat} (h : t ≤ t') (hr : R P W t0 t F []) (t1 : Nat) : R P W t1 t' F [] :=
  ⟨(fun e he => nomatch he), .nil, (fun e he => nomatch he), fun p m hp hm hq => (hr.good p m hp hm hq).later h, hr.plain⟩

theorem Good.seen {p : List Name} {m : Meta} (hg : Good P W t p m) : Seen W t p m.kind m.mtime m.fileSize := by
  cases hg with
  | dir s h1 h2 => exact ⟨s, _, h1, h2, rfl, rfl, .inl rfl⟩
  | file s s' h1 h2 h3 h4 => exact ⟨s, _, Nat.le_trans h1 h2, h3, rfl, rfl, .inr ⟨rfl, s', h2, .inl ⟨_, h4, rfl⟩⟩⟩
  | unreadable s s' h1 h2 h3 h4 => exact ⟨s, _, Nat.le_trans h1 h2, h3, rfl, rfl, .inr ⟨rfl, s', h2, .inr ⟨h4, rfl⟩⟩⟩

theorem R.stamped (h : R P W t0 t F q) : Stamped (Seen W t) F := by
  intro p m hp hm
  by_cases hq : ∃ e ∈ q, e.1 = p
  · obtain ⟨e, he, rfl⟩ := hq
    obtain ⟨s, x, -, h1, h2, h3, h4⟩ := h.pend e he
    rw [hm] at h4
    cases h4
    exact ⟨s, x, h1, h2, rfl, rfl, .inl rfl⟩
  · exact (h.good p m hp hm fun e he hh => hq ⟨e, he, hh⟩).seen

theorem Stays.earlier {t' : Nat} (h : t ≤ t') {p : List Name} {x : Node} (hs : Stays W t0 t' p x) : Stays W t0 t p x :=
  ⟨fun s h1 h2 => hs.there s h1 (Nat.le_trans h2 h), fun s d h1 h2 => hs.listed s d h1 (Nat.le_trans h2 h), fun s c h1 h2 => hs.reads s c h1 (Nat.le_trans h2 h),
    fun s h1 h2 => hs.readable s h1 (Nat.le_trans h2 h), fun s s' a c0 c c' h1 h2 => hs.before s s' a c0 c c' h1 (Nat.le_trans h2 h),
    fun s s' a c0 h1 h2 => hs.empty s s' a c0 h1 (Nat.le_trans h2 h)⟩

theorem Absent.earlier {t' : Nat} (h : t ≤ t') {d : List Name} {n : Name} (hs : Absent W t0 t' d n) : Absent W t0 t d n :=
  ⟨fun s h1 h2 => hs.there s h1 (Nat.le_trans h2 h), fun s d h1 h2 => hs.listed s d h1 (Nat.le_trans h2 h)⟩

/-- A finished file with the present time and size is right. -/
theorem Stays.fits {p : List Name} {x : Node} (hs : Stays W t0 t p x) {m : Meta} (hg : Good P W t p m) (hk : m.kind = .file) (hxk : x.kind = .file) (ht : m.mtime = x.mtime)
    (hz : m.fileSize = x.size) : m = wantMeta P (p.getLastD []) x := by
  cases x with
  | dir => cases hxk
  | file a c =>
    cases hg with
    | dir s h1 h2 => cases hk
    | @file a' c0 c' s s' h1 h2 h3 h4 =>
      have ht : a' = a := ht
      subst ht
      rw [hs.before s s' a' c0 c' c h1 h2 h3 h4 rfl hz]
    | @unreadable a' c0 s s' h1 h2 h3 h4 =>
      have ht : a' = a := ht
      subst ht
      have hz : 0 = c.length := hz
      rw [List.length_eq_zero_iff.mp hz.symm] at hs
      exact absurd rfl (hs.empty s s' a' c0 h1 h2 h3 h4)

theorem R.kind (h : R P W t0 t F q) {p : List Name} {k : Kind} (he : (p, k) ∈ q) : F.isKind p k := by
  obtain ⟨s, x, -, -, -, h3, h4⟩ := h.pend _ he
  exact ⟨_, h4, h3⟩

theorem plain_pend (p : List Name) (x : Node) : (pendMeta (p.getLastD []) x).name = p.getLastD [] ∧ (pendMeta (p.getLastD []) x).symlink = [] ∧
    ((pendMeta (p.getLastD []) x).kind = .directory → (pendMeta (p.getLastD []) x).fileSize = 0 ∧ (pendMeta (p.getLastD []) x).chunks = [] ∧
      (pendMeta (p.getLastD []) x).indirect = []) := by
  refine ⟨rfl, rfl, fun hk => ?_⟩
  cases x with
  | file => cases hk
  | dir => exact ⟨rfl, rfl, rfl⟩

theorem R.scan {cfg : Cfg} (h : R P W t0 t F q) {p : List Name} (he : (p, .directory) ∈ q) {t' : Nat} (h00 : t0 ≤ t) (ht : t ≤ t')
    {listing : List Info} (hl : ∀ i ∈ listing, ∃ s x, t ≤ s ∧ s ≤ t' ∧ (W.dir s).at (p ++ [i.name]) = some x ∧ i = x.info i.name)
    {F' : Tree} {new : Todo} (hsc : Scanned cfg listing p F F' new) (hnd : (listing.map Info.name).Nodup) :
    R P W t0 t' F' (q.erase (p, .directory) ++ new) := by
  have hmem : ∀ e, e ∈ q.erase (p, .directory) ↔ e ≠ (p, .directory) ∧ e ∈ q := fun e => h.nodup.mem_erase_iff
  have hout : ∀ e ∈ q, e ≠ (p, .directory) → ¬ p <+: e.1 ∧ ¬ e.1 <+: p := fun e h1 hne =>
    ⟨fun hh => hne (h.apart _ he _ h1 hh).symm, fun hh => hne (h.apart _ h1 _ he hh)⟩
  -- nothing below `p` is queued
  have hnoq : ∀ r, r ≠ [] → ∀ e ∈ q, e.1 ≠ p ++ r := by
    intro r hr e h1 hh
    have := h.apart _ he _ h1 (by rw [hh]; exact List.prefix_append ..)
    rw [← this] at hh
    exact hr (List.self_eq_append_right.mp hh)
  have hkinds : ∀ i ∈ listing, i.kind = .file ∨ i.kind = .directory := by
    intro i hi
    obtain ⟨s, x, -, -, -, h1⟩ := hl i hi
    rw [h1]; exact kind_cases x
  have hnewE : ∀ e ∈ new, ∃ i ∈ listing, e = (p ++ [i.name], i.kind) ∧ ¬ Kept F p i := by
    intro e h1
    obtain ⟨i, hi, hk, hk2, rfl⟩ := (hsc.queue e).mp h1
    exact ⟨i, hi, rfl, hk⟩
  have hbase : ∀ i ∈ listing, ∀ x : Node, i = x.info i.name → setMeta i (base cfg F p i) = pendMeta i.name x := by
    intro i hi x hix
    generalize i.name = n at hix
    subst hix
    unfold base
    split
    · rename_i hk
      obtain ⟨m, hm, hmk⟩ := hk
      obtain ⟨k1, k2, k3⟩ := h.plain _ m hm
      rw [hm, Option.getD_some]
      exact setMeta_pend n x m hmk (by rw [k1, List.getLastD_concat]; rfl) k2 k3
    · exact setMeta_pend n x _ rfl rfl rfl (fun _ => ⟨rfl, rfl, rfl⟩)
  -- what is below `p` is new, or as before
  have hcase : ∀ n r m, F' (p ++ n :: r) = some m → (∃ i ∈ listing, i.name = n ∧ r = [] ∧ (p ++ [n], i.kind) ∈ new) ∨ F (p ++ n :: r) = some m := by
    intro n r m hm
    by_cases hn : ∀ i ∈ listing, i.name ≠ n
    · rw [hsc.gone n hn] at hm; cases hm
    simp only [Classical.not_forall, not_not] at hn
    obtain ⟨i, hi, rfl⟩ := hn
    by_cases hk : Kept F p i
    · rw [hsc.kept i hi hk] at hm; exact .inr hm
    · obtain ⟨k1, k2⟩ := hsc.new i hi hk (hkinds i hi)
      by_cases hr : r = []
      · exact .inl ⟨i, hi, rfl, hr, (hsc.queue _).mpr ⟨i, hi, hk, hkinds i hi, rfl⟩⟩
      · rw [k2 r hr] at hm
        split at hm
        · exact .inr hm
        · cases hm
  have hpendN : ∀ e ∈ new, ∃ s x, t0 ≤ s ∧ s ≤ t' ∧ (W.dir s).at e.1 = some x ∧ x.kind = e.2 ∧ F' e.1 = some (pendMeta (e.1.getLastD []) x) := by
    intro e h1
    obtain ⟨i, hi, rfl, hk⟩ := hnewE e h1
    obtain ⟨s, x, k1, k2, k3, k4⟩ := hl i hi
    refine ⟨s, x, Nat.le_trans h00 k1, k2, k3, by rw [k4]; rfl, ?_⟩
    have h6 := (hsc.new i hi hk (hkinds i hi)).1
    rw [hbase i hi x k4] at h6
    rw [show (p ++ [i.name]).getLastD [] = i.name by simp]
    exact h6
  refine ⟨?_, ?_, ?_, ?_, ?_⟩
  · intro e h1 e' h2 hpre
    rcases List.mem_append.mp h1 with h1 | h1 <;> rcases List.mem_append.mp h2 with h2 | h2
    · exact h.apart e ((hmem e).mp h1).2 e' ((hmem e').mp h2).2 hpre
    · obtain ⟨hne, h1⟩ := (hmem e).mp h1
      obtain ⟨i, -, rfl, -⟩ := hnewE e' h2
      rcases List.prefix_concat_iff.mp hpre with h4 | h4
      · exact absurd (by rw [h4]; exact List.prefix_append ..) (hout e h1 hne).1
      · exact absurd h4 (hout e h1 hne).2
    · obtain ⟨hne, h2⟩ := (hmem e').mp h2
      obtain ⟨i, -, rfl, -⟩ := hnewE e h1
      exact absurd ((List.prefix_append ..).trans hpre) (hout e' h2 hne).1
    · obtain ⟨i, hi, rfl, -⟩ := hnewE e h1
      obtain ⟨i', hi', rfl, -⟩ := hnewE e' h2
      have := prefix_names (p := p) (n := i.name) (k := i'.name) (r := []) hpre
      have hii : i = i' := by
        obtain ⟨a, ha, rfl⟩ := List.mem_iff_getElem.mp hi
        obtain ⟨c, hc, rfl⟩ := List.mem_iff_getElem.mp hi'
        have := (List.nodup_iff_injective_get.mp hnd) (a₁ := ⟨a, by simpa using ha⟩) (a₂ := ⟨c, by simpa using hc⟩) (by
          simp only [List.get_eq_getElem, List.getElem_map]; exact this)
        have : a = c := congrArg Fin.val this
        subst this; rfl
      rw [hii]
  · rw [List.nodup_append]
    refine ⟨h.nodup.erase _, hsc.nodup, fun e h1 e' h2 hee => ?_⟩
    subst hee
    obtain ⟨hne, h1⟩ := (hmem e).mp h1
    obtain ⟨i, -, rfl, -⟩ := hnewE e h2
    exact (hout _ h1 hne).1 (List.prefix_append ..)
  · intro e h1
    rcases List.mem_append.mp h1 with h1 | h1
    · obtain ⟨hne, h1⟩ := (hmem e).mp h1
      obtain ⟨s, x, k0, k1, k2, k3, k4⟩ := h.pend e h1
      exact ⟨s, x, k0, Nat.le_trans k1 ht, k2, k3, by rw [hsc.other _ (hout e h1 hne).1]; exact k4⟩
    · exact hpendN e h1
  · intro r m hr0 hm hq
    by_cases hpr : p <+: r
    · obtain ⟨r, rfl⟩ := hpr
      cases r with
      | nil =>
        obtain ⟨s, x, -, k1, k2, k3, k4⟩ := h.pend _ he
        rw [List.append_nil] at hm ⊢
        rw [hsc.self, k4] at hm
        cases hm
        cases x with
        | file => cases k3
        | dir a es => exact .dir s (Nat.le_trans k1 ht) k2
      | cons n r =>
        rcases hcase n r m hm with ⟨i, -, rfl, rfl, h1⟩ | h1
        · exact absurd rfl (hq _ (List.mem_append.mpr (.inr h1)))
        · exact (h.good _ m hr0 h1 (hnoq _ (by simp))).later ht
    · rw [hsc.other r hpr] at hm
      refine (h.good r m hr0 hm fun e h1 hh => ?_).later ht
      by_cases hne : e = (p, .directory)
      · subst hne; exact hpr (by rw [← hh]; exact List.prefix_rfl)
      · exact hq e (List.mem_append.mpr (.inl ((hmem e).mpr ⟨hne, h1⟩))) hh
  · intro r m hm
    by_cases hpr : p <+: r
    · obtain ⟨r, rfl⟩ := hpr
      cases r with
      | nil =>
        rw [List.append_nil] at hm ⊢
        rw [hsc.self] at hm
        obtain ⟨m', h1, rfl⟩ := Option.map_eq_some_iff.mp hm
        exact h.plain _ m' h1
      | cons n r =>
        rcases hcase n r m hm with ⟨i, -, rfl, rfl, h1⟩ | h1
        · obtain ⟨s, x, -, -, -, -, k⟩ := hpendN _ h1
          rw [hm] at k
          cases k
          exact plain_pend _ x
        · exact h.plain _ m h1
    · rw [hsc.other r hpr] at hm
      exact h.plain r m hm

/-- An asset is finished. -/
theorem R.finish (h : R P W t0 t F q) {e0 : List Name × Kind} (he : e0 ∈ q) {t' : Nat} (ht : t ≤ t') {F' : Tree} (hF : ∀ r, r ≠ e0.1 → F' r = F r) {m : Meta}
    (hm : F' e0.1 = some m) (hg : e0.1 ≠ [] → Good P W t' e0.1 m)
    (hpl : m.name = e0.1.getLastD [] ∧ m.symlink = [] ∧ (m.kind = .directory → m.fileSize = 0 ∧ m.chunks = [] ∧ m.indirect = [])) :
    R P W t0 t' F' (q.erase e0) := by
  have hmem : ∀ e, e ∈ q.erase e0 ↔ e ≠ e0 ∧ e ∈ q := fun e => h.nodup.mem_erase_iff
  refine ⟨fun e h1 e' h2 => h.apart e ((hmem e).mp h1).2 e' ((hmem e').mp h2).2, h.nodup.erase _, ?_, ?_, ?_⟩
  · intro e h1
    obtain ⟨hne, h1⟩ := (hmem e).mp h1
    obtain ⟨s, x, k0, k1, k2, k3, k4⟩ := h.pend e h1
    refine ⟨s, x, k0, Nat.le_trans k1 ht, k2, k3, ?_⟩
    rw [hF]
    · exact k4
    · intro hh; exact hne (h.apart _ h1 _ he (by rw [hh]; exact List.prefix_rfl))
  · intro p m' hp hm' hq
    by_cases hpe : p = e0.1
    · subst hpe
      rw [hm] at hm'; cases hm'
      exact hg hp
    · rw [hF p hpe] at hm'
      refine (h.good p m' hp hm' fun e h1 hh => ?_).later ht
      by_cases hne : e = e0
      · subst hne; exact hpe hh.symm
      · exact hq e ((hmem e).mpr ⟨hne, h1⟩) hh
  · intro p m' hm'
    by_cases hpe : p = e0.1
    · subst hpe
      rw [hm] at hm'; cases hm'
      exact hpl
    · rw [hF p hpe] at hm'; exact h.plain p m' hm'

/-- Above anything there are directories. -/
theorem at_above {x y : Node} {d r : List Name} {n : Name} (h : x.at (d ++ n :: r) = some y) : (∃ a es, x.at d = some (.dir a es)) ∧ ∃ z, x.at (d ++ [n]) = some z ∧ (r ≠ [] → z.kind = .directory) := by
  constructor
  · cases hd : x.at d with
    | none => rw [at_append, hd] at h; cases h
    | some z =>
      cases z with
      | dir a es => exact ⟨a, es, rfl⟩
      | file a c => rw [at_file hd (by simp)] at h; cases h
  · rw [show d ++ n :: r = (d ++ [n]) ++ r by simp] at h
    cases hd : x.at (d ++ [n]) with
    | none => rw [at_append, hd] at h; cases h
    | some z =>
      refine ⟨z, rfl, fun hr => ?_⟩
      cases z with
      | dir a es => rfl
      | file a c => rw [at_file hd hr] at h; cases h

theorem kept_file {F : Tree} {p : List Name} {i : Info} (h : Kept F p i) : i.kind ≠ .directory ∧
    (i.kind = .file → ∃ m, F (p ++ [i.name]) = some m ∧ m.kind = .file ∧ m.mtime = i.mtime ∧ m.fileSize = i.size) := by
  obtain ⟨m, h1, h2⟩ := h
  unfold same infoMeta at h2
  simp only [Bool.and_eq_true, Bool.or_eq_true, beq_iff_eq, bne_iff_ne, ne_eq] at h2
  obtain ⟨⟨⟨k1, k2⟩, k3⟩, k4⟩ := h2
  refine ⟨k4, fun hf => ⟨m, h1, by rw [← k2, hf], k1.symm, ?_⟩⟩
  rcases k3 with k3 | k3
  · exact absurd hf k3
  · rw [if_neg (by rw [← k2, hf]; exact Kind.noConfusion)] at k3
    exact k3.symm

theorem Loc.scan {cfg : Cfg} (h : R P W t0 t F q) (hL : Loc P W t0 t F q) {p : List Name} (he : (p, .directory) ∈ q) {t' : Nat} (h00 : t0 ≤ t) (ht : t ≤ t')
    {listing : List Info} (hl : ∀ i ∈ listing, ∃ s x, t ≤ s ∧ s ≤ t' ∧ (W.dir s).at (p ++ [i.name]) = some x ∧ i = x.info i.name)
    (hc : ∀ n, (∀ s, t ≤ s → s ≤ t' → (W.dir s).at (p ++ [n]) ≠ none) → ∃ i ∈ listing, i.name = n)
    {F' : Tree} {new : Todo} (hsc : Scanned cfg listing p F F' new) : Loc P W t0 t' F' (q.erase (p, .directory) ++ new) := by
  have hmem : ∀ e, e ∈ q.erase (p, .directory) ↔ e ≠ (p, .directory) ∧ e ∈ q := fun e => h.nodup.mem_erase_iff
  have hstill : ∀ r, ¬ p <+: r → (∃ e ∈ q, e.1 <+: r) → ∃ e ∈ q.erase (p, .directory) ++ new, e.1 <+: r := by
    rintro r hr ⟨e, h1, h2⟩
    refine ⟨e, List.mem_append.mpr (.inl ((hmem e).mpr ⟨?_, h1⟩)), h2⟩
    rintro rfl
    exact hr h2
  have hkinds : ∀ i ∈ listing, i.kind = .file ∨ i.kind = .directory := by
    intro i hi
    obtain ⟨s, x, -, -, -, h1⟩ := hl i hi
    rw [h1]; exact kind_cases x
  have hnew : ∀ i ∈ listing, ¬ Kept F p i → ∀ r, ∃ e ∈ q.erase (p, .directory) ++ new, e.1 <+: p ++ i.name :: r := by
    intro i hi hk r
    refine ⟨(p ++ [i.name], i.kind), List.mem_append.mpr (.inr ((hsc.queue _).mpr ⟨i, hi, hk, hkinds i hi, rfl⟩)), ⟨r, ?_⟩⟩
    simp
  constructor
  · intro p0 x hs
    by_cases hp : p <+: p0
    · obtain ⟨r, rfl⟩ := hp
      cases r with
      | nil =>
        right
        rw [List.append_nil] at hs ⊢
        obtain ⟨s, y, k0, k1, k2, k3, k4⟩ := h.pend _ he
        obtain ⟨y', j1, j2, j3, -⟩ := hs.there s k0 (Nat.le_trans k1 ht)
        have k2 : (W.dir s).at p = some y := k2
        rw [k2] at j1
        cases j1
        have k4 : F p = _ := k4
        rw [hsc.self, k4]
        cases y with
        | file => cases k3
        | dir a es =>
          cases x with
          | file => cases j2
          | dir a' es' =>
            have j3 : a = a' := j3
            subst j3; rfl
      | cons n r =>
        obtain ⟨i, hi, rfl⟩ := hc n fun s h1 h2 hn => by
          obtain ⟨y, j1, -⟩ := hs.there s (Nat.le_trans h00 h1) h2
          obtain ⟨z, j2, -⟩ := (at_above j1).2
          rw [hn] at j2; cases j2
        by_cases hk : Kept F p i
        · obtain ⟨s, z, k1, k2, k3, k4⟩ := hl i hi
          obtain ⟨y, j1, j2, j3, j4⟩ := hs.there s (Nat.le_trans h00 k1) k2
          obtain ⟨z', j5, j6⟩ := (at_above j1).2
          rw [k3] at j5
          cases j5
          obtain ⟨q1, q2⟩ := kept_file hk
          have hzk : i.kind = z.kind := by rw [k4]; rfl
          cases r with
          | cons n' r => exact absurd (hzk.trans (j6 (by simp))) q1
          | nil =>
            have hyz : y = z := by
              rw [j1] at k3; exact Option.some.inj k3
            subst hyz
            have hfile : y.kind = .file := by
              rcases kind_cases y with hh | hh
              · exact hh
              · exact absurd (hzk.trans hh) q1
            have := j4 (by rw [← j2]; exact hfile)
            subst this
            obtain ⟨m, m1, m2, m3, m4⟩ := q2 (hzk.trans hfile)
            right
            rw [hsc.kept i hi hk, m1]
            have hg : Good P W t (p ++ [i.name]) m := h.good _ m (by simp) m1 (by
              intro e h1 hh
              have := h.apart _ he _ h1 (by rw [hh]; exact List.prefix_append ..)
              rw [← this] at hh
              exact absurd (List.self_eq_append_right.mp hh) (by simp))
            exact congrArg some ((hs.earlier ht).fits hg m2 hfile (by rw [m3, k4]; rfl) (by rw [m4, k4]; rfl))
        · exact .inl (hnew i hi hk r)
    · rcases hL.stays p0 x (hs.earlier ht) with h1 | h1
      · exact .inl (hstill p0 hp h1)
      · exact .inr (by rw [hsc.other _ hp]; exact h1)
  · intro d n hs
    by_cases hp : p <+: d
    · obtain ⟨r, rfl⟩ := hp
      cases r with
      | nil =>
        right
        intro r
        rw [List.append_nil] at hs ⊢
        refine hsc.gone n (fun i hi hh => ?_) r
        obtain ⟨s, z, k1, k2, k3, k4⟩ := hl i hi
        obtain ⟨-, -, -, j⟩ := hs.there s (Nat.le_trans h00 k1) k2
        rw [hh] at k3
        rw [k3] at j; cases j
      | cons n' r =>
        obtain ⟨i, hi, rfl⟩ := hc n' fun s h1 h2 hn => by
          obtain ⟨a, es, j1, -⟩ := hs.there s (Nat.le_trans h00 h1) h2
          obtain ⟨z, j2, -⟩ := (at_above j1).2
          rw [hn] at j2; cases j2
        refine .inl (hnew i hi (fun hk => ?_) r)
        obtain ⟨s, z, k1, k2, k3, k4⟩ := hl i hi
        obtain ⟨a, es, j1, -⟩ := hs.there s (Nat.le_trans h00 k1) k2
        obtain ⟨z', j5, j6⟩ := (at_above j1).2
        rw [k3] at j5
        cases j5
        have hzk : i.kind = z.kind := by rw [k4]; rfl
        refine (kept_file hk).1 (hzk.trans ?_)
        by_cases hr : r = []
        · subst hr
          rw [j1] at k3; cases k3; rfl
        · exact j6 hr
    · rcases hL.absent d n (hs.earlier ht) with h1 | h1
      · exact .inl (hstill d hp h1)
      · refine .inr fun r => ?_
        rw [hsc.other]
        · exact h1 r
        · intro hh
          rcases List.prefix_or_prefix_of_prefix hh (List.prefix_append d (n :: r)) with h2 | ⟨r', h2⟩
          · exact hp h2
          · obtain ⟨s, y, -, -, -, -, k4⟩ := h.pend _ he
            have k4 : F p = _ := k4
            cases r' with
            | nil => exact hp (by rw [← h2, List.append_nil]; exact List.prefix_rfl)
            | cons n' r' =>
              rw [← h2] at hh
              have : n' = n := by
                have := (List.prefix_append_right_inj d).mp hh
                exact (List.cons_prefix_cons.mp this).1
              rw [← h2, this, h1 r'] at k4
              cases k4

/-- An asset is finished. -/
theorem Loc.finish (h : R P W t0 t F q) (hL : Loc P W t0 t F q) {e0 : List Name × Kind} (he : e0 ∈ q) {t' : Nat} (ht : t ≤ t') {F' : Tree}
    (hF : ∀ r, r ≠ e0.1 → F' r = F r) (hm : ∀ p x, Stays W t0 t' p x → e0.1 <+: p → F' p = some (wantMeta P (p.getLastD []) x))
    (ha : ∀ d n, Absent W t0 t' d n → ¬ e0.1 <+: d) : Loc P W t0 t' F' (q.erase e0) := by
  have hmem : ∀ e, e ∈ q.erase e0 ↔ e ≠ e0 ∧ e ∈ q := fun e => h.nodup.mem_erase_iff
  have hstill : ∀ r, ¬ e0.1 <+: r → (∃ e ∈ q, e.1 <+: r) → ∃ e ∈ q.erase e0, e.1 <+: r := by
    rintro r hr ⟨e, h1, h2⟩
    refine ⟨e, (hmem e).mpr ⟨?_, h1⟩, h2⟩
    rintro rfl
    exact hr h2
  constructor
  · intro p x hs
    by_cases hp : e0.1 <+: p
    · exact .inr (hm p x hs hp)
    · rcases hL.stays p x (hs.earlier ht) with h1 | h1
      · exact .inl (hstill p hp h1)
      · exact .inr (by rw [hF p (by rintro rfl; exact hp List.prefix_rfl)]; exact h1)
  · intro d n hs
    have hp := ha d n hs
    rcases hL.absent d n (hs.earlier ht) with h1 | h1
    · exact .inl (hstill d hp h1)
    · refine .inr fun r => ?_
      rw [hF]
      · exact h1 r
      · intro hh
        obtain ⟨s, y, -, -, -, -, k4⟩ := h.pend _ he
        rw [← hh, h1 r] at k4
        cases k4

/-- A file is finished. -/
theorem Loc.file (h : R P W t0 t F q) (hL : Loc P W t0 t F q) {p : List Name} (he : (p, .file) ∈ q) {t' : Nat} (ht : t ≤ t') {F' : Tree}
    (hF : ∀ r, r ≠ p → F' r = F r) (hm : ∀ x, x.kind = .file → Stays W t0 t' p x → (W.dir t').at p = some x → F p = some (pendMeta (p.getLastD []) x) → F' p = some (wantMeta P (p.getLastD []) x)) :
    Loc P W t0 t' F' (q.erase (p, .file)) := by
  obtain ⟨s, y, k0, k1, k2, k3, k4⟩ := h.pend _ he
  have k2 : (W.dir s).at p = some y := k2
  have k4 : F p = _ := k4
  have hfile : ∃ a c, y = .file a c := by
    cases y with
    | dir => cases k3
    | file a c => exact ⟨a, c, rfl⟩
  obtain ⟨a, c, rfl⟩ := hfile
  refine Loc.finish h hL he ht hF ?_ ?_
  · rintro p0 x hs ⟨r, rfl⟩
    obtain ⟨y', j1, j2, j3, j4⟩ := hs.there s k0 (Nat.le_trans k1 ht)
    by_cases hr : r = []
    · subst hr
      rw [List.append_nil] at *
      rw [k2] at j1
      cases j1
      have := j4 j2.symm
      subst this
      obtain ⟨y2, i1, i2, -, i4⟩ := hs.there t' (Nat.le_trans (Nat.le_trans k0 k1) ht) (Nat.le_refl _)
      exact hm _ rfl hs (by rw [i1, i4 rfl]) k4
    · rw [at_file k2 hr] at j1
      cases j1
  · rintro d n hs ⟨r, rfl⟩
    obtain ⟨a', es, j1, -⟩ := hs.there s k0 (Nat.le_trans k1 ht)
    by_cases hr : r = []
    · subst hr
      rw [List.append_nil] at j1
      have j1 : (W.dir s).at p = some _ := j1
      rw [k2] at j1; cases j1
    · have j1 : (W.dir s).at (p ++ r) = some _ := j1
      rw [at_file k2 hr] at j1
      cases j1

theorem failed_change : Change failed := ⟨fun _ => rfl, fun _ => rfl, .inl fun _ _ _ => rfl⟩

theorem chunked_read (hchunk : ∀ c, (P.chunk c).flatten = c) (n : Name) (m : Int) (c0 c : List UInt8) :
    chunked P c (pendMeta n (.file m c0)) = wantMeta P n (.file m c) := by
  have : processed (P.chunk c) = c.length := by
    unfold processed
    rw [← List.length_flatten, hchunk]
  unfold chunked pendMeta wantMeta
  rw [this]; rfl

end

theorem scanFailed_store {cfg : Cfg} {p : List Name} {b b' : Builder} (h : scanFailed cfg p b = .ok b') : b'.store = b.store := by
  unfold scanFailed at h
  split at h
  · cases h
  · rename_i b1 h1
    rw [atDir_store h, findDir_store h1]

theorem rough_store {P : Env} {W : World} {t0 : Nat} {b0 b : Builder} {q : Todo} {t : Nat} (h : Rough P W t0 b0 b q t) : b0.store <+: b.store := by
  induction h with
  | start _ _ _ h1 => rw [atDir_store h1]; exact List.prefix_rfl
  | scan p t' _ _ _ _ _ _ h1 ih => rw [scanDir_store h1]; exact ih
  | scanFails p t' _ _ _ _ h1 ih => rw [scanFailed_store h1]; exact ih
  | file p n t' _ _ _ _ h1 ih => rw [editAsset_store h1]; exact ih
  | fileFails p n t' _ _ _ _ h1 ih => rw [editAsset_store h1]; exact ih
  | push fuel id _ h1 ih => exact ih.trans (flush_store h1)

theorem rough_time {P : Env} {W : World} {t0 : Nat} {b0 b : Builder} {q : Todo} {t : Nat} (h : Rough P W t0 b0 b q t) : t0 ≤ t := by
  induction h with
  | start _ h1 _ _ => exact h1
  | scan p t' _ h2 _ _ _ _ h1 ih => exact Nat.le_trans ih h2
  | scanFails p t' _ h2 _ _ h1 ih => exact Nat.le_trans ih h2
  | file p n t' _ h2 _ _ h1 ih => exact Nat.le_trans ih h2
  | fileFails p n t' _ h2 _ _ h1 ih => exact Nat.le_trans ih h2
  | push fuel id _ h1 ih => exact ih

theorem Seen.later {W : World} {t t' : Nat} (h : t ≤ t') {p : List Name} {k : Kind} {m : Int} {n : Nat} (hk : Seen W t p k m n) : Seen W t' p k m n := by
  obtain ⟨s, x, h1, h2, h3, h4, h5⟩ := hk
  refine ⟨s, x, Nat.le_trans h1 h, h2, h3, h4, ?_⟩
  rcases h5 with h5 | ⟨h5, s', h6, h7⟩
  · exact .inl h5
  · exact .inr ⟨h5, s', Nat.le_trans h6 h, h7⟩

theorem Apart.earlier {W : World} {t t' : Nat} (h : t ≤ t') {S : List Stored} (hk : Apart S (Seen W t')) : Apart S (Seen W t) :=
  hk.sub fun _ _ _ _ h1 => h1.later h

theorem rough_inv {P : Env} (hsort : ∀ l, (P.cfg.sort l).Perm l) (hchunk : ∀ c, (P.chunk c).flatten = c) {S : List Stored} (hc : NoCollision P.cfg.hash S)
    {W : World} {T : Nat} (hV : Apart S (Seen W T)) {t0 : Nat} {b0 : Builder} {old : Tree} {x0 : Part}
    (hi : Inv P.cfg.hash S b0 old old x0) (hu : Untouched P.cfg.hash x0 b0 []) (ho : R P W t0 t0 old []) {b : Builder} {q : Todo} {t : Nat}
    (h : Rough P W t0 b0 b q t) : t ≤ T → b.store <+: S →
    ∃ G F x, Inv P.cfg.hash S b G F x ∧ R P W t0 t F q ∧ Loc P W t0 t F q ∧ Stamped (Seen W t) G ∧ ∀ e ∈ q, Untouched P.cfg.hash x b e.1 := by
  induction h with
  | @start b m es t ht hs h1 =>
    intro _ _
    have hroot : old.isDir [] := (hi.isDir []).mp ⟨_, look_nil _, hi.dir⟩
    obtain ⟨b1, e1, x1, hx1, hsub, -⟩ := hi.modify (path := []) (setMeta_change ⟨[], .directory, m, 0⟩) hroot
    unfold begin_ at h1
    rw [h1] at e1
    cases e1
    have hb : b.lists = b0.lists ∧ b.store = b0.store := by
      unfold atDir inDirPath at h1
      cases h1; exact ⟨rfl, rfl⟩
    obtain ⟨m0, hm0, hk0⟩ := hroot
    obtain ⟨k1, k2, k3⟩ := ho.plain _ m0 hm0
    have hset : setMeta ⟨[], .directory, m, 0⟩ m0 = pendMeta [] (.dir m es) := setMeta_pend [] (.dir m es) m0 hk0 k1 k2 k3
    have hF : ∀ r, r ≠ [] → old.modify [] (setMeta ⟨[], .directory, m, 0⟩) r = old r := by
      intro r hr
      unfold Tree.modify
      rw [if_neg hr]
    have hF0 : old.modify [] (setMeta ⟨[], .directory, m, 0⟩) [] = some (pendMeta [] (.dir m es)) := by
      unfold Tree.modify
      rw [if_pos rfl, hm0, Option.map_some, hset]
    have ho' := ho.later ht t0
    refine ⟨old, _, x1, hx1, ⟨?_, by simp, ?_, ?_, ?_⟩, ⟨?_, ?_⟩, ho'.stamped, ?_⟩
    · intro e he e' he' _
      rw [List.mem_singleton] at he he'
      rw [he, he']
    · intro e he
      rw [List.mem_singleton] at he
      subst he
      refine ⟨t, .dir m es, ht, Nat.le_refl _, ?_, rfl, hF0⟩
      rw [hs]; rfl
    · intro p m' hp hm' _
      rw [hF p hp] at hm'
      exact ho'.good p m' hp hm' (fun e he => nomatch he)
    · intro p m' hm'
      by_cases hp : p = []
      · subst hp
        rw [hF0] at hm'
        cases hm'
        exact plain_pend [] _
      · rw [hF p hp] at hm'
        exact ho.plain p m' hm'
    · exact fun p x _ => .inl ⟨_, List.mem_singleton.mpr rfl, List.nil_prefix⟩
    · exact fun d n _ => .inl ⟨_, List.mem_singleton.mpr rfl, List.nil_prefix⟩
    · intro e he u hu' _
      rw [hb.1, hb.2]
      exact hu u (hsub u hu') List.nil_prefix
  | @scan b b' q new listing t p t' hr ht hq hnd hl hcompl h1 ih =>
    intro hT hst
    rw [scanDir_store h1] at hst
    obtain ⟨G, F, x, hx, hR, hL, hG, hU⟩ := ih (Nat.le_trans ht hT) hst
    obtain ⟨b2, q2, F', x', e1, hx', g, hsc⟩ := scanDir_ok hx (hR.kind hq) (hU _ hq) hnd
    rw [h1] at e1
    cases e1
    refine ⟨G, F', x', hx', hR.scan hq (rough_time hr) ht hl hsc hnd, Loc.scan hR hL hq (rough_time hr) ht hl hcompl hsc, (fun p m hp hm => (hG p m hp hm).later ht), ?_⟩
    intro e he
    rcases List.mem_append.mp he with he | he
    · obtain ⟨hne, he⟩ := (hR.nodup.mem_erase_iff).mp he
      exact g.untouched (fun hh => hne (hR.apart _ he _ hq hh)) (hU e he)
    · obtain ⟨i, hi, -, -, rfl⟩ := (hsc.queue e).mp he
      refine g.untouched (not_prefix_self p _) ?_
      intro u hu hpu
      exact hU _ hq u hu ((List.prefix_append ..).trans hpu)
  | @scanFails b b' q t p t' hr ht hq hun h1 ih =>
    intro hT hst
    have hst1 := scanFailed_store h1
    rw [hst1] at hst
    obtain ⟨G, F, x, hx, hR, hL, hG, hU⟩ := ih (Nat.le_trans ht hT) hst
    obtain ⟨b1, x1, e1, hx1, g1, hu1⟩ := findDir_ok hx (hR.kind hq) (hU _ hq)
    obtain ⟨b2, e2, h2⟩ := hx1.modify (path := p) (setInProgress_change false) (hR.kind hq)
    unfold scanFailed at h1
    rw [e1] at h1
    simp only at h1
    rw [h1] at e2
    cases e2
    obtain ⟨x2, hx2, g2⟩ := becomes_to h2 (atDir_store h1)
    obtain ⟨s, y, k0, k1, k2, k3, k4⟩ := hR.pend _ hq
    have hother : ∀ r, r ≠ p → F.modify p (setInProgress false) r = F r := by
      intro r hr'
      unfold Tree.modify
      rw [if_neg hr']
    refine ⟨G, _, x2, hx2, hR.finish (m := setInProgress false (pendMeta (p.getLastD []) y)) hq ht hother ?_ ?_ (plain_pend p y), Loc.finish hR hL hq ht hother ?_ ?_,
      (fun p m hp hm => (hG p m hp hm).later ht), ?_⟩
    · unfold Tree.modify
      rw [if_pos rfl]
      have k4 : F p = _ := k4
      rw [k4]; rfl
    · intro _
      cases y with
      | file => cases k3
      | dir a es => exact .dir s (Nat.le_trans k1 ht) k2
    · intro p0 x0 hs hp0
      refine absurd hun (hs.listed t' p (Nat.le_trans (rough_time hr) ht) (Nat.le_refl _) hp0 ?_)
      have k2 : (W.dir s).at p = some y := k2
      rintro rfl
      obtain ⟨y', j1, j2, -⟩ := hs.there s k0 (Nat.le_trans k1 ht)
      rw [k2] at j1
      cases j1
      rw [← j2]; exact k3
    · intro d n hs hp0
      exact hs.listed t' p (Nat.le_trans (rough_time hr) ht) (Nat.le_refl _) hp0 hun
    · intro e he
      obtain ⟨hne, he⟩ := (hR.nodup.mem_erase_iff).mp he
      exact (g1.trans g2).untouched (fun hh => hne (hR.apart _ he _ hq hh)) (hU e he)
  | @file b b' q c t p n t' hr ht hq hs h1 ih =>
    intro hT hst
    have hst1 := editAsset_store h1
    rw [hst1] at hst
    obtain ⟨G, F, x, hx, hR, hL, hG, hU⟩ := ih (Nat.le_trans ht hT) hst
    obtain ⟨x', hx', g⟩ := becomes_to (hx.edit (chunked_change P c) h1) hst1
    have hk := hR.kind hq
    have hcl := inv_closed hx
    obtain ⟨s, y, k0, k1, k2, k3, k4⟩ := hR.pend _ hq
    have k4 : F (p ++ [n]) = some (pendMeta n y) := by
      rw [show n = (p ++ [n]).getLastD [] by simp]; simpa using k4
    have hd : F.isDir p := hcl p [n] (by simp) (by rw [k4]; simp)
    have hput := fun r => put_in (new := newMeta P.cfg) hcl hd n .file (chunked P c) r
    simp only [if_pos hk] at hput
    cases y with
    | dir => cases k3
    | file m c0 =>
    have hother : ∀ r, r ≠ p ++ [n] → F.put (newMeta P.cfg) (p ++ [n]) .file (chunked P c) r = F r := by
      intro r hr'
      rw [hput, if_neg hr']
      split <;> rfl
    refine ⟨G, _, x', hx', hR.finish (m := wantMeta P n (.file m c)) hq ht hother ?_ ?_ ?_, Loc.file hR hL hq ht hother ?_, (fun p m hp hm => (hG p m hp hm).later ht), ?_⟩
    · show Tree.put _ _ _ _ _ (p ++ [n]) = _
      rw [hput, if_pos rfl, k4, Option.getD_some, chunked_read hchunk]
    · intro _
      have := Good.file (P := P) s t' (Nat.le_trans k1 ht) (Nat.le_refl _) k2 hs
      rw [show (p ++ [n]).getLastD [] = n by simp] at this
      exact this
    · exact ⟨by simp [wantMeta], rfl, fun h => nomatch h⟩
    · intro x0 hxk hs0 h6 h7
      cases x0 with
      | dir => cases hxk
      | file m0 c1 =>
      rw [show (p ++ [n]).getLastD [] = n by simp] at h7 ⊢
      rw [hput, if_pos rfl, h7, Option.getD_some, chunked_read hchunk, hs0.reads t' c (Nat.le_trans (rough_time hr) ht) (Nat.le_refl _) hs m0 c1 rfl]
    · intro e he
      obtain ⟨hne, he⟩ := (hR.nodup.mem_erase_iff).mp he
      exact g.untouched (fun hh => hne (hR.apart _ he _ hq (hh.trans (List.prefix_append ..)))) (hU e he)
  | @fileFails b b' q t p n t' hr ht hq hs h1 ih =>
    intro hT hst
    have hst1 := editAsset_store h1
    rw [hst1] at hst
    obtain ⟨G, F, x, hx, hR, hL, hG, hU⟩ := ih (Nat.le_trans ht hT) hst
    obtain ⟨x', hx', g⟩ := becomes_to (hx.edit failed_change h1) hst1
    have hk := hR.kind hq
    have hcl := inv_closed hx
    obtain ⟨s, y, k0, k1, k2, k3, k4⟩ := hR.pend _ hq
    have k4 : F (p ++ [n]) = some (pendMeta n y) := by
      rw [show n = (p ++ [n]).getLastD [] by simp]; simpa using k4
    have hd : F.isDir p := hcl p [n] (by simp) (by rw [k4]; simp)
    have hput := fun r => put_in (new := newMeta P.cfg) hcl hd n .file failed r
    simp only [if_pos hk] at hput
    cases y with
    | dir => cases k3
    | file m c0 =>
    have hother : ∀ r, r ≠ p ++ [n] → F.put (newMeta P.cfg) (p ++ [n]) .file failed r = F r := by
      intro r hr'
      rw [hput, if_neg hr']
      split <;> rfl
    refine ⟨G, _, x', hx', hR.finish (m := failed (pendMeta n (.file m c0))) hq ht hother ?_ ?_ ?_, Loc.file hR hL hq ht hother ?_, (fun p m hp hm => (hG p m hp hm).later ht), ?_⟩
    · show Tree.put _ _ _ _ _ (p ++ [n]) = _
      rw [hput, if_pos rfl, k4, Option.getD_some]
    · intro _
      have := Good.unreadable (P := P) s t' (Nat.le_trans k1 ht) (Nat.le_refl _) k2 hs
      rw [show (p ++ [n]).getLastD [] = n by simp] at this
      exact this
    · exact ⟨by simp [failed, pendMeta], rfl, fun h => nomatch h⟩
    · intro x0 hxk hs0 h6 h7
      exact absurd hs (hs0.readable t' (Nat.le_trans (rough_time hr) ht) (Nat.le_refl _))
    · intro e he
      obtain ⟨hne, he⟩ := (hR.nodup.mem_erase_iff).mp he
      exact g.untouched (fun hh => hne (hR.apart _ he _ hq (hh.trans (List.prefix_append ..)))) (hU e he)
  | @push b b' q t fuel id hr h1 ih =>
    intro hT hst
    obtain ⟨G, F, x, hx, hR, hL, hG, hU⟩ := ih hT ((flush_store h1).trans hst)
    have hF := hR.stamped
    obtain ⟨x', hx', -, hs⟩ := hx.flush hsort hc (stamped_unshared (hV.earlier hT) hG hF) h1 hst
    exact ⟨F, F, x', hx', hR, hL, hF, fun e he u hu _ => hs u hu⟩

/-! ### The past -/

theorem root_R (P : Env) (W : World) (t : Nat) : R P W t t (Tree.root (newMeta P.cfg [] .directory)) [] := by
  refine ⟨(fun e he => nomatch he), .nil, (fun e he => nomatch he), ?_, ?_⟩
  · intro p m hp hm
    unfold Tree.root at hm
    rw [if_neg hp] at hm; cases hm
  · intro p m hm
    unfold Tree.root at hm
    split at hm
    · rename_i hp; subst hp; cases hm; exact ⟨rfl, rfl, fun _ => ⟨rfl, rfl, rfl⟩⟩
    · cases hm

/-- What is stored. -/
def PastInv (P : Env) (W : World) (S : List Stored) (t : Nat) (S1 : List Stored) : Option Id → Prop
  | none => True
  | some id => ∃ F x, Saved P.cfg.hash S S1 id F x ∧ R P W t t F []

theorem opens_inv {P : Env} {W : World} {S : List Stored} {t : Nat} {S1 : List Stored} {id : Option Id} (h : PastInv P W S t S1 id) {b0 : Builder}
    (hb : opens P.cfg S1 id = some b0) :
    b0.store = S1 ∧ ∃ old x0, Inv P.cfg.hash S b0 old old x0 ∧ Untouched P.cfg.hash x0 b0 [] ∧ R P W t t old [] := by
  cases id with
  | none =>
    cases hb
    exact ⟨rfl, _, newPart P.cfg [] .directory, inv_new _ _ _, (fun e he => nomatch he), root_R P W t⟩
  | some id =>
    obtain ⟨F, x, h1, h2⟩ := h
    have hb : loadManifest P.cfg S1 id = some b0 := hb
    obtain ⟨l1, l2, -⟩ := load_store hb
    refine ⟨l1, F, x, h1.load hb, ?_, h2⟩
    intro e he _
    rw [l2]; rfl

theorem past_inv {P : Env} (hsort : ∀ l, (P.cfg.sort l).Perm l) (hchunk : ∀ c, (P.chunk c).flatten = c) {S : List Stored} (hc : NoCollision P.cfg.hash S)
    {W : World} {T : Nat} (hV : Apart S (Seen W T)) {t : Nat} {S1 : List Stored} {id : Option Id} (h : Past P W t S1 id) :
    t ≤ T → S1 <+: S → PastInv P W S t S1 id := by
  induction h with
  | init S0 => intro _ _; trivial
  | @update t t' S1 id b0 b b' id' fuel hp ho hr hf ih =>
    intro hT hst
    have hst1 := (flush_store hf).trans hst
    have hst0 := (rough_store hr).trans hst1
    have hS1 : b0.store = S1 := by
      cases id with
      | none => cases ho; rfl
      | some id => exact (load_store ho).1
    rw [hS1] at hst0
    obtain ⟨-, old, x0, k1, k2, k3⟩ := opens_inv (ih (Nat.le_trans (rough_time hr) hT) hst0) ho
    obtain ⟨G, F, x, hx, hR, -, hG, -⟩ := rough_inv hsort hchunk hc hV k1 k2 k3 hr hT hst1
    obtain ⟨x', -, hs, -⟩ := hx.flush hsort hc (stamped_unshared (hV.earlier hT) hG hR.stamped) hf hst
    exact ⟨F, x', hs, hR.later (Nat.le_refl _) _⟩
  | @interrupted t S1 id t' chunks hp ht ih =>
    intro hT hst
    have hpre : S1 <+: S1 ++ chunks := List.prefix_append ..
    have := ih (Nat.le_trans ht hT) (hpre.trans hst)
    cases id with
    | none => trivial
    | some id =>
      obtain ⟨F, x, h1, h2⟩ := this
      exact ⟨F, x, h1.mono hc hpre hst, h2.later ht _⟩

theorem fits_of_R {P : Env} {W : World} {t : Nat} {src : Node} (hs : Settled W t src) {F : Tree} (h : R P W t t F []) (hd : F.isDir []) : Fits P F src := by
  intro p m a c hm hsrc hk ha hsz
  by_cases hp : p = []
  · subst hp
    obtain ⟨m', h1, h2⟩ := hd
    rw [hm] at h1; cases h1
    rw [hk] at h2; cases h2
  · have hg := h.good p m hp hm (fun e he => nomatch he)
    cases hg with
    | dir s h1 h2 => cases hk
    | @file b c0 c' s s' h1 h2 h3 h4 =>
      have ha : b = a := ha
      subst ha
      rw [hs.reads p s s' b c0 c' c h1 h2 h3 h4 hsrc hsz]
    | @unreadable b c0 s s' h1 h2 h3 h4 =>
      have ha : b = a := ha
      subst ha
      have : c = [] := List.length_eq_zero_iff.mp (Eq.symm hsz)
      subst this
      exact absurd hsrc (hs.empty p s s' b c0 h1 h2 h3 h4)

theorem Apart.seen {W : World} {t : Nat} {src : Node} {S : List Stored} (h : Apart S (Known W t src)) : Apart S (Seen W t) :=
  h.sub fun _ _ _ _ h1 => .inr h1

theorem known_in {W : World} {t : Nat} {src : Node} : src.In (Known W t src) := fun _ x hx => .inl ⟨src, by simp, x, hx, rfl, rfl, rfl⟩

theorem past_begins {P : Env} (hsort : ∀ l, (P.cfg.sort l).Perm l) (hchunk : ∀ c, (P.chunk c).flatten = c) {S : List Stored} (hc : NoCollision P.cfg.hash S)
    {W : World} {t : Nat} {src : Node} (hV : Apart S (Known W t src)) (hset : Settled W t src) {S1 : List Stored} {id : Option Id} (h : Past P W t S1 id)
    {b0 : Builder} (ho : opens P.cfg S1 id = some b0) (hst : b0.store <+: S) :
    ∃ old x0, Begins P S (Known W t src) src b0 old x0 := by
  have hS1 : b0.store = S1 := by
    cases id with
    | none => cases ho; rfl
    | some id => exact (load_store ho).1
  rw [hS1] at hst
  obtain ⟨-, old, x0, k1, k2, k3⟩ := opens_inv (past_inv hsort hchunk hc hV.seen h (Nat.le_refl _) hst) ho
  exact ⟨old, x0, k1, k2, k3.plain, fits_of_R hset k3 ((k1.isDir []).mp ⟨_, look_nil _, k1.dir⟩), fun p m hp hm => .inr (k3.stamped p m hp hm)⟩

/-- All that is known about what an update stores, at its end or before. -/
theorem rough_stored {P : Env} (hsort : ∀ l, (P.cfg.sort l).Perm l) (hchunk : ∀ c, (P.chunk c).flatten = c) {W : World} {t : Nat} {S : List Stored}
    {id : Option Id} (hpast : Past P W t S id) {b0 b b' : Builder} {q : Todo} {t' : Nat} {fuel : Nat} {new : Id} (htwins : Apart b'.store (Seen W t'))
    (ho : opens P.cfg S id = some b0) (hr : Rough P W t b0 b q t') (hf : flush P.cfg fuel b = some (new, b')) (hc : NoCollision P.cfg.hash b'.store) :
    ∃ F r, R P W t t' F q ∧ Loc P W t t' F q ∧ loadManifest P.cfg b'.store new = some r ∧ r.store = b'.store ∧ ∀ p m, Has P.cfg.hash b'.store r.root p m ↔ F p = some m := by
  have hst := flush_store hf
  have hst0 := (rough_store hr).trans hst
  have hS1 : b0.store = S := by
    cases id with
    | none => cases ho; rfl
    | some id => exact (load_store ho).1
  rw [hS1] at hst0
  obtain ⟨-, old, x0, k1, k2, k3⟩ := opens_inv (past_inv hsort hchunk hc htwins hpast (rough_time hr) hst0) ho
  obtain ⟨G, F, x, hx, hR, hL, hG, -⟩ := rough_inv hsort hchunk hc htwins k1 k2 k3 hr (Nat.le_refl _) hst
  obtain ⟨x', -, hs, -⟩ := hx.flush hsort hc (stamped_unshared htwins hG hR.stamped) hf List.prefix_rfl
  exact ⟨F, { root := x'.a, store := b'.store }, hR, hL, by unfold loadManifest; rw [hs.root]; rfl, rfl, fun p m => saved_has hs p m⟩

/-! ### Theorems -/

/-- C123: a manifest that is stored or pushed, at the end of an update or before, whatever happens to the source directory meanwhile and whatever happened before, has nothing that was not there: an asset is a directory or file that was
at this place, with its time. If it is in progress, it has no chunks, and the size it had when it was found during this update; otherwise, see `Good`. Partial: no asset list in the store could be one of two directories (`Apart`,
C30), which is so if no two directories ever had an entry with the same name, type, time and size, and if no directory had to be split; chunks are not removed from the store (C87). -/
theorem C123_nothing_invented_partial (P : Env) (hsort : ∀ l, (P.cfg.sort l).Perm l) (hchunk : ∀ c, (P.chunk c).flatten = c) (W : World) (t : Nat) (S : List Stored)
    (id : Option Id) (hpast : Past P W t S id) (b0 b b' : Builder) (q : Todo) (t' : Nat) (fuel : Nat) (new : Id) (htwins : Apart b'.store (Seen W t'))
    (ho : opens P.cfg S id = some b0) (hr : Rough P W t b0 b q t') (hf : flush P.cfg fuel b = some (new, b')) (hc : NoCollision P.cfg.hash b'.store) :
    ∃ r, loadManifest P.cfg b'.store new = some r ∧ r.store = b'.store ∧ ∀ p m, p ≠ [] → Has P.cfg.hash b'.store r.root p m →
      Good P W t' p m ∨
      ((p, m.kind) ∈ q ∧ m.inProgress = true ∧ m.chunks = [] ∧ m.indirect = [] ∧ m.symlink = [] ∧ m.name = p.getLastD [] ∧
        ∃ s x, t ≤ s ∧ s ≤ t' ∧ (W.dir s).at p = some x ∧ m.kind = x.kind ∧ m.mtime = x.mtime ∧ m.fileSize = x.size) := by
  obtain ⟨F, r, hR, -, h1, h2, h3⟩ := rough_stored hsort hchunk hpast htwins ho hr hf hc
  refine ⟨r, h1, h2, fun p m hp hm => ?_⟩
  rw [h3] at hm
  by_cases hq : ∃ e ∈ q, e.1 = p
  · obtain ⟨⟨p, k⟩, he, rfl⟩ := hq
    obtain ⟨s, x, k0, k1, k2, k3, k4⟩ := hR.pend _ he
    rw [hm] at k4
    cases k4
    have k3 : x.kind = k := k3
    subst k3
    exact .inr ⟨he, rfl, rfl, rfl, rfl, rfl, s, x, k0, k1, k2, rfl, rfl, rfl⟩
  · exact .inl (hR.good p m hp hm fun e he hh => hq ⟨e, he, hh⟩)

/-- C124: an update of a source directory that is changed meanwhile, with files and directories that cannot be read, stores for all that is not touched and can be read what it should: a file with its chunks, a directory with its time. What
is not there is not stored. Partial: see `C123_nothing_invented_partial`; and the last two conditions of `Stays`. -/
theorem C124_untouched_right_partial (P : Env) (hsort : ∀ l, (P.cfg.sort l).Perm l) (hchunk : ∀ c, (P.chunk c).flatten = c) (W : World) (t : Nat) (S : List Stored)
    (id : Option Id) (hpast : Past P W t S id) (b0 b b' : Builder) (t' : Nat) (fuel : Nat) (new : Id) (htwins : Apart b'.store (Seen W t'))
    (ho : opens P.cfg S id = some b0) (hr : Rough P W t b0 b [] t') (hf : flush P.cfg fuel b = some (new, b')) (hc : NoCollision P.cfg.hash b'.store) :
    ∃ r, loadManifest P.cfg b'.store new = some r ∧ r.store = b'.store ∧
      (∀ p x, Stays W t t' p x → ∀ m, Has P.cfg.hash b'.store r.root p m ↔ m = wantMeta P (p.getLastD []) x) ∧
      (∀ d n, Absent W t t' d n → ∀ p m, ¬ Has P.cfg.hash b'.store r.root (d ++ n :: p) m) := by
  obtain ⟨F, r, -, hL, h1, h2, h3⟩ := rough_stored hsort hchunk hpast htwins ho hr hf hc
  refine ⟨r, h1, h2, fun p x hs m => ?_, fun d n hs p m hm => ?_⟩
  · rw [h3]
    rcases hL.stays p x hs with ⟨e, he, -⟩ | h4
    · cases he
    · rw [h4]
      exact ⟨fun h => (Option.some.inj h).symm, fun h => by rw [h]⟩
  · rw [h3] at hm
    rcases hL.absent d n hs with ⟨e, he, -⟩ | h4
    · cases he
    · rw [h4 p] at hm; cases hm

/-- C122: whatever happened before - updates while the source directory was changed, with files and directories that could not be read, and updates that
were interrupted - an update during which the source directory does not change and can be read stores a manifest that has exactly the files and directories of the source
directory, with their times, sizes, permissions and chunks. Partial: no asset list in the store could be one of two directories (`Apart`, C30), and `Settled`, see
`C122_empty_file_violated`; chunks are not removed from the store (C87). -/
theorem C122_recovers_partial (P : Env) (hsort : ∀ l, (P.cfg.sort l).Perm l) (hchunk : ∀ c, (P.chunk c).flatten = c) (W : World) (t : Nat) (S : List Stored)
    (id : Option Id) (hpast : Past P W t S id) (src : Node) (hsrc : src.Proper) (hset : Settled W t src) (b0 b b' : Builder) (fuel : Nat) (new : Id)
    (htwins : Apart b'.store (Known W t src))
    (ho : opens P.cfg S id = some b0) (hr : Run P src b0 b []) (hf : flush P.cfg fuel b = some (new, b')) (hc : NoCollision P.cfg.hash b'.store) :
    ∃ r, loadManifest P.cfg b'.store new = some r ∧ r.store = b'.store ∧ ∀ p m, Has P.cfg.hash b'.store r.root p m ↔ want P src p = some m := by
  have hst := flush_store hf
  obtain ⟨old, x0, h0⟩ := past_begins hsort hchunk hc htwins hset hpast ho ((run_store hr).trans hst)
  obtain ⟨G, F, x, hx, hJ, hG, -⟩ := run_inv hsort hchunk hc htwins known_in hsrc h0 hr hst
  have hFw : F = want P src := funext fun p => hJ.done p fun e he => by cases he
  obtain ⟨x', -, hs, -⟩ := hx.flush hsort hc (stamped_unshared htwins hG (hJ.stamped known_in h0.stamped)) hf List.prefix_rfl
  rw [hFw] at hs
  exact ⟨{ root := x'.a, store := b'.store }, by unfold loadManifest; rw [hs.root]; rfl, rfl, fun p m => saved_has hs p m⟩

/-- C122: such an update can be done: the stored manifest can be loaded, the update can be started, no step of it fails, and whatever has been done so far, it can be completed. Partial: see
`C122_recovers_partial`. -/
theorem C122_can_recover_partial (P : Env) (hsort : ∀ l, (P.cfg.sort l).Perm l) (hchunk : ∀ c, (P.chunk c).flatten = c) (W : World) (t : Nat) (S : List Stored)
    (id : Option Id) (hpast : Past P W t S id) (m : Int) (es : List (Name × Node)) (hsrc : (Node.dir m es).Proper) (htwins : Apart S (Known W t (.dir m es)))
    (hset : Settled W t (.dir m es)) (hc : NoCollision P.cfg.hash S) :
    ∃ b0, opens P.cfg S id = some b0 ∧ (∃ b, Run P (.dir m es) b0 b [([], .directory)]) ∧
      ∀ b q, Run P (.dir m es) b0 b q → Apart b.store (Known W t (.dir m es)) → NoCollision P.cfg.hash b.store → ∃ b', Run P (.dir m es) b0 b' [] := by
  have hopen : ∃ b0, opens P.cfg S id = some b0 := by
    cases id with
    | none => exact ⟨_, rfl⟩
    | some id =>
      obtain ⟨F, x, h1, -⟩ := past_inv hsort hchunk hc htwins.seen hpast (Nat.le_refl _) List.prefix_rfl
      refine ⟨{ root := x.a, store := S }, ?_⟩
      show loadManifest P.cfg S id = _
      unfold loadManifest
      rw [h1.root]; rfl
  obtain ⟨b0, ho⟩ := hopen
  have hS1 : b0.store = S := by
    cases id with
    | none => cases ho; rfl
    | some id => exact (load_store ho).1
  refine ⟨b0, ho, ?_, ?_⟩
  · obtain ⟨old, x0, hb⟩ := past_begins hsort hchunk hc htwins hset hpast ho (by rw [hS1]; exact List.prefix_rfl)
    have hroot := (hb.inv.isDir []).mp ⟨_, look_nil _, hb.inv.dir⟩
    obtain ⟨b1, e1, -⟩ := hb.inv.modify (path := []) (setMeta_change ⟨[], .directory, m, 0⟩) hroot
    exact ⟨b1, .start rfl e1⟩
  · intro b q hr htwins hc
    obtain ⟨old, x0, hb⟩ := past_begins hsort hchunk hc htwins hset hpast ho (run_store hr)
    have hall : ∀ (q : Todo) (b' : Builder), Run P (.dir m es) b0 b' q → b'.store = b.store → ∃ b'', Run P (.dir m es) b0 b'' [] := by
      intro q
      induction q with
      | nil => intro b' hr _; exact ⟨b', hr⟩
      | cons e q ih =>
        intro b' hr hst
        obtain ⟨_, _, _, _, hJ, _, _⟩ := run_inv hsort hchunk hc htwins known_in hsrc hb hr (by rw [hst]; exact List.prefix_rfl)
        obtain ⟨y, hy, -⟩ := hJ.queued e (by simp)
        obtain ⟨b2, h1, h2⟩ := process hsort hchunk hc htwins known_in hsrc hb (sizeOf y) hr (by rw [hst]; exact List.prefix_rfl) (by simp) hy (Nat.le_refl _)
        rw [List.erase_cons_head] at h1
        exact ih b2 h1 (h2.trans hst)
    exact hall q b hr rfl

end Verif.Updater
