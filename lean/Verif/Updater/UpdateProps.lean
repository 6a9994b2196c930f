import Verif.Updater.UpdateScan

/-! # C81: the manifest mirrors the source directory -/
namespace Verif.Updater
open Verif.Manifest

/-! ### The source directory -/

theorem at_append (p q : List Name) : ∀ x : Node, x.at (p ++ q) = (x.at p).bind fun y => y.at q := by
  induction p with
  | nil => intro x; cases x <;> rfl
  | cons n p ih =>
    intro x
    cases x with
    | file => rfl
    | dir t es =>
      rw [List.cons_append, Node.at, Node.at]
      cases es.find? fun e => e.1 = n with
      | none => rfl
      | some e => exact ih e.2

theorem at_file {src : Node} {p : List Name} {t c} (h : src.at p = some (.file t c)) {r : List Name} (hr : r ≠ []) : src.at (p ++ r) = none := by
  rw [at_append, h]
  cases r with
  | nil => exact absurd rfl hr
  | cons n r => rfl

theorem at_entry {src : Node} (hp : src.Proper) {p : List Name} {t es} (h : src.at p = some (.dir t es)) {n : Name} {y : Node} (hy : (n, y) ∈ es)
    (r : List Name) : src.at (p ++ n :: r) = y.at r := by
  rw [at_append, h]
  show Node.at (.dir t es) (n :: r) = _
  rw [Node.at]
  have hn := hp p t es h
  cases hf : es.find? fun e => e.1 = n with
  | none =>
    rw [List.find?_eq_none] at hf
    exact absurd (hf _ hy) (by simp)
  | some e =>
    have h1 := List.mem_of_find?_eq_some hf
    have h2 : e.1 = n := by simpa using List.find?_some hf
    have : e = (n, y) := by
      obtain ⟨i, hi, rfl⟩ := List.mem_iff_getElem.mp h1
      obtain ⟨j, hj, he⟩ := List.mem_iff_getElem.mp hy
      have := (List.nodup_iff_injective_get.mp hn) (a₁ := ⟨i, by simpa using hi⟩) (a₂ := ⟨j, by simpa using hj⟩) (by
        simp only [List.get_eq_getElem, List.getElem_map]; rw [h2, he])
      have : i = j := congrArg Fin.val this
      subst this; exact he
    rw [this]; rfl

theorem at_no_entry {src : Node} {p : List Name} {t es} (h : src.at p = some (.dir t es)) {n : Name} (hn : ∀ e ∈ es, e.1 ≠ n) (r : List Name) :
    src.at (p ++ n :: r) = none := by
  rw [at_append, h]
  show Node.at (.dir t es) (n :: r) = _
  rw [Node.at]
  have : (es.find? fun e => e.1 = n) = none := by
    rw [List.find?_eq_none]; intro e he; simpa using hn e he
  rw [this]; rfl

/-! ### The invariant -/

/-- The fields of an asset that is in progress. -/
def pendMeta (n : Name) (x : Node) : Meta := { name := n, kind := x.kind, mtime := x.mtime, perms := 0o755, fileSize := x.size, inProgress := true }

/-- Assets have their name, and fields that do not apply to their kind are empty. -/
def Plain (F : Tree) : Prop := ∀ p m, F p = some m →
  m.name = p.getLastD [] ∧ m.symlink = [] ∧ (m.kind = .directory → m.fileSize = 0 ∧ m.chunks = [] ∧ m.indirect = [])

/-- A file in the old manifest that has the same time and size as the file on disk is right. -/
def Fits (P : Env) (old : Tree) (src : Node) : Prop := ∀ p m t c, old p = some m → src.at p = some (.file t c) → m.kind = .file → m.mtime = t →
  m.fileSize = c.length → m = wantMeta P (p.getLastD []) (.file t c)

structure J (P : Env) (src : Node) (old F : Tree) (q : Todo) : Prop where
  queued : ∀ e ∈ q, ∃ x, src.at e.1 = some x ∧ x.kind = e.2
  apart : ∀ e ∈ q, ∀ e' ∈ q, e.1 <+: e'.1 → e = e'
  nodup : q.Nodup
  pend : ∀ e ∈ q, ∀ x, src.at e.1 = some x → F e.1 = some (pendMeta (e.1.getLastD []) x)
  done : ∀ p, (∀ e ∈ q, ¬ e.1 <+: p) → F p = want P src p
  below : ∀ e ∈ q, ∀ r, r ≠ [] → F (e.1 ++ r) = none ∨ F (e.1 ++ r) = old (e.1 ++ r)

/-- Kinds, times and sizes that assets may have. -/
abbrev Stamps := List Name → Kind → Int → Nat → Prop

/-- Every asset has one of these kinds, times and sizes. -/
def Stamped (V : Stamps) (F : Tree) : Prop := ∀ p m, p ≠ [] → F p = some m → V p m.kind m.mtime m.fileSize

/-- No asset list in the store can have the entries of two directories. -/
def Apart (S : List Stored) (V : Stamps) : Prop :=
  ∀ l, .assets l ∈ S → l ≠ [] → ∀ p q, (∀ e ∈ l, V (p ++ [e.name]) e.info.kind e.info.mtime e.info.fileSize) →
    (∀ e ∈ l, V (q ++ [e.name]) e.info.kind e.info.mtime e.info.fileSize) → p = q

/-- So it is if entries with the same name, kind, time and size are in the same directory, -/
theorem apart_of_stamps {S : List Stored} {V : Stamps} (h : ∀ p q n k t s, V (p ++ [n]) k t s → V (q ++ [n]) k t s → p = q) : Apart S V := by
  intro l _ hne p q hp hq
  cases l with
  | nil => exact absurd rfl hne
  | cons e l => exact h p q _ _ _ _ (hp e (by simp)) (hq e (by simp))

/-- and if there are no asset lists. -/
theorem apart_of_no_lists {S : List Stored} {V : Stamps} (h : ∀ l, .assets l ∉ S) : Apart S V := fun l hl => absurd hl (h l)

theorem Apart.sub {S : List Stored} {V V' : Stamps} (h : Apart S V') (hV : ∀ p k t s, V p k t s → V' p k t s) : Apart S V :=
  fun l hl hne p q hp hq => h l hl hne p q (fun e he => hV _ _ _ _ (hp e he)) (fun e he => hV _ _ _ _ (hq e he))

/-- Those of what is in the source directory are among them. -/
def Node.In (src : Node) (V : Stamps) : Prop := ∀ p x, src.at p = some x → V p x.kind x.mtime x.size

theorem stamped_unshared {hash : Stored → Id} {S : List Stored} {V : Stamps} (hV : Apart S V) {G F : Tree} (hG : Stamped V G) (hF : Stamped V F) :
    Unshared hash S G F := by
  have key : ∀ p e, OwnedBy hash S G F p e → V (p ++ [e.name]) e.info.kind e.info.mtime e.info.fileSize := by
    intro p e ⟨⟨m, hm⟩, A, hA, he⟩
    have hA' : Stamped V A := by rcases hA with rfl | rfl <;> assumption
    have h1 := hA' _ m (by simp) ((he [] m).mp hm)
    cases hm with
    | here h2 =>
      unfold seen at h2
      obtain ⟨cs, -, rfl⟩ := Option.map_eq_some_iff.mp h2
      exact h1
  rintro p q id ⟨l, h1, h2, h3⟩ ⟨l', k1, -, k3⟩
  rw [h1] at k1; cases k1
  exact hV l (findAssets_some h1).1 h2 p q (fun e he => key p e (h3 e he)) (fun e he => key q e (k3 e he))

theorem want_stamped (P : Env) {V : Stamps} {src : Node} (hv : src.In V) : Stamped V (want P src) := by
  intro p m _ hm
  unfold want at hm
  obtain ⟨x, hx, rfl⟩ := Option.map_eq_some_iff.mp hm
  have := hv p x hx
  cases x <;> exact this

theorem want_plain (P : Env) (src : Node) : Plain (want P src) := by
  intro p m hm
  unfold want at hm
  obtain ⟨x, hx, rfl⟩ := Option.map_eq_some_iff.mp hm
  cases x with
  | file => exact ⟨rfl, rfl, fun h => nomatch h⟩
  | dir => exact ⟨rfl, rfl, fun _ => ⟨rfl, rfl, rfl⟩⟩

theorem want_fits (P : Env) {src0 src : Node} (h : Detects src0 src) : Fits P (want P src0) src := by
  intro p m t c hm hs hk ht hl
  unfold want at hm
  obtain ⟨x, hx, rfl⟩ := Option.map_eq_some_iff.mp hm
  cases x with
  | dir => cases hk
  | file t0 c0 =>
    have ht : t0 = t := ht
    subst ht
    have := h p t0 c0 c hx hs hl
    rw [this]

section
variable {P : Env} {src : Node} {old F : Tree} {q : Todo}

theorem J.stamped {V : Stamps} (hv : src.In V) (ho : Stamped V old) (h : J P src old F q) : Stamped V F := by
  intro p m hp hm
  by_cases hq : ∃ e ∈ q, e.1 <+: p
  · obtain ⟨e, he, r, hr⟩ := hq
    subst hr
    by_cases hr : r = []
    · subst hr
      rw [List.append_nil] at hm ⊢
      obtain ⟨x, hx, -⟩ := h.queued e he
      rw [h.pend e he x hx] at hm
      cases hm
      exact hv _ x hx
    · rcases h.below e he r hr with h1 | h1
      · rw [h1] at hm; cases hm
      · rw [h1] at hm; exact ho _ m hp hm
  · rw [h.done p fun e he hh => hq ⟨e, he, hh⟩] at hm
    exact want_stamped P hv p m hp hm

theorem J.kind (h : J P src old F q) {p : List Name} {k : Kind} (he : (p, k) ∈ q) : F.isKind p k := by
  obtain ⟨x, hx, hk⟩ := h.queued _ he
  exact ⟨_, h.pend _ he x hx, hk⟩

theorem kind_cases (y : Node) : y.kind = .file ∨ y.kind = .directory := by
  cases y
  · exact .inl rfl
  · exact .inr rfl

/-- The setters give the fields of an asset in progress. -/
theorem setMeta_pend (n : Name) (y : Node) (m : Meta) (hk : m.kind = y.kind) (hn : m.name = n) (hs : m.symlink = [])
    (hd : m.kind = .directory → m.fileSize = 0 ∧ m.chunks = [] ∧ m.indirect = []) : setMeta (y.info n) m = pendMeta n y := by
  unfold setMeta setters pendMeta
  obtain ⟨a1, a2, a3, a4, a5, a6, a7, a8, a9⟩ := m
  simp only at hk hn hs hd
  subst hn hs
  cases y with
  | file t c =>
    have hk : a2 = .file := hk
    subst hk; rfl
  | dir t es =>
    have hk : a2 = .directory := hk
    subst hk
    obtain ⟨h1, h2, h3⟩ := hd rfl
    subst h1 h2 h3; rfl

theorem J.scan {cfg : Cfg} (hp : src.Proper) (hpl : Plain old) (hfit : Fits P old src) (hcl : Closed F) (h : J P src old F q) {p : List Name} (he : (p, .directory) ∈ q) {t es} (hs : src.at p = some (.dir t es))
    {listing : List Info} (hl : listing.Perm (es.map fun e => e.2.info e.1)) {F' : Tree} {new : Todo} (hsc : Scanned cfg listing p F F' new) :
    J P src old F' (q.erase (p, .directory) ++ new) := by
  have hmem : ∀ e, e ∈ q.erase (p, .directory) ↔ e ≠ (p, .directory) ∧ e ∈ q := fun e => h.nodup.mem_erase_iff
  have hli : ∀ i, i ∈ listing ↔ ∃ n y, (n, y) ∈ es ∧ i = y.info n := by
    intro i
    rw [hl.mem_iff, List.mem_map]
    constructor
    · rintro ⟨e, h1, h2⟩; exact ⟨e.1, e.2, h1, h2.symm⟩
    · rintro ⟨n, y, h1, h2⟩; exact ⟨(n, y), h1, h2.symm⟩
  have hln : ∀ n, (∀ i ∈ listing, i.name ≠ n) ↔ ∀ e ∈ es, e.1 ≠ n := by
    intro n
    constructor
    · intro hh e he' hen
      exact hh (e.2.info e.1) ((hli _).mpr ⟨e.1, e.2, he', rfl⟩) hen
    · intro hh i hi hin
      obtain ⟨n', y, h1, rfl⟩ := (hli i).mp hi
      exact hh _ h1 hin
  -- queued assets are not below `p`, and `p` is not below them
  have hout : ∀ e ∈ q, e ≠ (p, .directory) → ¬ p <+: e.1 ∧ ¬ e.1 <+: p := fun e h1 hne =>
    ⟨fun hh => hne (h.apart _ he _ h1 hh).symm, fun hh => hne (h.apart _ h1 _ he hh)⟩
  have hbelow : ∀ r, r ≠ [] → F (p ++ r) = none ∨ F (p ++ r) = old (p ++ r) := h.below _ he
  have hnew := fun e => hsc.queue e
  have hnewE : ∀ e ∈ new, ∃ n y, (n, y) ∈ es ∧ e = (p ++ [n], y.kind) ∧ ¬ Kept F p (y.info n) := by
    intro e h1
    obtain ⟨i, hi, hk, hk2, rfl⟩ := (hnew e).mp h1
    obtain ⟨n, y, h2, rfl⟩ := (hli i).mp hi
    exact ⟨n, y, h2, rfl, hk⟩
  -- fields of new entries
  have hbase : ∀ n y, (n, y) ∈ es → setMeta (y.info n) (base cfg F p (y.info n)) = pendMeta n y := by
    intro n y hy
    unfold base
    by_cases hk : F.isKind (p ++ [n]) y.kind
    · have hk2 : F.isKind (p ++ [(y.info n).name]) (y.info n).kind := hk
      rw [if_pos hk2]
      obtain ⟨m, hm, hmk⟩ := hk
      rcases hbelow [n] (by simp) with h1 | h1
      · rw [h1] at hm; cases hm
      · have hm2 : old (p ++ [n]) = some m := h1.symm.trans hm
        obtain ⟨k1, k2, k3⟩ := hpl _ m hm2
        have hm3 : F (p ++ [(y.info n).name]) = some m := hm
        rw [hm3, Option.getD_some]
        exact setMeta_pend n y m hmk (by rw [k1]; simp) k2 k3
    · have hk2 : ¬ F.isKind (p ++ [(y.info n).name]) (y.info n).kind := hk
      rw [if_neg hk2]
      exact setMeta_pend n y _ rfl rfl rfl (fun _ => ⟨rfl, rfl, rfl⟩)
  refine ⟨?_, ?_, ?_, ?_, ?_, ?_⟩
  · intro e h1
    rcases List.mem_append.mp h1 with h1 | h1
    · exact h.queued e ((hmem e).mp h1).2
    · obtain ⟨n, y, h2, rfl, -⟩ := hnewE e h1
      exact ⟨y, by rw [at_entry hp hs h2 []]; cases y <;> rfl, rfl⟩
  · intro e h1 e' h2 hpre
    rcases List.mem_append.mp h1 with h1 | h1 <;> rcases List.mem_append.mp h2 with h2 | h2
    · exact h.apart e ((hmem e).mp h1).2 e' ((hmem e').mp h2).2 hpre
    · obtain ⟨hne, h1⟩ := (hmem e).mp h1
      obtain ⟨n, y, h3, rfl, -⟩ := hnewE e' h2
      rcases List.prefix_concat_iff.mp hpre with h4 | h4
      · exact absurd (by rw [h4]; exact List.prefix_append ..) (hout e h1 hne).1
      · exact absurd h4 (hout e h1 hne).2
    · obtain ⟨hne, h2⟩ := (hmem e').mp h2
      obtain ⟨n, y, h3, rfl, -⟩ := hnewE e h1
      exact absurd ((List.prefix_append ..).trans hpre) (hout e' h2 hne).1
    · obtain ⟨n, y, h3, rfl, -⟩ := hnewE e h1
      obtain ⟨n', y', h3', rfl, -⟩ := hnewE e' h2
      have := prefix_names (p := p) (n := n) (k := n') (r := []) hpre
      subst this
      have hy : y = y' := by
        have h5 := at_entry hp hs h3 []
        rw [at_entry hp hs h3' []] at h5
        cases y <;> cases y' <;> exact (Option.some.inj h5).symm
      rw [hy]
  · rw [List.nodup_append]
    refine ⟨h.nodup.erase _, hsc.nodup, fun e h1 e' h2 hee => ?_⟩
    subst hee
    obtain ⟨hne, h1⟩ := (hmem e).mp h1
    obtain ⟨n, y, h3, rfl, -⟩ := hnewE e h2
    exact (hout _ h1 hne).1 (List.prefix_append ..)
  · intro e h1 x hx
    rcases List.mem_append.mp h1 with h1 | h1
    · obtain ⟨hne, h1⟩ := (hmem e).mp h1
      rw [hsc.other _ (hout e h1 hne).1]
      exact h.pend e h1 x hx
    · obtain ⟨n, y, h3, rfl, h4⟩ := hnewE e h1
      have h5 := at_entry hp hs h3 []
      have hx : src.at (p ++ [n]) = some x := hx
      rw [hx] at h5
      have hxy : x = y := by cases y <;> exact Option.some.inj h5
      subst hxy
      have h6 := (hsc.new _ ((hli _).mpr ⟨n, x, h3, rfl⟩) h4 (kind_cases x)).1
      rw [hbase n x h3] at h6
      rw [show (p ++ [n]).getLastD [] = n by simp]
      exact h6
  · intro r hr
    by_cases hpr : p <+: r
    · obtain ⟨r, rfl⟩ := hpr
      cases r with
      | nil =>
        rw [List.append_nil, hsc.self, h.pend _ he _ hs]
        unfold want
        rw [hs]; rfl
      | cons n r =>
        by_cases hex : ∀ e ∈ es, e.1 ≠ n
        · rw [hsc.gone n ((hln n).mpr hex)]
          unfold want
          rw [at_no_entry hs hex]; rfl
        · simp only [Classical.not_forall, not_not] at hex
          obtain ⟨⟨n', y⟩, h1, hnn⟩ := hex
          have hnn : n' = n := hnn
          subst hnn
          have hi := (hli _).mpr ⟨n', y, h1, rfl⟩
          by_cases hk : Kept F p (y.info n')
          · have h2 := hsc.kept _ hi hk r
            have h2 : F' (p ++ n' :: r) = F (p ++ n' :: r) := h2
            rw [h2]
            obtain ⟨m, hm0, hsame⟩ := hk
            have hm : F (p ++ [n']) = some m := hm0
            clear hm0
            -- a file with the same time and size
            cases y with
            | dir => simp [same, Node.info, Node.kind] at hsame
            | file t' c =>
              have hs2 : src.at (p ++ [n']) = some (.file t' c) := at_entry hp hs h1 []
              have hsm : m.mtime = t' ∧ m.kind = .file ∧ m.fileSize = c.length := by
                simp only [same, Node.info, Node.kind, Node.mtime, Node.size, infoMeta, Bool.and_eq_true, beq_iff_eq] at hsame
                obtain ⟨⟨⟨k1, k2⟩, k3⟩, -⟩ := hsame
                rw [← k2] at k3
                exact ⟨k1.symm, k2.symm, by simpa using Eq.symm (by simpa using k3)⟩
              cases r with
              | nil =>
                rcases hbelow [n'] (by simp) with h3 | h3
                · rw [h3] at hm; cases hm
                · have hm2 : old (p ++ [n']) = some m := h3.symm.trans hm
                  have := hfit _ m t' c hm2 hs2 hsm.2.1 hsm.1 hsm.2.2
                  unfold want
                  rw [hm, hs2, this]; rfl
              | cons k r =>
                have h3 : src.at ((p ++ [n']) ++ k :: r) = none := at_file hs2 (by simp)
                have h4 : ¬ F.isDir (p ++ [n']) := by
                  rintro ⟨m', k1, k2⟩
                  rw [hm] at k1; cases k1
                  rw [hsm.2.1] at k2; cases k2
                have h5 := hcl.below (q := k :: r) (by simp) h4
                rw [List.append_assoc] at h3 h5
                unfold want
                have h3 : src.at (p ++ n' :: k :: r) = none := h3
                rw [h3]; exact h5
          · refine absurd ?_ (hr (p ++ [n'], y.kind) (List.mem_append.mpr (.inr ((hnew _).mpr ⟨_, hi, hk, kind_cases y, rfl⟩))))
            show p ++ [n'] <+: p ++ n' :: r
            rw [List.prefix_append_right_inj]; exact ⟨r, rfl⟩
    · rw [hsc.other r hpr]
      refine h.done r fun e h1 hh => ?_
      by_cases hne : e = (p, .directory)
      · subst hne; exact hpr hh
      · exact hr e (List.mem_append.mpr (.inl ((hmem e).mpr ⟨hne, h1⟩))) hh
  · intro e h1 r hr
    rcases List.mem_append.mp h1 with h1 | h1
    · obtain ⟨hne, h1⟩ := (hmem e).mp h1
      rw [hsc.other]
      · exact h.below e h1 r hr
      · intro hh
        rcases List.prefix_or_prefix_of_prefix hh (List.prefix_append e.1 r) with h2 | h2
        · exact (hout e h1 hne).1 h2
        · exact (hout e h1 hne).2 h2
    · obtain ⟨n, y, h3, rfl, h4⟩ := hnewE e h1
      have h6 := (hsc.new _ ((hli _).mpr ⟨n, y, h3, rfl⟩) h4 (kind_cases y)).2 r hr
      have h6 : F' (p ++ n :: r) = if F.isKind (p ++ [n]) y.kind then F (p ++ n :: r) else none := h6
      have e1 : (p ++ [n]) ++ r = p ++ n :: r := by simp
      show F' ((p ++ [n]) ++ r) = none ∨ _ = old ((p ++ [n]) ++ r)
      rw [e1, h6]
      split
      · exact hbelow (n :: r) (by simp)
      · exact .inl rfl

theorem J.file (h : J P src old F q) {t : List Name} (he : (t, .file) ∈ q) {F' : Tree} (hF : ∀ r, r ≠ t → F' r = F r) (ht : F' t = want P src t)
    (hcl : Closed F) : J P src old F' (q.erase (t, .file)) := by
  have hmem : ∀ e, e ∈ q.erase (t, .file) ↔ e ≠ (t, .file) ∧ e ∈ q := fun e => h.nodup.mem_erase_iff
  have hout : ∀ e ∈ q, e ≠ (t, .file) → ¬ e.1 <+: t := fun e h1 hne hh => hne (h.apart _ h1 _ he hh)
  refine ⟨fun e h1 => h.queued e ((hmem e).mp h1).2, fun e h1 e' h2 => h.apart e ((hmem e).mp h1).2 e' ((hmem e').mp h2).2, h.nodup.erase _, ?_, ?_, ?_⟩
  · intro e h1 x hx
    obtain ⟨hne, h1⟩ := (hmem e).mp h1
    rw [hF]
    · exact h.pend e h1 x hx
    · intro hh; exact hout e h1 hne (by rw [hh]; exact List.prefix_rfl)
  · intro r hr
    by_cases hrt : r = t
    · rw [hrt]; exact ht
    rw [hF r hrt]
    by_cases htr : t <+: r
    · obtain ⟨r, rfl⟩ := htr
      have hr0 : r ≠ [] := by rintro rfl; simp at hrt
      obtain ⟨x, hx, hk⟩ := h.queued _ he
      cases x with
      | dir => cases hk
      | file t' c =>
        unfold want
        rw [at_file hx hr0]
        refine hcl.below hr0 ?_
        rintro ⟨m, k1, k2⟩
        rw [h.pend _ he _ hx] at k1
        cases k1; cases k2
    · refine h.done r fun e h1 hh => ?_
      by_cases hne : e = (t, .file)
      · subst hne; exact htr hh
      · exact hr e ((hmem e).mpr ⟨hne, h1⟩) hh
  · intro e h1 r hr
    obtain ⟨hne, h1⟩ := (hmem e).mp h1
    rw [hF]
    · exact h.below e h1 r hr
    · intro hh; exact hout e h1 hne ⟨r, hh⟩

end

/-! ### Stores -/

section
variable {cfg : Cfg}

theorem findDir_store {p : List Name} {b b' : Builder} (h : findDir cfg p b = .ok b') : b'.store = b.store := by
  unfold findDir at h
  split at h
  · cases h; rfl
  · exact editAsset_store h

theorem deleteAll_store {p : List Name} (ops : List Oper) : ∀ {b b' : Builder}, deleteAll cfg p ops b = .ok b' → b'.store = b.store := by
  induction ops with
  | nil => intro b b' h; cases h; rfl
  | cons o ops ih =>
    intro b b' h
    cases o with
    | delete i =>
      rw [deleteAll] at h
      split at h
      · cases h
      · rename_i b1 h1
        exact (ih h).trans (deleteAsset_store h1)
    | add i => exact ih h
    | update i => exact ih h
    | keep i => exact ih h

theorem addAll_store {p : List Name} (ops : List Oper) : ∀ {b b' : Builder} {q q' : Todo}, addAll cfg p ops b q = .ok (b', q') → b'.store = b.store := by
  induction ops with
  | nil => intro b b' q q' h; cases h; rfl
  | cons o ops ih =>
    intro b b' q q' h
    cases o with
    | delete i => exact ih h
    | add i =>
      rw [addAll] at h
      split at h
      · cases h
      · rename_i b1 h1
        exact (ih h).trans (atDir_store h1)
    | update i =>
      rw [addAll] at h
      split at h
      · cases h
      · rename_i b1 h1
        exact (ih h).trans (editAsset_store h1)
    | keep i => exact ih h

theorem scanDir_store {listing : List Info} {p : List Name} {b b' : Builder} {q : Todo} (h : scanDir cfg listing p b = .ok (b', q)) :
    b'.store = b.store := by
  unfold scanDir at h
  split at h
  · cases h
  rename_i b1 h1
  split at h
  · cases h
  dsimp only at h
  split at h
  · cases h
  rename_i b2 h2
  split at h
  · cases h
  rename_i b3 h3
  split at h
  · cases h
  rename_i b4 q4 h4
  split at h
  · cases h
  rename_i b5 h5
  cases h
  rw [atDir_store h5, addAll_store _ h4, deleteAll_store _ h3, atDir_store h2, findDir_store h1]

end

theorem run_store {P : Env} {src : Node} {b0 b : Builder} {q : Todo} (h : Run P src b0 b q) : b0.store <+: b.store := by
  induction h with
  | start _ h1 => rw [atDir_store h1]; exact List.prefix_rfl
  | scan p _ _ _ _ h1 ih => rw [scanDir_store h1]; exact ih
  | file p n _ _ _ h1 ih => rw [editAsset_store h1]; exact ih
  | push fuel id _ h1 ih => exact ih.trans (flush_store h1)

/-! ### An update -/

/-- What an update starts with. -/
structure Begins (P : Env) (S : List Stored) (V : Stamps) (src : Node) (b0 : Builder) (old : Tree) (x0 : Part) : Prop where
  inv : Inv P.cfg.hash S b0 old old x0
  same : Untouched P.cfg.hash x0 b0 []
  plain : Plain old
  fits : Fits P old src
  stamped : Stamped V old

theorem chunked_pend {P : Env} (hchunk : ∀ c, (P.chunk c).flatten = c) (n : Name) (t : Int) (c : List UInt8) :
    chunked P c (pendMeta n (.file t c)) = wantMeta P n (.file t c) := by
  have : processed (P.chunk c) = c.length := by
    unfold processed
    rw [← List.length_flatten, hchunk]
  unfold chunked pendMeta wantMeta
  rw [this]; rfl

theorem run_inv {P : Env} (hsort : ∀ l, (P.cfg.sort l).Perm l) (hchunk : ∀ c, (P.chunk c).flatten = c) {S : List Stored} (hc : NoCollision P.cfg.hash S)
    {V : Stamps} (hV : Apart S V) {src : Node} (hv : src.In V) (hp : src.Proper) {b0 : Builder} {old : Tree} {x0 : Part}
    (h0 : Begins P S V src b0 old x0) {b : Builder} {q : Todo} (h : Run P src b0 b q) : b.store <+: S →
    ∃ G F x, Inv P.cfg.hash S b G F x ∧ J P src old F q ∧ Stamped V G ∧ ∀ e ∈ q, Untouched P.cfg.hash x b e.1 := by
  induction h with
  | @start b t es hs h1 =>
    intro _
    have hroot : old.isDir [] := (h0.inv.isDir []).mp ⟨_, look_nil _, h0.inv.dir⟩
    obtain ⟨b1, e1, x1, hx1, hsub, -⟩ := h0.inv.modify (path := []) (setMeta_change ⟨[], .directory, t, 0⟩) hroot
    unfold begin_ at h1
    rw [h1] at e1
    cases e1
    have hb : b.lists = b0.lists ∧ b.store = b0.store := by
      unfold atDir inDirPath at h1
      cases h1; exact ⟨rfl, rfl⟩
    refine ⟨old, _, x1, hx1, ⟨?_, ?_, by simp, ?_, ?_, ?_⟩, h0.stamped, ?_⟩
    · intro e he
      rw [List.mem_singleton] at he
      subst he
      exact ⟨src, by cases src <;> rfl, by rw [hs]; rfl⟩
    · intro e he e' he' _
      rw [List.mem_singleton] at he he'
      rw [he, he']
    · intro e he x hx
      rw [List.mem_singleton] at he
      subst he
      obtain ⟨m, hm, hk⟩ := hroot
      have hsx : src = x := by
        have hx : src.at [] = some x := hx
        cases src <;> exact Option.some.inj hx
      subst hsx
      unfold Tree.modify
      rw [if_pos rfl, hm, Option.map_some]
      obtain ⟨k1, k2, k3⟩ := h0.plain _ m hm
      have := setMeta_pend [] src m (by rw [hk, hs]; rfl) k1 k2 k3
      rw [hs] at this ⊢
      exact congrArg some this
    · intro p hp'
      exact absurd List.nil_prefix (hp' _ (List.mem_singleton.mpr rfl))
    · intro e he r hr
      rw [List.mem_singleton] at he
      subst he
      right
      unfold Tree.modify
      rw [if_neg (by simpa using hr)]
    · intro e he u hu _
      rw [hb.1, hb.2]
      exact h0.same u (hsub u hu) List.nil_prefix
  | @scan b b' q new t es listing p hr hq hs hl h1 ih =>
    intro hst
    rw [scanDir_store h1] at hst
    obtain ⟨G, F, x, hx, hJ, hG, hU⟩ := ih hst
    have hnd : (listing.map Info.name).Nodup := by
      rw [(hl.map Info.name).nodup_iff, List.map_map]
      exact hp p t es hs
    obtain ⟨b2, q2, F', x', e1, hx', g, hsc⟩ := scanDir_ok hx (hJ.kind hq) (hU _ hq) hnd
    rw [h1] at e1
    cases e1
    refine ⟨G, F', x', hx', hJ.scan hp h0.plain h0.fits (inv_closed hx) hq hs hl hsc, hG, ?_⟩
    intro e he
    rcases List.mem_append.mp he with he | he
    · obtain ⟨hne, he⟩ := (hJ.nodup.mem_erase_iff).mp he
      exact g.untouched (fun hh => hne (hJ.apart _ he _ hq hh)) (hU e he)
    · obtain ⟨i, hi, -, -, rfl⟩ := (hsc.queue e).mp he
      refine g.untouched (not_prefix_self p _) ?_
      intro u hu hpu
      exact hU _ hq u hu ((List.prefix_append ..).trans hpu)
  | @file b b' q t c p n hr hq hs h1 ih =>
    intro hst
    have hst1 := editAsset_store h1
    rw [hst1] at hst
    obtain ⟨G, F, x, hx, hJ, hG, hU⟩ := ih hst
    obtain ⟨x', hx', g⟩ := becomes_to (hx.edit (chunked_change P c) h1) hst1
    have hk := hJ.kind hq
    have hcl := inv_closed hx
    have hm : F (p ++ [n]) = some (pendMeta n (.file t c)) := by
      have := hJ.pend _ hq _ hs
      rw [show (p ++ [n]).getLastD [] = n by simp] at this
      exact this
    have hd : F.isDir p := hcl p [n] (by simp) (by rw [hm]; simp)
    have hput := fun r => put_in (new := newMeta P.cfg) hcl hd n .file (chunked P c) r
    simp only [if_pos hk] at hput
    refine ⟨G, _, x', hx', hJ.file hq ?_ ?_ hcl, hG, ?_⟩
    · intro r hr'
      rw [hput, if_neg hr']
      split <;> rfl
    · rw [hput, if_pos rfl, hm, Option.getD_some, chunked_pend hchunk]
      unfold want
      rw [hs, show (p ++ [n]).getLastD [] = n by simp]; rfl
    · intro e he
      obtain ⟨hne, he⟩ := (hJ.nodup.mem_erase_iff).mp he
      exact g.untouched (fun hh => hne (hJ.apart _ he _ hq (hh.trans (List.prefix_append ..)))) (hU e he)
  | @push b b' q fuel id hr h1 ih =>
    intro hst
    obtain ⟨G, F, x, hx, hJ, hG, hU⟩ := ih ((flush_store h1).trans hst)
    have hF := hJ.stamped hv h0.stamped
    obtain ⟨x', hx', -, hs⟩ := hx.flush hsort hc (stamped_unshared hV hG hF) h1 hst
    exact ⟨F, F, x', hx', hJ, hF, fun e he u hu _ => hs u hu⟩

/-- The manifest with which an update starts: an empty one, or that of the last update, manifest_updater.cc:783-801. -/
inductive Starts (P : Env) : List Node → Builder → Prop where
  | new (S0 : List Stored) : Starts P [] { root := newAsset P.cfg [] .directory, store := S0 }
  | load {srcs S id b0} : Updates P srcs S id → loadManifest P.cfg S id = some b0 → Starts P srcs b0

/-- What was in the manifest before. -/
def before (P : Env) : List Node → Tree
  | [] => Tree.root (newMeta P.cfg [] .directory)
  | s :: _ => want P s

theorem begins_new {P : Env} {S : List Stored} {V : Stamps} {src : Node} (S0 : List Stored) :
    ∃ x0, Begins P S V src { root := newAsset P.cfg [] .directory, store := S0 } (Tree.root (newMeta P.cfg [] .directory)) x0 := by
  refine ⟨newPart P.cfg [] .directory, inv_new _ _ _, (fun e he => nomatch he), ?_, ?_, ?_⟩
  · intro p m hm
    unfold Tree.root at hm
    split at hm
    · rename_i hp; subst hp; cases hm; exact ⟨rfl, rfl, fun _ => ⟨rfl, rfl, rfl⟩⟩
    · cases hm
  · intro p m t c hm _ hk _ _
    unfold Tree.root at hm
    split at hm
    · cases hm; cases hk
    · cases hm
  · intro p m hp hm
    unfold Tree.root at hm
    rw [if_neg hp] at hm; cases hm

/-- Kinds, times and sizes of what is in these directories. -/
def stampsOf (vs : List Node) : Stamps := fun p k t s => ∃ v ∈ vs, ∃ x, v.at p = some x ∧ x.kind = k ∧ x.mtime = t ∧ x.size = s

theorem in_stampsOf {vs : List Node} {v : Node} (h : v ∈ vs) : v.In (stampsOf vs) := fun _ x hx => ⟨v, h, x, hx, rfl, rfl, rfl⟩

theorem apart_of {S : List Stored} {vs : List Node} (h : NoSharedList S vs) : Apart S (stampsOf vs) := h

theorem versions_head {S : List Stored} {s : Node} {r : List Node} (h : Versions S (s :: r)) : s.Proper := by
  cases r with
  | nil => exact h.1
  | cons s0 r => exact h.1

theorem begins_load {P : Env} {S S1 : List Stored} {src s0 : Node} {id : Id} {x : Part} {b0 : Builder} (h : Saved P.cfg.hash S S1 id (want P s0) x)
    (hl : loadManifest P.cfg S1 id = some b0) (hd : Detects s0 src) : Begins P S (stampsOf [src, s0]) src b0 (want P s0) x := by
  refine ⟨h.load hl, ?_, want_plain P s0, want_fits P hd, want_stamped P (in_stampsOf (by simp))⟩
  intro e he _
  obtain ⟨l1, l2, -⟩ := load_store hl
  rw [l2]; rfl

theorem updates_saved {P : Env} (hsort : ∀ l, (P.cfg.sort l).Perm l) (hchunk : ∀ c, (P.chunk c).flatten = c) {S : List Stored} (hc : NoCollision P.cfg.hash S)
    {srcs : List Node} {S1 : List Stored} {id : Id} (h : Updates P srcs S1 id) : Versions S srcs → S1 <+: S →
    ∃ s r x, srcs = s :: r ∧ Saved P.cfg.hash S S1 id (want P s) x := by
  induction h with
  | @first src b b' id S0 fuel hr hf =>
    intro hver hst
    obtain ⟨x0, h0⟩ := begins_new (P := P) (S := S) (V := stampsOf [src]) (src := src) S0
    have hV := apart_of hver.2
    have hv : src.In (stampsOf [src]) := in_stampsOf (by simp)
    obtain ⟨G, F, x, hx, hJ, hG, -⟩ := run_inv hsort hchunk hc hV hv hver.1 h0 hr ((flush_store hf).trans hst)
    have hFw : F = want P src := funext fun p => hJ.done p fun e he => by cases he
    obtain ⟨x', -, hs, -⟩ := hx.flush hsort hc (stamped_unshared hV hG (hJ.stamped hv h0.stamped)) hf hst
    exact ⟨src, [], x', rfl, hFw ▸ hs⟩
  | @next src src0 srcs S1 id0 b0 b b' id fuel hu hl hr hf ih =>
    intro hver hst
    obtain ⟨v1, v2, v4, v5⟩ := hver
    have hst1 := (flush_store hf).trans hst
    have hst0 : S1 <+: S := by
      have := (run_store hr).trans hst1
      rwa [(load_store hl).1] at this
    obtain ⟨s, r, x, he, hsv⟩ := ih v5 hst0
    cases he
    have h0 := begins_load hsv hl v4
    have hV := apart_of v2
    have hv : src.In (stampsOf [src, src0]) := in_stampsOf (by simp)
    obtain ⟨G, F, x2, hx, hJ, hG, -⟩ := run_inv hsort hchunk hc hV hv v1 h0 hr hst1
    have hFw : F = want P src := funext fun p => hJ.done p fun e he => by cases he
    obtain ⟨x', -, hs, -⟩ := hx.flush hsort hc (stamped_unshared hV hG (hJ.stamped hv h0.stamped)) hf hst
    exact ⟨src, src0 :: srcs, x', rfl, hFw ▸ hs⟩

theorem starts_begins {P : Env} (hsort : ∀ l, (P.cfg.sort l).Perm l) (hchunk : ∀ c, (P.chunk c).flatten = c) {S : List Stored}
    (hc : NoCollision P.cfg.hash S) {src : Node} {srcs : List Node} {b0 : Builder} (hver : Versions S (src :: srcs)) (h0 : Starts P srcs b0)
    (hst : b0.store <+: S) : ∃ V x0, Apart S V ∧ src.In V ∧ Begins P S V src b0 (before P srcs) x0 := by
  cases h0 with
  | new S0 =>
    obtain ⟨x0, h0⟩ := begins_new (P := P) (S := S) (V := stampsOf [src]) (src := src) S0
    exact ⟨stampsOf [src], x0, apart_of hver.2, in_stampsOf (by simp), h0⟩
  | @load srcs S1 id0 b0 hu hl =>
    cases srcs with
    | nil => cases hu
    | cons s0 srcs =>
      obtain ⟨v1, v2, v4, v5⟩ := hver
      rw [(load_store hl).1] at hst
      obtain ⟨s, r, x, he, hsv⟩ := updates_saved hsort hchunk hc hu v5 hst
      cases he
      exact ⟨_, x, apart_of v2, in_stampsOf (by simp), begins_load hsv hl v4⟩

/-! ### An update can always be completed -/

theorem inv_putFound {cfg : Cfg} {S : List Stored} {b : Builder} {G F : Tree} {x : Part} (hx : Inv cfg.hash S b G F x) {kind : Kind} {force : Bool}
    {p : List Name} {n : Name} {g : Meta → Meta} (hg : Change g) (hk : F.isKind (p ++ [n]) kind) :
    ∃ b', editAsset cfg kind force p n (onInfo g) b = .ok b' := by
  unfold editAsset
  rcases inDirPath_put' (fun n k => rd_new cfg n k) hg.field (kind := kind) (force := force) (name := n) p hx.exp hx.func hx.tidy hx.dir with
    ⟨x', w', r, k1, -⟩ | ⟨e, -, -, k1⟩
  · rw [hx.root] at k1
    rw [k1]; exact ⟨_, rfl⟩
  · rw [← hx.reads, reads_isKind hx.fields] at hk
    exact absurd hk k1

theorem sizeOf_entry {es : List (Name × Node)} {n : Name} {y : Node} (h : (n, y) ∈ es) (t : Int) : sizeOf y < sizeOf (Node.dir t es) := by
  have h1 := List.sizeOf_lt_of_mem h
  have h2 : sizeOf ((n, y) : Name × Node) = 1 + sizeOf n + sizeOf y := by simp
  simp only [Node.dir.sizeOf_spec]
  omega

/-- Every queued asset, with everything below, can be processed. -/
theorem process {P : Env} (hsort : ∀ l, (P.cfg.sort l).Perm l) (hchunk : ∀ c, (P.chunk c).flatten = c) {S : List Stored} (hc : NoCollision P.cfg.hash S)
    {V : Stamps} (hV : Apart S V) {src : Node} (hv : src.In V) (hp : src.Proper) {b0 : Builder} {old : Tree} {x0 : Part}
    (h0 : Begins P S V src b0 old x0) (k : Nat) : ∀ {b : Builder} {q : Todo} {e : List Name × Kind} {y : Node}, Run P src b0 b q → b.store <+: S →
      e ∈ q → src.at e.1 = some y → sizeOf y ≤ k → ∃ b', Run P src b0 b' (q.erase e) ∧ b'.store = b.store := by
  induction k with
  | zero => intro b q e y _ _ _ _ hk; cases y <;> simp at hk
  | succ k ih =>
    intro b q e y hr hst he hy hk
    obtain ⟨G, F, x, hx, hJ, hG, hU⟩ := run_inv hsort hchunk hc hV hv hp h0 hr hst
    obtain ⟨y', hy', hkind⟩ := hJ.queued e he
    rw [hy] at hy'
    cases hy'
    obtain ⟨p, kind⟩ := e
    cases y with
    | file t c =>
      have hkind : Kind.file = kind := hkind
      subst hkind
      rcases List.eq_nil_or_concat p with rfl | ⟨p0, n, rfl⟩
      · -- the root is a directory
        exfalso
        have hroot : F.isDir [] := (hx.isDir []).mp ⟨_, look_nil _, hx.dir⟩
        obtain ⟨m, h1, h2⟩ := hroot
        rw [hJ.pend _ he _ hy] at h1
        cases h1; cases h2
      · rw [List.concat_eq_append] at *
        obtain ⟨b', hb⟩ := inv_putFound (force := false) hx (chunked_change P c) (hJ.kind he)
        exact ⟨b', hr.file p0 n he hy hb, editAsset_store hb⟩
    | dir t es =>
      have hkind : Kind.directory = kind := hkind
      subst hkind
      have hnd : ((es.map fun e => e.2.info e.1).map Info.name).Nodup := by
        rw [List.map_map]; exact hp p t es hy
      obtain ⟨b1, new, F', x', e1, -, -, hsc⟩ := scanDir_ok hx (hJ.kind he) (hU _ he) hnd
      have hr1 := hr.scan p he hy (.refl _) e1
      have hst1 := scanDir_store e1
      have hsub : ∀ e ∈ new, ∃ y, src.at e.1 = some y ∧ sizeOf y ≤ k := by
        intro e h1
        obtain ⟨i, hi, -, -, rfl⟩ := (hsc.queue e).mp h1
        obtain ⟨⟨n, y⟩, h2, rfl⟩ := List.mem_map.mp hi
        refine ⟨y, ?_, ?_⟩
        · show src.at (p ++ [n]) = _
          rw [at_entry hp hy h2 []]; cases y <;> rfl
        · have h4 := sizeOf_entry h2 t
          omega
      -- the entries, one by one
      have hall : ∀ (L A : Todo) (b : Builder), Run P src b0 b (A ++ L) → b.store <+: S → (∀ e ∈ L, ∃ y, src.at e.1 = some y ∧ sizeOf y ≤ k) →
          ∃ b', Run P src b0 b' A ∧ b'.store = b.store := by
        intro L
        induction L with
        | nil => intro A b hr _ _; rw [List.append_nil] at hr; exact ⟨b, hr, rfl⟩
        | cons l L ihL =>
          intro A b hr hst hL
          obtain ⟨_, _, _, _, hJ2, _, _⟩ := run_inv hsort hchunk hc hV hv hp h0 hr hst
          obtain ⟨y, h1, h2⟩ := hL l (by simp)
          obtain ⟨b2, h3, h4⟩ := ih hr hst (by simp) h1 h2
          have hlA : l ∉ A := fun h => by
            have := hJ2.nodup
            rw [List.nodup_append] at this
            exact this.2.2 l h l (by simp) rfl
          rw [List.erase_append_right _ hlA, List.erase_cons_head] at h3
          obtain ⟨b3, h5, h6⟩ := ihL A b2 h3 (h4 ▸ hst) (fun e he => hL e (by simp [he]))
          exact ⟨b3, h5, h6.trans h4⟩
      obtain ⟨b2, h5, h6⟩ := hall new _ b1 hr1 (hst1 ▸ hst) hsub
      exact ⟨b2, h5, h6.trans hst1⟩

/-! ### Theorems -/

/-- C81: after any number of updates, each with any schedule of the tasks, any order of directory listings and any intermediate pushes, the
manifest stored last has exactly the files and directories of the source directory: each with its name, type and time, and each file with
its size, its permissions and the ids of the chunks of its content, in order. Partial: it is assumed that the source directory does not change during an update,
all tasks succeed, a changed file differs in time or size, and no asset list in the store could be one of two directories (`NoSharedList`, see C30). The last is
so if no two directories have entries with the same name, kind, time and size, and if no directory had to be split. -/
theorem C81_manifest_mirrors_source_partial (P : Env) (hsort : ∀ l, (P.cfg.sort l).Perm l) (hchunk : ∀ c, (P.chunk c).flatten = c) (src : Node)
    (srcs : List Node) (S : List Stored) (id : Id) (h : Updates P (src :: srcs) S id) (hver : Versions S (src :: srcs)) (hc : NoCollision P.cfg.hash S) :
    ∃ b, loadManifest P.cfg S id = some b ∧ b.store = S ∧ ∀ p m, Has P.cfg.hash S b.root p m ↔ want P src p = some m := by
  obtain ⟨s, r, x, he, hs⟩ := updates_saved hsort hchunk hc h hver List.prefix_rfl
  cases he
  refine ⟨{ root := x.a, store := S }, ?_, rfl, fun p m => saved_has hs p m⟩
  unfold loadManifest
  rw [hs.root]; rfl

/-- C81: a manifest that is pushed during an update is readable, and every asset is either right, or marked as in progress, or below a directory that is
marked as in progress; in the last case it is missing or as it was before the update. Partial: see `C81_manifest_mirrors_source_partial`. -/
theorem C81_pushed_manifests_partial (P : Env) (hsort : ∀ l, (P.cfg.sort l).Perm l) (hchunk : ∀ c, (P.chunk c).flatten = c) (src : Node)
    (srcs : List Node) (b0 b b' : Builder) (q : Todo) (fuel : Nat) (id : Id) (h0 : Starts P srcs b0) (hr : Run P src b0 b q)
    (hf : flush P.cfg fuel b = some (id, b')) (hver : Versions b'.store (src :: srcs)) (hc : NoCollision P.cfg.hash b'.store) :
    ∃ (b2 : Builder) (F : Tree), loadManifest P.cfg b'.store id = some b2 ∧ (∀ p m, Has P.cfg.hash b'.store b2.root p m ↔ F p = some m) ∧
      ∀ p, F p = want P src p ∨ (∃ m, F p = some m ∧ m.inProgress = true ∧ (src.at p).isSome) ∨
        ((F p = none ∨ F p = before P srcs p) ∧ ∃ d r, p = d ++ r ∧ r ≠ [] ∧ ∃ m, F d = some m ∧ m.kind = .directory ∧ m.inProgress = true) := by
  have hst := flush_store hf
  obtain ⟨V, x0, hV, hv, hb⟩ := starts_begins hsort hchunk hc hver h0 ((run_store hr).trans hst)
  obtain ⟨G, F, x, hx, hJ, hG, -⟩ := run_inv hsort hchunk hc hV hv (versions_head hver) hb hr hst
  obtain ⟨x', -, hs, -⟩ := hx.flush hsort hc (stamped_unshared hV hG (hJ.stamped hv hb.stamped)) hf List.prefix_rfl
  refine ⟨{ root := x'.a, store := b'.store }, F, by unfold loadManifest; rw [hs.root]; rfl, fun p m => saved_has hs p m, fun p => ?_⟩
  by_cases hq : ∃ e ∈ q, e.1 <+: p
  · obtain ⟨e, he, r, hr'⟩ := hq
    subst hr'
    obtain ⟨y, hy, hk⟩ := hJ.queued e he
    by_cases hr0 : r = []
    · subst hr0
      rw [List.append_nil]
      exact .inr (.inl ⟨_, hJ.pend e he y hy, rfl, by rw [hy]; rfl⟩)
    · by_cases hn : F (e.1 ++ r) = none ∧ y.kind = .file
      · left
        rw [hn.1]
        unfold want
        cases y with
        | dir => cases hn.2
        | file t c => rw [at_file hy hr0]; rfl
      · right; right
        refine ⟨hJ.below e he r hr0, e.1, r, rfl, hr0, _, hJ.pend e he y hy, ?_, rfl⟩
        rcases kind_cases y with h1 | h1
        · exfalso
          refine hn ⟨(inv_closed hx).below hr0 ?_, h1⟩
          rintro ⟨m, k1, k2⟩
          rw [hJ.pend e he y hy] at k1
          cases k1
          rw [show (pendMeta (e.1.getLastD []) y).kind = y.kind from rfl, h1] at k2; cases k2
        · exact h1
  · exact .inl (hJ.done p fun e he hh => hq ⟨e, he, hh⟩)

/-- C81: no step of an update fails, and an update can always be completed: it can be started, and whatever has been done so far, the remaining assets can be
processed. Partial: see `C81_manifest_mirrors_source_partial`; writing the manifest at the end may fail, see C71. -/
theorem C81_updates_can_finish_partial (P : Env) (hsort : ∀ l, (P.cfg.sort l).Perm l) (hchunk : ∀ c, (P.chunk c).flatten = c) (t : Int)
    (es : List (Name × Node)) (srcs : List Node) (b0 : Builder) (h0 : Starts P srcs b0) :
    (Versions b0.store (.dir t es :: srcs) → NoCollision P.cfg.hash b0.store → ∃ b, Run P (.dir t es) b0 b [([], .directory)]) ∧
    ∀ b q, Run P (.dir t es) b0 b q → Versions b.store (.dir t es :: srcs) → NoCollision P.cfg.hash b.store →
      ∃ b', Run P (.dir t es) b0 b' [] := by
  constructor
  · intro hver hc
    obtain ⟨V, x0, hV, hv, hb⟩ := starts_begins hsort hchunk hc hver h0 List.prefix_rfl
    have hroot := (hb.inv.isDir []).mp ⟨_, look_nil _, hb.inv.dir⟩
    obtain ⟨b1, e1, -⟩ := hb.inv.modify (path := []) (setMeta_change ⟨[], .directory, t, 0⟩) hroot
    exact ⟨b1, .start rfl e1⟩
  · intro b q hr hver hc
    obtain ⟨V, x0, hV, hv, hb⟩ := starts_begins hsort hchunk hc hver h0 (run_store hr)
    have hp := versions_head hver
    have hall : ∀ (q : Todo) (b' : Builder), Run P (.dir t es) b0 b' q → b'.store = b.store → ∃ b'', Run P (.dir t es) b0 b'' [] := by
      intro q
      induction q with
      | nil => intro b' hr _; exact ⟨b', hr⟩
      | cons e q ih =>
        intro b' hr hst
        obtain ⟨_, _, _, _, hJ, _, _⟩ := run_inv hsort hchunk hc hV hv hp hb hr (by rw [hst]; exact List.prefix_rfl)
        obtain ⟨y, hy, -⟩ := hJ.queued e (by simp)
        obtain ⟨b2, h1, h2⟩ := process hsort hchunk hc hV hv hp hb (sizeOf y) hr (by rw [hst]; exact List.prefix_rfl) (by simp) hy (Nat.le_refl _)
        rw [List.erase_cons_head] at h1
        exact ih b2 h1 (h2.trans hst)
    exact hall q b hr rfl

/-- The documented notion of an executable file: at least four bytes, starting with the ELF magic, `#!/` or `MZ`. -/
def LooksExecutable (c : List UInt8) : Prop :=
  4 ≤ c.length ∧ ([0x7f, 0x45, 0x4c, 0x46] <+: c ∨ [0x23, 0x21, 0x2f] <+: c ∨ [0x4d, 0x5a] <+: c)

/-- What `want` asks of the permissions, without the helpers of the model: a file is executable if its content says so, if the read buffer has at
least four bytes; nothing else is given. -/
theorem C81_permissions (P : Env) (hb : 4 ≤ P.buf) (src : Node) (p : List Name) (t : Int) (c : List UInt8) (h : src.at p = some (.file t c)) :
    ∃ m, want P src p = some m ∧ (LooksExecutable c → m.perms = 0o755) ∧ (¬LooksExecutable c → m.perms = 0o644) := by
  have e : isExecutable (c.take P.buf) = true ↔ LooksExecutable c := by
    unfold isExecutable LooksExecutable
    simp only [Bool.and_eq_true, Bool.or_eq_true, beq_iff_eq, decide_eq_true_eq, List.take_take, List.length_take, List.prefix_iff_eq_take]
    rw [show min 4 P.buf = 4 by omega, show min 3 P.buf = 3 by omega, show min 2 P.buf = 2 by omega]
    constructor
    · rintro ⟨h1, h2⟩
      refine ⟨by omega, ?_⟩
      rcases h2 with (h2 | h2) | h2
      · exact Or.inl h2.symm
      · exact Or.inr (Or.inl h2.symm)
      · exact Or.inr (Or.inr h2.symm)
    · rintro ⟨h1, h2⟩
      refine ⟨by omega, ?_⟩
      rcases h2 with h2 | h2 | h2
      · exact Or.inl (Or.inl h2.symm)
      · exact Or.inl (Or.inr h2.symm)
      · exact Or.inr h2.symm
  refine ⟨_, by unfold want; rw [h]; rfl, fun hx => ?_, fun hx => ?_⟩
  · show (if _ then _ else _) = _
    rw [if_pos (e.2 hx)]
  · show (if _ then _ else _) = _
    rw [if_neg (fun h => hx (e.1 h))]

end Verif.Updater
