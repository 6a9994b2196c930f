import Verif.Stream.WatchLoop

/-! # C74: the manifest catches up with the streamed directory -/

namespace Verif.Watch

set_option linter.unusedSectionVars false

variable {ν α : Type} [DecidableEq ν]

/-- Watcher and runner have nothing to do: the directory is watched, there is no notification left, the runner waits and has not
been told of anything, and the last scan of the whole directory was a success. -/
structure Idle (s : State ν α) : Prop where
  wphase : s.wphase = .watching
  gone : s.gone = false
  queue : s.queue = []
  run : s.run = .waiting
  filesChanged : s.filesChanged = false
  dirRecreated : s.dirRecreated = false
  scanOk : s.scanOk = true

/-- C74, if only steps of the given kinds occur: whenever watcher and runner have nothing to do, the published manifest shows the
streamed directory. -/
def CatchesUp (ν α : Type) [DecidableEq ν] (ok : Kind → Prop) : Prop :=
  ∀ (zero : α) (s : State ν α), Reach zero ok s → Idle s → ∀ p, s.published p = s.fs p

/-! ## Trees -/

theorem below_iff {d p : Path ν} : Below d p ↔ d <+: p ∧ d ≠ p := by
  constructor
  · rintro ⟨n, r, rfl⟩
    exact ⟨List.prefix_append _ _, fun h => by have := congrArg List.length h; simp at this⟩
  · rintro ⟨⟨r, rfl⟩, h⟩
    cases r with
    | nil => simp at h
    | cons n r => exact ⟨n, r, rfl⟩

theorem Below.trans {a b c : Path ν} (h1 : Below a b) (h2 : Below b c) : Below a c := by
  obtain ⟨n, r, rfl⟩ := h1
  obtain ⟨m, q, rfl⟩ := h2
  exact ⟨n, r ++ m :: q, by simp⟩

theorem below_of_prefix {a b c : Path ν} (h1 : a <+: b) (h2 : Below b c) : Below a c := by
  obtain ⟨r, rfl⟩ := h1
  obtain ⟨m, q, rfl⟩ := h2
  cases r with
  | nil => exact ⟨m, q, by simp⟩
  | cons n r => exact ⟨n, r ++ m :: q, by simp⟩

theorem Below.ne_nil {d p : Path ν} (h : Below d p) : p ≠ [] := by
  obtain ⟨n, r, rfl⟩ := h; simp

theorem not_below_self {p : Path ν} : ¬ Below p p := fun h => (below_iff.mp h).2 rfl

theorem Below.not_prefix {d p : Path ν} (h : Below d p) : ¬ p <+: d := by
  intro h1
  have := below_iff.mp h
  exact this.2 (this.1.eq_of_length (Nat.le_antisymm this.1.length_le h1.length_le))

/-- Of two prefixes of the same path one is a prefix of the other. -/
theorem prefixes {a d q : Path ν} (h1 : a <+: q) (h2 : d <+: q) : Below a d ∨ d = a ∨ Below d a := by
  rcases List.prefix_or_prefix_of_prefix h1 h2 with h | h
  · by_cases he : a = d
    · exact .inr (.inl he.symm)
    · exact .inl (below_iff.mpr ⟨h, he⟩)
  · by_cases he : d = a
    · exact .inr (.inl he)
    · exact .inr (.inr (below_iff.mpr ⟨h, he⟩))

theorem below_snoc {d a : Path ν} {n : ν} (h : Below a (d ++ [n])) : a = d ∨ Below a d := by
  have h1 := below_iff.mp h
  rcases prefixes h1.1 (List.prefix_append d [n]) with h2 | h2 | h2
  · exact .inr h2
  · exact .inl h2.symm
  · exfalso
    have := below_iff.mp h2
    have l1 := h1.1.length_le
    have l2 := this.1.length_le
    simp only [List.length_append, List.length_cons, List.length_nil] at l1
    by_cases hl : a.length = d.length
    · exact this.2 (this.1.eq_of_length hl.symm)
    · exact h1.2 (h1.1.eq_of_length (by simp; omega))

theorem dirAt_iff {t : Tree ν α} {p : Path ν} : dirAt t p = true ↔ t p = some .dir := by
  unfold dirAt
  split
  · rename_i h; simp [h]
  · rename_i h
    constructor
    · intro h1; cases h1
    · intro h1; exact absurd h1 h

theorem Tree.Wf.below_none {t : Tree ν α} (h : t.Wf) {d p : Path ν} (hd : d ≠ []) (hp : Below d p) (hn : t d ≠ some .dir) :
    t p = none := by
  cases ht : t p with
  | none => rfl
  | some e => exact absurd (h.parent d p hd hp (by rw [ht]; simp)) hn

theorem Change.wf {e : Event ν α} {t t' : Tree ν α} (h : Change e t t') (hw : t.Wf) : t'.Wf := by
  cases h with
  | @create _ _ a d n e ha hd hn ht =>
    constructor
    · rw [ht, if_neg (by simp)]; exact hw.root
    · intro x q hx hb hq
      have hxn : x ≠ d ++ [n] := by
        rintro rfl
        rw [ht, if_neg (fun h => by subst h; exact not_below_self hb)] at hq
        exact hq (hw.below_none hx hb (by rw [hn]; simp))
      rw [ht, if_neg hxn]
      rw [ht] at hq
      split at hq
      · rename_i h; subst h
        rcases below_snoc hb with rfl | hb
        · rcases hd with rfl | hd
          · exact absurd rfl hx
          · exact hd
        · rcases hd with rfl | hd
          · exact absurd rfl hb.ne_nil
          · exact hw.parent _ _ hx hb (by rw [hd]; simp)
      · exact hw.parent _ _ hx hb hq
  | @modify _ _ p e e' ho hk ht =>
    constructor
    · rw [ht]; split
      · rename_i h; rw [← h, hw.root] at ho; cases ho
      · exact hw.root
    · intro x q hx hb hq
      have hq' : t q ≠ none := by
        rw [ht] at hq; split at hq
        · rename_i h; subst h; rw [ho]; simp
        · exact hq
      have := hw.parent _ _ hx hb hq'
      rw [ht]; split
      · rename_i h; subst h
        rw [this] at ho
        cases ho
        cases e with
        | dir => rfl
        | file => cases hk
      · exact this
  | @remove _ _ a p e ha ho hb ht =>
    constructor
    · rw [ht]; split
      · rfl
      · exact hw.root
    · intro x q hx hxq hq
      rw [ht] at hq ⊢
      split at hq
      · exact absurd rfl hq
      · rw [if_neg (by rintro rfl; exact hq (hb _ hxq))]
        exact hw.parent _ _ hx hxq hq

theorem Move.wf {e : Event ν α} {t t' : Tree ν α} (h : Move e t t') (hw : t.Wf) : t'.Wf := by
  cases h with
  | @out _ _ a p e ha ho ht =>
    constructor
    · rw [ht]; split
      · rfl
      · exact hw.root
    · intro x q hx hxq hq
      rw [ht] at hq ⊢
      split at hq
      · exact absurd rfl hq
      · rename_i hn
        rw [if_neg fun h => hn (h.trans (below_iff.mp hxq).1)]
        exact hw.parent _ _ hx hxq hq
  | @into _ _ a d n sub ha hd hn hsub hin hout =>
    have hdn : d ++ [n] ≠ [] := by simp
    constructor
    · rw [hout _ (by simp)]; exact hw.root
    · intro x q hx hxq hq
      by_cases hpq : d ++ [n] <+: q
      · obtain ⟨r, rfl⟩ := hpq
        rcases prefixes (below_iff.mp hxq).1 (List.prefix_append (d ++ [n]) r) with h | h | h
        · rw [hout _ h.not_prefix]
          rcases below_snoc h with rfl | h
          · rcases hd with rfl | hd
            · exact absurd rfl hx
            · exact hd
          · rcases hd with rfl | hd
            · exact absurd rfl h.ne_nil
            · exact hw.parent _ _ hx h (by rw [hd]; simp)
        · subst h
          have := hin []
          rwa [List.append_nil, if_pos rfl] at this
        · obtain ⟨m, y, rfl⟩ := h
          rw [hin, if_neg (by simp)]
          obtain ⟨k, z, hz⟩ := hxq
          rw [List.append_assoc (d ++ [n]), List.append_cancel_left_eq] at hz
          subst hz
          rw [hin, if_neg (by simp)] at hq
          exact hsub.parent _ _ (by simp) ⟨k, z, rfl⟩ hq
      · have hx' : ¬ d ++ [n] <+: x := fun h => hpq (h.trans (below_iff.mp hxq).1)
        rw [hout _ hpq] at hq
        rw [hout _ hx']
        exact hw.parent _ _ hx hxq hq

theorem Change.path_ne {e : Event ν α} {t t' : Tree ν α} (h : Change e t t') (hw : t.Wf) : e.path ≠ [] := by
  cases h with
  | create => simp
  | modify h => intro h1; dsimp only at h1; rw [h1, hw.root] at h; cases h
  | remove _ h => intro h1; dsimp only at h1; rw [h1, hw.root] at h; cases h

theorem Move.path_ne {e : Event ν α} {t t' : Tree ν α} (h : Move e t t') (hw : t.Wf) : e.path ≠ [] := by
  cases h with
  | out _ h => intro h1; dsimp only at h1; rw [h1, hw.root] at h; cases h
  | into => simp

theorem empty_wf : (Tree.empty : Tree ν α).Wf := ⟨rfl, fun _ _ _ _ h => absurd rfl h⟩

theorem del_wf {t : Tree ν α} (hw : t.Wf) (d : Path ν) : (t.del d).Wf := by
  constructor
  · unfold Tree.del; split
    · rfl
    · exact hw.root
  · intro x q hx hxq hq
    unfold Tree.del at hq ⊢
    split at hq
    · exact absurd rfl hq
    · rename_i hn
      rw [if_neg fun h => hn (h.trans (below_iff.mp hxq).1)]
      exact hw.parent _ _ hx hxq hq

theorem set_wf {t : Tree ν α} (hw : t.Wf) {p : Path ν} {a : α} (hp : t p = some (.file a)) (b : α) : (t.set p b).Wf := by
  constructor
  · unfold Tree.set; split
    · rename_i h; rw [← h, hw.root] at hp; cases hp
    · exact hw.root
  · intro x q hx hxq hq
    have hq' : t q ≠ none := by
      unfold Tree.set at hq; split at hq
      · rename_i h; subst h; rw [hp]; simp
      · exact hq
    have := hw.parent _ _ hx hxq hq'
    unfold Tree.set; split
    · rename_i h; subst h; rw [this] at hp; cases hp
    · exact this

theorem kindAt_dir {t : Tree ν α} {d : Path ν} {e : Entry α} (h : kindAt t d e = true) (hd : t d = some .dir) : e = .dir := by
  unfold kindAt at h
  rw [hd] at h
  cases e with
  | dir => rfl
  | file => cases h

theorem kindAt_of_dir {t : Tree ν α} {d : Path ν} (hd : t d = some .dir) : kindAt t d .dir = true := by
  unfold kindAt; rw [hd]; rfl

theorem put_above {t : Tree ν α} {d a : Path ν} {e : Entry α} (h : Below a d) (ha : a ≠ []) : t.put d e a = some .dir := by
  unfold Tree.put
  rw [if_neg (below_iff.mp h).2, if_neg h.not_prefix, if_pos ⟨(below_iff.mp h).1, ha⟩]

theorem put_self {t : Tree ν α} {d : Path ν} {e : Entry α} : t.put d e d = some e := by
  unfold Tree.put; rw [if_pos rfl]

theorem put_below {t : Tree ν α} {d p : Path ν} {e : Entry α} (h : Below d p) :
    t.put d e p = if kindAt t d e then t p else none := by
  unfold Tree.put
  rw [if_neg (below_iff.mp h).2.symm, if_pos (below_iff.mp h).1]

theorem put_other {t : Tree ν α} {d p : Path ν} {e : Entry α} (h1 : ¬ d <+: p) (h2 : ¬ p <+: d ∨ p = []) : t.put d e p = t p := by
  unfold Tree.put
  have h3 : p ≠ d := by rintro rfl; exact h1 List.prefix_rfl
  rw [if_neg h3, if_neg h1, if_neg fun h => h2.elim (fun h' => h' h.1) h.2]

theorem put_wf {t : Tree ν α} (hw : t.Wf) {d : Path ν} (hd : d ≠ []) (e : Entry α) : (t.put d e).Wf := by
  constructor
  · rw [put_other (fun h => hd (List.prefix_nil.mp h)) (.inr rfl)]; exact hw.root
  · intro x q hx hxq hq
    by_cases h1 : d <+: q
    · rcases prefixes (below_iff.mp hxq).1 h1 with h2 | h2 | h2
      · exact put_above h2 hx
      · subst h2
        rw [put_self]
        rw [put_below hxq] at hq
        split at hq
        · rename_i hk
          rw [kindAt_dir hk (hw.parent _ _ hx hxq hq)]
        · exact absurd rfl hq
      · rw [put_below h2]
        rw [put_below (h2.trans hxq)] at hq
        split at hq
        · rename_i hk
          rw [if_pos hk]
          exact hw.parent _ _ hx hxq hq
        · exact absurd rfl hq
    · by_cases h2 : q <+: d
      · exact put_above (by
          rcases prefixes ((below_iff.mp hxq).1.trans h2) (List.prefix_rfl) with h | h | h
          · exact h
          · subst h; exact absurd h2 hxq.not_prefix
          · exact absurd ((below_iff.mp h).1.trans (below_iff.mp hxq).1) h1) hx
      · rw [put_other h1 (.inl h2)] at hq
        have h3 : ¬ d <+: x := fun h => h1 (h.trans (below_iff.mp hxq).1)
        by_cases h4 : x <+: d
        · rw [put_above (below_iff.mpr ⟨h4, fun h => h3 (h ▸ List.prefix_rfl)⟩) hx]
        · rw [put_other h3 (.inl h4)]
          exact hw.parent _ _ hx hxq hq

theorem scan_out {t fs : Tree ν α} {d p : Path ν} (h : ¬ Below d p) : t.scan fs d p = t p := by
  unfold Tree.scan
  split
  · rename_i h1
    have : d = p := Decidable.byContradiction fun h2 => h (below_iff.mpr ⟨h1, h2⟩)
    subst this
    simp
  · rfl

theorem scan_child {t fs : Tree ν α} {d : Path ν} {n : ν} : t.scan fs d (d ++ [n]) = fs (d ++ [n]) := by
  unfold Tree.scan
  rw [if_pos (List.prefix_append _ _)]
  simp

theorem scan_below {t fs : Tree ν α} {d p : Path ν} {n : ν} (h : Below (d ++ [n]) p) :
    t.scan fs d p = if dirAt fs (d ++ [n]) && dirAt t (d ++ [n]) then t p else none := by
  obtain ⟨m, r, rfl⟩ := h
  unfold Tree.scan
  rw [if_pos (by rw [List.append_assoc]; exact List.prefix_append _ _)]
  simp

theorem below_cases {d p : Path ν} (h : Below d p) : ∃ n, p = d ++ [n] ∨ Below (d ++ [n]) p := by
  obtain ⟨n, r, rfl⟩ := h
  refine ⟨n, ?_⟩
  cases r with
  | nil => exact .inl rfl
  | cons m r => exact .inr ⟨m, r, by simp⟩

theorem scan_wf {t fs : Tree ν α} (hw : t.Wf) {d : Path ν} (hd : d = [] ∨ t d = some .dir) : (t.scan fs d).Wf := by
  have hup : ∀ x, x ≠ [] → x = d ∨ Below x d → t.scan fs d x = some .dir := by
    intro x hx h
    rcases hd with rfl | hd
    · rcases h with rfl | h
      · exact absurd rfl hx
      · exact absurd rfl h.ne_nil
    · rcases h with rfl | h
      · rw [scan_out not_below_self]; exact hd
      · rw [scan_out fun h' => not_below_self (h.trans h')]
        exact hw.parent _ _ hx h (by rw [hd]; simp)
  constructor
  · rw [scan_out fun h => h.ne_nil rfl]; exact hw.root
  · intro x q hx hxq hq
    by_cases hb : Below d q
    · obtain ⟨n, h | h⟩ := below_cases hb
      · subst h
        rcases below_snoc hxq with rfl | h
        · exact hup _ hx (.inl rfl)
        · exact hup _ hx (.inr h)
      · rw [scan_below h] at hq
        split at hq
        · rename_i hc
          simp only [Bool.and_eq_true, dirAt_iff] at hc
          rcases prefixes (below_iff.mp hxq).1 (below_iff.mp h).1 with h1 | h1 | h1
          · rcases below_snoc h1 with rfl | h1
            · exact hup _ hx (.inl rfl)
            · exact hup _ hx (.inr h1)
          · subst h1; rw [scan_child]; exact hc.1
          · rw [scan_below h1, if_pos (by simp only [Bool.and_eq_true, dirAt_iff]; exact hc)]
            exact hw.parent _ _ hx hxq hq
        · exact absurd rfl hq
    · rw [scan_out hb] at hq
      rw [scan_out fun h => hb (h.trans hxq)]
      exact hw.parent _ _ hx hxq hq

/-! ## The invariant -/

/-- Notifications and the trees after each of them. -/
inductive Snaps : List (Event ν α × Tree ν α) → Tree ν α → Tree ν α → Prop where
  | nil (t : Tree ν α) : Snaps [] t t
  | cons {e : Event ν α} {q : List (Event ν α × Tree ν α)} {t t' u : Tree ν α} : Change e t t' → Snaps q t' u →
      Snaps ((e, t') :: q) t u

theorem Snaps.snoc {q : List (Event ν α × Tree ν α)} {t u u' : Tree ν α} {e : Event ν α} (h : Snaps q t u)
    (hc : Change e u u') : Snaps (q ++ [(e, u')]) t u' := by
  induction h with
  | nil t => exact .cons hc (.nil _)
  | cons h1 _ ih => exact .cons h1 (ih hc)

theorem Snaps.quiet {q : List (Event ν α × Tree ν α)} {t u : Tree ν α} (h : Snaps q t u) {p : Path ν}
    (hp : ∀ x ∈ q, x.1.path ≠ p) : u p = t p := by
  induction h with
  | nil t => rfl
  | cons h1 _ ih =>
    rw [ih fun x hx => hp x (List.mem_cons_of_mem _ hx)]
    exact h1.other (hp _ (List.mem_cons_self ..)).symm

/-- What an entry of the map says about the present tree, compared with an earlier one. -/
def MapOk (x : Option (Act × Entry α)) (now b : Option (Entry α)) : Prop :=
  match x with
  | none => now = b
  | some (.deleted, _) => now = none
  | some (_, e) => now = some e

/-- What an entry of a batch says. -/
def BatchOk (x : Act × Entry α) (now : Option (Entry α)) : Prop :=
  match x with
  | (.deleted, _) => now = none
  | (_, e) => now = some e

theorem MapOk.batch {x : Option (Act × Entry α)} {now b : Option (Entry α)} {y : Act × Entry α} (h : MapOk x now b)
    (hx : x = some y) : BatchOk y now := by
  subst hx
  obtain ⟨a, e⟩ := y
  cases a <;> exact h

theorem newEntry_none {was : Bool} {a : Action} {e : Entry α} (h : newEntry was a e = none) :
    was = true ∧ (a = .removed ∨ a = .renamedOld) := by
  cases a <;> cases was <;> simp [newEntry] at h ⊢

theorem MapOk.merge {m : FileMap ν α} {e : Event ν α} {t t' b : Tree ν α} (hc : Change e t t')
    (he : erases m e → b e.path = none) (p : Path ν) (h : MapOk (m p) (t p) (b p)) : MapOk (merge m e p) (t' p) (b p) := by
  by_cases hp : p = e.path
  · subst hp
    rw [merge_self]
    unfold erases at he
    cases hc with
    | @create _ _ a d n e ha _ hn ht =>
      have ht' := ht (d ++ [n]); rw [if_pos rfl] at ht'
      rcases ha with rfl | rfl <;> exact ht'
    | @modify _ _ p e e' ho _ ht =>
      have ht' := ht p; rw [if_pos rfl] at ht'
      simp only [newEntry]
      split <;> exact ht'
    | @remove _ _ a p e ha ho _ ht =>
      have ht' := ht p; rw [if_pos rfl] at ht'
      have hne : newEntry (wasAdded m p) a e = if wasAdded m p then none else some (.deleted, e) := by
        rcases ha with rfl | rfl <;> rfl
      dsimp only at he ⊢
      rw [hne, ht']
      split
      · rename_i hw; exact (he ⟨hw, ha⟩).symm
      · rfl
  · rw [merge_other hp, hc.other hp]; exact h

/-- The notifications that are still to come. -/
def State.pend (s : State ν α) : List (Event ν α × Tree ν α) := if s.watched then s.queue else []

/-- The changes the runner has picked up and not applied yet. -/
def RPhase.batch : RPhase ν α → FileMap ν α
  | .taken b => b
  | .applying b => b
  | _ => .empty

/-- The path has been looked at by the scan that is going on. -/
def RPhase.looked : RPhase ν α → Path ν → Prop
  | .scanning _ done => done
  | _ => fun _ => True

def RPhase.isScan : RPhase ν α → Bool
  | .scanning _ _ => true
  | _ => false

/-- The whole directory will be scanned, or the runner has given up, or the last scan failed. -/
def Excused (s : State ν α) : Prop :=
  s.dirRecreated = true ∨ s.wphase = .closed ∨ s.wphase = .opened ∨ s.wphase = .lost ∨ s.gone = true ∨ s.run = .starting ∨
    s.run = .stopped ∨ (s.scanOk = false ∧ s.run.isScan = false)

/-- Every path about which nothing is to come is right. -/
structure Good (s : State ν α) : Prop where
  told : s.wphase = .told → ∀ p, s.run.batch p = none
  batch : ∀ p x, s.run.batch p = some x → BatchOk x (s.base p)
  same : ∀ p, p ≠ [] → s.run.looked p → s.run.batch p = none → s.map p = none → (∀ x ∈ s.pend, x.1.path ≠ p) →
    s.view p = s.fs p

structure Watch (s : State ν α) : Prop where
  snaps : Snaps s.queue s.seen s.fs
  seenWf : s.seen.Wf
  baseWf : s.base.Wf
  mapOk : ∀ p, MapOk (s.map p) (s.seen p) (s.base p)

structure Inv (s : State ν α) : Prop where
  fsWf : s.fs.Wf
  viewWf : s.view.Wf
  savedWf : s.saved.Wf
  started : s.started = ! s.first
  firstPhase : s.first = true → s.wphase = .closed ∨ s.wphase = .opened ∨ s.wphase = .told
  runStart : s.started = false → s.run = .starting ∨ s.run = .stopped
  mapEmpty : s.wphase = .closed ∨ s.wphase = .opened ∨ s.wphase = .told → ∀ p, s.map p = none
  startTold : s.run = .starting → s.wphase = .told → s.first = true ∨ s.dirRecreated = true
  keysQueue : s.wphase = .watching ∨ s.wphase = .merged → ∀ x ∈ s.queue, x.1.path ≠ []
  keysMap : s.map [] = none
  keysBatch : s.run.batch [] = none
  watch : s.watched → Watch s
  good : Excused s ∨ Good s
  pub : s.scanOk = true → s.run = .waiting ∨ (∃ b, s.run = .taken b) → s.published = s.view

theorem Inv.phases {s : State ν α} (h : Inv s) (hg : ¬ Excused s) :
    (s.wphase = .told ∧ s.first = false ∧ s.gone = false) ∨ s.watched := by
  unfold Excused at hg
  simp only [not_or] at hg
  obtain ⟨h1, h2, h3, h4, h5, h6, h7, h8⟩ := hg
  have hgone : s.gone = false := by simpa using h5
  cases hw : s.wphase with
  | closed => exact absurd hw h2
  | opened => exact absurd hw h3
  | lost => exact absurd hw h4
  | watching => exact .inr ⟨.inl hw, hgone⟩
  | merged => exact .inr ⟨.inr hw, hgone⟩
  | told =>
    refine .inl ⟨rfl, ?_, hgone⟩
    cases hf : s.first with
    | false => rfl
    | true =>
      have := h.runStart (by rw [h.started, hf]; rfl)
      exact absurd this (not_or.mpr ⟨h6, h7⟩)

theorem Watch.quiet {s : State ν α} (h : Watch s) {p : Path ν} (hm : s.map p = none) (hq : ∀ x ∈ s.queue, x.1.path ≠ p) :
    s.fs p = s.base p := by
  rw [h.snaps.quiet hq]
  have := h.mapOk p
  rw [hm] at this
  exact this

theorem pend_watched {s : State ν α} (h : s.watched) : s.pend = s.queue := by
  unfold State.pend; rw [if_pos h]

theorem pend_not {s : State ν α} (h : ¬ s.watched) : s.pend = [] := by
  unfold State.pend; rw [if_neg h]

theorem inv_init {s : State ν α} (h : Init s) : Inv s where
  fsWf := h.fs
  viewWf := h.view
  savedWf := by rw [h.saved]; exact h.view
  started := by rw [h.started, h.first]; rfl
  firstPhase _ := .inl h.wphase
  runStart _ := .inl h.run
  mapEmpty _ p := by rw [h.map]; rfl
  startTold _ h1 := by rw [h.wphase] at h1; cases h1
  keysQueue h1 := by rw [h.wphase] at h1; rcases h1 with h1 | h1 <;> cases h1
  keysMap := by rw [h.map]; rfl
  keysBatch := by rw [h.run]; rfl
  watch h1 := by rcases h1.1 with h2 | h2 <;> rw [h.wphase] at h2 <;> cases h2
  good := .inl (.inr (.inl h.wphase))
  pub _ h1 := by
    rw [h.run] at h1
    rcases h1 with h1 | ⟨b, h1⟩ <;> cases h1

/-! ### The directory changes -/

theorem inv_change {s : State ν α} (h : Inv s) {e : Event ν α} {t : Tree ν α} (hc : Change e s.fs t)
    (hk : ¬ (s.wphase = .told ∧ s.first = false)) :
    Inv { s with fs := t, queue := if s.watched then s.queue ++ [(e, t)] else s.queue } := by
  by_cases hw : s.watched
  · rw [if_pos hw]
    have hw' : State.watched { s with fs := t, queue := s.queue ++ [(e, t)] } := hw
    refine { h with fsWf := hc.wf h.fsWf, keysQueue := ?_, watch := ?_, good := ?_ }
    · intro hp x hx
      rcases List.mem_append.mp hx with hx | hx
      · exact h.keysQueue hp x hx
      · rw [List.mem_singleton.mp hx]; exact hc.path_ne h.fsWf
    · intro _
      have := h.watch hw
      exact { this with snaps := this.snaps.snoc hc }
    · rcases h.good with hg | hg
      · exact .inl hg
      · refine .inr { hg with same := ?_ }
        intro p hp h1 h2 h3 h4
        rw [pend_watched hw'] at h4
        have h5 := h4 (e, t) (by simp)
        show s.view p = t p
        rw [hc.other fun h => h5 h.symm]
        refine hg.same p hp h1 h2 h3 ?_
        rw [pend_watched hw]
        exact fun x hx => h4 x (List.mem_append.mpr (.inl hx))
  · rw [if_neg hw]
    refine { h with fsWf := hc.wf h.fsWf, watch := fun h => absurd h hw, good := .inl ?_ }
    refine Classical.byContradiction fun hn => ?_
    rcases h.phases hn with h1 | h1
    · exact hk ⟨h1.1, h1.2.1⟩
    · exact hw h1

theorem inv_move {s : State ν α} (h : Inv s) {e : Event ν α} {t : Tree ν α} (hc : Move e s.fs t)
    (hk : ¬ (s.wphase = .told ∧ s.first = false)) (hw : ¬ s.watched) :
    Inv { s with fs := t, queue := if s.watched then s.queue ++ [(e, t)] else s.queue } := by
  rw [if_neg hw]
  refine { h with fsWf := hc.wf h.fsWf, watch := fun h => absurd h hw, good := .inl ?_ }
  refine Classical.byContradiction fun hn => ?_
  rcases h.phases hn with h1 | h1
  · exact hk ⟨h1.1, h1.2.1⟩
  · exact hw h1

theorem inv_replace {s : State ν α} (h : Inv s) {t : Tree ν α} (ht : t.Wf) : Inv { s with fs := t, gone := true } := by
  refine { h with fsWf := ht, watch := fun h => ?_, good := .inl (.inr (.inr (.inr (.inr (.inl rfl))))) }
  have := h.2; cases this

/-! ### The watcher -/

theorem inv_opens {s : State ν α} (h : Inv s) (hp : s.wphase = .closed) : Inv { s with wphase := .opened, gone := false } := by
  refine { h with firstPhase := fun _ => .inr (.inl rfl), mapEmpty := fun _ => h.mapEmpty (.inl hp), startTold := ?_, keysQueue := ?_, watch := ?_, good := ?_ }
  · intro _ h1; cases h1
  · intro h1; rcases h1 with h1 | h1 <;> cases h1
  · intro h1; rcases h1.1 with h1 | h1 <;> cases h1
  · exact .inl (.inr (.inr (.inl rfl)))

theorem inv_openFails {s : State ν α} (h : Inv s) (hp : s.wphase = .closed) :
    Inv { s with prevOk := false, dirRecreated := s.dirRecreated || s.prevOk } := by
  refine { h with startTold := ?_, watch := ?_, good := ?_ }
  · intro _ h1; rw [show s.wphase = .told from h1] at hp; cases hp
  · intro h1; rcases h1.1 with h1 | h1 <;> rw [show s.wphase = _ from h1] at hp <;> cases hp
  · exact .inl (.inr (.inl hp))

theorem inv_tell {s : State ν α} (h : Inv s) (hp : s.wphase = .opened) :
    Inv { s with wphase := .told, prevOk := true, dirRecreated := s.dirRecreated || ! s.first } := by
  refine { h with firstPhase := fun _ => .inr (.inr rfl), mapEmpty := fun _ => h.mapEmpty (.inr (.inl hp)), startTold := ?_, keysQueue := ?_, watch := ?_, good := ?_ }
  · intro _ _
    cases hf : s.first with
    | true => exact .inl rfl
    | false => exact .inr (by simp)
  · intro h1; rcases h1 with h1 | h1 <;> cases h1
  · intro h1; rcases h1.1 with h1 | h1 <;> cases h1
  · refine .inl ?_
    cases hf : s.first with
    | false => exact .inl (by simp)
    | true =>
      rcases h.runStart (by rw [h.started, hf]; rfl) with h1 | h1
      · exact .inr (.inr (.inr (.inr (.inr (.inl h1)))))
      · exact .inr (.inr (.inr (.inr (.inr (.inr (.inl h1))))))

theorem inv_register {s : State ν α} (h : Inv s) (hp : s.wphase = .told) :
    Inv { s with wphase := .watching, queue := [], first := false, started := true, seen := s.fs, base := s.fs } := by
  have hm := h.mapEmpty (.inr (.inr hp))
  refine { h with started := rfl, firstPhase := ?_, runStart := ?_, mapEmpty := ?_, startTold := ?_, keysQueue := ?_, watch := ?_, good := ?_ }
  · intro h1; cases h1
  · intro h1; cases h1
  · intro _; exact hm
  · intro _ h1; cases h1
  · intro _ x hx; cases hx
  · intro h1
    exact { snaps := .nil _, seenWf := h.fsWf, baseWf := h.fsWf, mapOk := fun p => by show MapOk (s.map p) _ _; rw [hm p]; rfl }
  · rcases h.good with hg | hg
    · refine .inl ?_
      rcases hg with hg | hg | hg | hg | hg
      · exact .inl hg
      · rw [hp] at hg; cases hg
      · rw [hp] at hg; cases hg
      · rw [hp] at hg; cases hg
      · exact .inr (.inr (.inr (.inr hg)))
    · refine .inr { told := ?_, batch := ?_, same := ?_ }
      · intro h1; cases h1
      · intro p x hx; rw [show s.run.batch p = none from hg.told hp p] at hx; cases hx
      · intro p hp' h1 h2 h3 _
        refine hg.same p hp' h1 h2 h3 ?_
        rw [pend_not fun h1 => by rcases h1.1 with h1 | h1 <;> rw [hp] at h1 <;> cases h1]
        intro x hx; cases hx

theorem inv_registerFails {s : State ν α} (h : Inv s) (hp : s.wphase = .told) :
    Inv { s with wphase := .lost, first := false, started := true } := by
  refine { h with started := rfl, firstPhase := ?_, runStart := ?_, mapEmpty := fun _ => h.mapEmpty (.inr (.inr hp)), startTold := ?_, keysQueue := ?_, watch := ?_, good := ?_ }
  · intro h1; cases h1
  · intro h1; cases h1
  · intro _ h1; cases h1
  · intro h1; rcases h1 with h1 | h1 <;> cases h1
  · intro h1; rcases h1.1 with h1 | h1 <;> cases h1
  · exact .inl (.inr (.inr (.inr (.inl rfl))))

theorem inv_fetch {s : State ν α} (h : Inv s) {e : Event ν α} {t : Tree ν α} {q : List (Event ν α × Tree ν α)}
    (hp : s.wphase = .watching ∨ s.wphase = .merged) (hq : s.queue = (e, t) :: q)
    (he : erases s.map e → s.base e.path = none ∧ s.view e.path = none) :
    Inv { s with wphase := .merged, queue := q, map := merge s.map e, seen := t } := by
  have hne : e.path ≠ [] := h.keysQueue hp (e, t) (by rw [hq]; exact List.mem_cons_self ..)
  have hfirst : s.first = false := by
    cases hf : s.first with
    | false => rfl
    | true =>
      rcases h.firstPhase hf with h1 | h1 | h1 <;> rcases hp with h2 | h2 <;> rw [h1] at h2 <;> cases h2
  refine { h with firstPhase := ?_, mapEmpty := ?_, startTold := ?_, keysQueue := ?_, keysMap := ?_, watch := ?_, good := ?_ }
  · intro h1; rw [show s.first = true from h1] at hfirst; cases hfirst
  · intro h1; rcases h1 with h1 | h1 | h1 <;> cases h1
  · intro _ h1; cases h1
  · intro _ x hx; exact h.keysQueue hp x (by rw [hq]; exact List.mem_cons_of_mem _ hx)
  · show merge s.map e [] = none
    rw [merge_other hne.symm]; exact h.keysMap
  · intro h1
    have hw := h.watch ⟨hp, h1.2⟩
    have hsn := hw.snaps
    rw [hq] at hsn
    cases hsn with
    | cons hc hr =>
      exact { snaps := hr, seenWf := hc.wf hw.seenWf, baseWf := hw.baseWf,
              mapOk := fun p => MapOk.merge hc (fun h => (he h).1) p (hw.mapOk p) }
  · rcases h.good with hg | hg
    · refine .inl ?_
      rcases hg with hg | hg | hg | hg | hg
      · exact .inl hg
      · rcases hp with h2 | h2 <;> rw [hg] at h2 <;> cases h2
      · rcases hp with h2 | h2 <;> rw [hg] at h2 <;> cases h2
      · rcases hp with h2 | h2 <;> rw [hg] at h2 <;> cases h2
      · exact .inr (.inr (.inr (.inr hg)))
    · by_cases hgone : s.gone = true
      · exact .inl (.inr (.inr (.inr (.inr (.inl hgone)))))
      have hgone : s.gone = false := by simpa using hgone
      have hwd : s.watched := ⟨hp, hgone⟩
      have hw := h.watch hwd
      have hsn := hw.snaps
      rw [hq] at hsn
      cases hsn with
      | cons hc hr =>
      refine .inr { told := ?_, batch := hg.batch, same := ?_ }
      · intro h1; cases h1
      · intro p hp' h1 h2 h3 h4
        replace h4 : ∀ x ∈ q, x.1.path ≠ p := fun x hx =>
          h4 x (by rw [pend_watched (s := { s with wphase := .merged, queue := q, map := _, seen := _ }) ⟨.inr rfl, hgone⟩]; exact hx)
        by_cases hpe : p = e.path
        · subst hpe
          have h3' : merge s.map e e.path = none := h3
          rw [merge_self] at h3'
          have hers := newEntry_none h3'
          obtain ⟨h5, h6⟩ := he hers
          show s.view e.path = s.fs e.path
          rw [h6, hr.quiet h4]
          have := MapOk.merge hc (fun h => (he h).1) e.path (hw.mapOk _)
          rw [show merge s.map e e.path = none from h3] at this
          rw [show t e.path = s.base e.path from this, h5]
        · refine hg.same p hp' h1 h2 ?_ ?_
          · have : merge s.map e p = none := h3
            rwa [merge_other hpe] at this
          · rw [pend_watched hwd, hq]
            intro x hx
            rcases List.mem_cons.mp hx with rfl | hx
            · exact fun h => hpe h.symm
            · exact h4 x hx

theorem inv_notify {s : State ν α} (h : Inv s) (hp : s.wphase = .merged) :
    Inv { s with wphase := .watching, filesChanged := true } := by
  refine { h with firstPhase := ?_, mapEmpty := ?_, startTold := ?_, keysQueue := ?_, watch := ?_, good := ?_ }
  · intro h1
    rcases h.firstPhase h1 with h1 | h1 | h1 <;> rw [hp] at h1 <;> cases h1
  · intro h1; rcases h1 with h1 | h1 | h1 <;> cases h1
  · intro _ h1; cases h1
  · intro _; exact h.keysQueue (.inr hp)
  · intro h1
    exact { h.watch ⟨.inr hp, h1.2⟩ with }
  · rcases h.good with hg | hg
    · refine .inl ?_
      rcases hg with hg | hg | hg | hg | hg
      · exact .inl hg
      · rw [hp] at hg; cases hg
      · rw [hp] at hg; cases hg
      · rw [hp] at hg; cases hg
      · exact .inr (.inr (.inr (.inr hg)))
    · by_cases hgone : s.gone = true
      · exact .inl (.inr (.inr (.inr (.inr (.inl hgone)))))
      have hgone : s.gone = false := by simpa using hgone
      refine .inr { told := ?_, batch := hg.batch, same := ?_ }
      · intro h1; cases h1
      · intro p hp' h1 h2 h3 h4
        refine hg.same p hp' h1 h2 h3 ?_
        rw [pend_watched ⟨.inr hp, hgone⟩]
        exact fun x hx => h4 x (by rw [pend_watched (s := { s with wphase := .watching, filesChanged := true }) ⟨.inl rfl, hgone⟩]; exact hx)

theorem inv_lose {s : State ν α} (h : Inv s) (hp : s.wphase = .watching) : Inv { s with wphase := .lost } := by
  refine { h with firstPhase := ?_, mapEmpty := ?_, startTold := ?_, keysQueue := ?_, watch := ?_, good := ?_ }
  · intro h1
    rcases h.firstPhase h1 with h1 | h1 | h1 <;> rw [hp] at h1 <;> cases h1
  · intro h1; rcases h1 with h1 | h1 | h1 <;> cases h1
  · intro _ h1; cases h1
  · intro h1; rcases h1 with h1 | h1 <;> cases h1
  · intro h1; rcases h1.1 with h1 | h1 <;> cases h1
  · exact .inl (.inr (.inr (.inr (.inl rfl))))

theorem inv_clear {s : State ν α} (h : Inv s) (hp : s.wphase = .lost) :
    Inv { s with wphase := .closed, map := .empty, queue := [] } := by
  refine { h with firstPhase := fun _ => .inl rfl, mapEmpty := fun _ _ => rfl, startTold := ?_, keysQueue := ?_, keysMap := rfl, watch := ?_, good := ?_ }
  · intro _ h1; cases h1
  · intro h1; rcases h1 with h1 | h1 <;> cases h1
  · intro h1; rcases h1.1 with h1 | h1 <;> cases h1
  · exact .inl (.inr (.inl rfl))

/-! ### The runner -/

theorem batch_of_run {s : State ν α} {b : FileMap ν α} (h : s.run = .taken b ∨ s.run = .applying b) : s.run.batch = b := by
  rcases h with h | h <;> rw [h] <;> rfl

/-- The runner goes on to another phase; nothing else that matters changes. -/
theorem inv_start {s : State ν α} (h : Inv s) (hr : s.run = .starting) (hs : s.started = true) :
    Inv { s with run := .scanning true fun _ => False } := by
  have hfirst : s.first = false := by
    have := h.started; rw [hs] at this; cases hf : s.first
    · rfl
    · rw [hf] at this; cases this
  refine { h with runStart := ?_, startTold := ?_, keysBatch := rfl, watch := ?_, good := ?_, pub := ?_ }
  · intro h1; rw [show s.started = false from h1] at hs; cases hs
  · intro h1; cases h1
  · intro h1; exact { h.watch h1 with }
  · by_cases hd : s.dirRecreated = true
    · exact .inl (.inl hd)
    · refine .inr { told := fun _ _ => rfl, batch := ?_, same := ?_ }
      · intro p x hx; cases hx
      · intro p _ h1; exact h1.elim
  · intro _ h1; rcases h1 with h1 | ⟨b, h1⟩ <;> cases h1

theorem inv_stop {s : State ν α} (h : Inv s) : Inv { s with run := .stopped } := by
  refine { h with runStart := fun _ => .inr rfl, startTold := ?_, keysBatch := rfl, watch := ?_, good := ?_, pub := ?_ }
  · intro h1; cases h1
  · intro h1; exact { h.watch h1 with }
  · exact .inl (.inr (.inr (.inr (.inr (.inr (.inr (.inl rfl)))))))
  · intro _ h1; rcases h1 with h1 | ⟨b, h1⟩ <;> cases h1

theorem Inv.begun {s : State ν α} (h : Inv s) (h1 : s.run ≠ .starting) (h2 : s.run ≠ .stopped) : s.started = true := by
  cases hs : s.started with
  | true => rfl
  | false => exact (h.runStart hs).elim (fun h => absurd h h1) fun h => absurd h h2

/-- If the scan is excused, it is for a reason that lasts. -/
def Lasting (s : State ν α) : Prop :=
  s.dirRecreated = true ∨ s.wphase = .closed ∨ s.wphase = .opened ∨ s.wphase = .lost ∨ s.gone = true

theorem Excused.of_lasting {s : State ν α} (h : Lasting s) : Excused s := by
  rcases h with h | h | h | h | h
  · exact .inl h
  · exact .inr (.inl h)
  · exact .inr (.inr (.inl h))
  · exact .inr (.inr (.inr (.inl h)))
  · exact .inr (.inr (.inr (.inr (.inl h))))

theorem Excused.lasting {s : State ν α} (h : Excused s) :
    Lasting s ∨ s.run = .starting ∨ s.run = .stopped ∨ (s.scanOk = false ∧ s.run.isScan = false) := by
  rcases h with h | h | h | h | h | h
  · exact .inl (.inl h)
  · exact .inl (.inr (.inl h))
  · exact .inl (.inr (.inr (.inl h)))
  · exact .inl (.inr (.inr (.inr (.inl h))))
  · exact .inl (.inr (.inr (.inr (.inr h))))
  · exact .inr h

theorem Excused.scanning {s : State ν α} {i : Bool} {done : Path ν → Prop} (h : Excused s) (hr : s.run = .scanning i done) :
    Lasting s := by
  rcases h.lasting with h | h | h | h
  · exact h
  · rw [hr] at h; cases h
  · rw [hr] at h; cases h
  · rw [hr] at h; cases h.2

theorem Excused.applying {s : State ν α} {b : FileMap ν α} (h : Excused s) (hr : s.run = .taken b ∨ s.run = .applying b ∨ s.run = .waiting) :
    Lasting s ∨ s.scanOk = false := by
  rcases h.lasting with h | h | h | h
  · exact .inl h
  · rcases hr with hr | hr | hr <;> rw [hr] at h <;> cases h
  · rcases hr with hr | hr | hr <;> rw [hr] at h <;> cases h
  · exact .inr h.1

theorem inv_scanDir {s : State ν α} (h : Inv s) {i : Bool} {done : Path ν → Prop} {d : Path ν} (hr : s.run = .scanning i done)
    (hd : d = [] ∨ (done d ∧ dirAt s.view d = true ∧ dirAt s.fs d = true)) :
    Inv { s with
        view := s.view.scan s.fs d
        run := .scanning i fun p => done p ∨ ∃ n, p = d ++ [n] ∨ (Below (d ++ [n]) p ∧ dirAt s.fs (d ++ [n]) = false) } := by
  have hst := h.begun (by rw [hr]; simp) (by rw [hr]; simp)
  refine { h with viewWf := ?_, runStart := ?_, startTold := ?_, keysBatch := rfl, watch := ?_, good := ?_, pub := ?_ }
  · exact scan_wf h.viewWf (hd.imp id fun h => dirAt_iff.mp h.2.1)
  · intro h1; rw [show s.started = false from h1] at hst; cases hst
  · intro h1; cases h1
  · intro h1; exact { h.watch h1 with }
  · rcases h.good with hg | hg
    · exact .inl (Excused.of_lasting (hg.scanning hr))
    · refine .inr { told := fun _ _ => rfl, batch := ?_, same := ?_ }
      · intro p x hx; cases hx
      · intro p hp h1 h2 h3 h4
        have hsame : done p → s.view p = s.fs p := fun hdone => hg.same p hp (by rw [hr]; exact hdone) (by rw [hr]; rfl) h3 h4
        show s.view.scan s.fs d p = s.fs p
        by_cases hb : Below d p
        · obtain ⟨n, hn | hn⟩ := below_cases hb
          · subst hn; exact scan_child
          · rw [scan_below hn]
            have hnil : d ++ [n] ≠ [] := by simp
            by_cases hfs : s.fs p = none
            · by_cases hc : (dirAt s.fs (d ++ [n]) && dirAt s.view (d ++ [n])) = true
              · rw [if_pos hc]
                rcases h1 with h1 | ⟨m, h1 | h1⟩
                · exact hsame h1
                · subst h1
                  exfalso
                  have := (below_iff.mp hn).1
                  have h5 := (List.append_cancel_left_eq d [n] [m]) ▸ (this.eq_of_length (by simp))
                  exact (below_iff.mp hn).2 (by rw [h5])
                · have : n = m := by
                    have l1 := (below_iff.mp hn).1
                    have l2 := (below_iff.mp h1.1).1
                    rcases List.prefix_or_prefix_of_prefix l1 l2 with h | h
                    · have := h.eq_of_length (by simp); simpa using this
                    · have := h.eq_of_length (by simp); simpa using this.symm
                  subst this
                  simp only [Bool.and_eq_true] at hc
                  rw [hc.1] at h1; cases h1.2
              · rw [if_neg hc, hfs]
            · have hfd := h.fsWf.parent _ _ hnil hn hfs
              have hdone : done p := by
                rcases h1 with h1 | ⟨m, h1 | h1⟩
                · exact h1
                · subst h1
                  exfalso
                  exact (below_iff.mp hn).2 ((below_iff.mp hn).1.eq_of_length (by simp))
                · have : n = m := by
                    have l1 := (below_iff.mp hn).1
                    have l2 := (below_iff.mp h1.1).1
                    rcases List.prefix_or_prefix_of_prefix l1 l2 with h | h
                    · have := h.eq_of_length (by simp); simpa using this
                    · have := h.eq_of_length (by simp); simpa using this.symm
                  subst this
                  rw [dirAt_iff.mpr hfd] at h1; cases h1.2
              have hv := hsame hdone
              have hvd := h.viewWf.parent _ _ hnil hn (by rw [hv]; exact hfs)
              rw [if_pos (by simp only [Bool.and_eq_true, dirAt_iff]; exact ⟨hfd, hvd⟩), hv]
        · rw [scan_out hb]
          rcases h1 with h1 | ⟨m, h1 | h1⟩
          · exact hsame h1
          · subst h1; exact absurd ⟨m, [], rfl⟩ hb
          · exact absurd (below_of_prefix (List.prefix_append _ _) h1.1) hb
  · intro _ h1; rcases h1 with h1 | ⟨b, h1⟩ <;> cases h1

theorem updating_run {s : State ν α} (h : s.updating) : s.run ≠ .starting ∧ s.run ≠ .stopped ∧ s.run ≠ .waiting ∧ ∀ b, s.run ≠ .taken b := by
  rcases h with ⟨i, d, h⟩ | ⟨b, h⟩ <;> rw [h] <;> simp

theorem inv_set {s : State ν α} (h : Inv s) {p : Path ν} {a b : α} (hu : s.updating) (hv : s.view p = some (.file a))
    (hf : s.fs p = none ∨ s.fs p = some (.file b)) : Inv { s with view := s.view.set p b } := by
  obtain ⟨h1, h2, h3, h4⟩ := updating_run hu
  refine { h with viewWf := set_wf h.viewWf hv b, watch := ?_, good := ?_, pub := ?_ }
  · intro h1; exact { h.watch h1 with }
  · rcases h.good with hg | hg
    · exact .inl hg
    · refine .inr { told := hg.told, batch := hg.batch, same := ?_ }
      intro q hq e1 e2 e3 e4
      have := hg.same q hq e1 e2 e3 e4
      show s.view.set p b q = s.fs q
      unfold Tree.set
      split
      · rename_i hqp
        subst hqp
        rcases hf with hf | hf
        · rw [hf, hv] at this; cases this
        · exact hf.symm
      · exact this
  · intro _ h5
    rcases h5 with h5 | ⟨c, h5⟩
    · exact absurd h5 h3
    · exact absurd h5 (h4 c)

theorem inv_push {s : State ν α} (h : Inv s) (hu : s.updating) (t : Tree ν α) : Inv { s with published := t } := by
  obtain ⟨h1, h2, h3, h4⟩ := updating_run hu
  refine { h with watch := ?_, good := ?_, pub := ?_ }
  · intro h1; exact { h.watch h1 with }
  · rcases h.good with hg | hg
    · exact .inl hg
    · exact .inr { hg with }
  · intro _ h5
    rcases h5 with h5 | ⟨c, h5⟩
    · exact absurd h5 h3
    · exact absurd h5 (h4 c)

theorem inv_scanEnds {s : State ν α} (h : Inv s) {i : Bool} {done : Path ν → Prop} (hr : s.run = .scanning i done)
    (hd : ∀ p, p ≠ [] → done p) :
    Inv { s with run := .waiting, saved := s.view, published := s.view, scanOk := true } := by
  have hst := h.begun (by rw [hr]; simp) (by rw [hr]; simp)
  refine { h with savedWf := h.viewWf, runStart := ?_, startTold := ?_, keysBatch := rfl, watch := ?_, good := ?_, pub := fun _ _ => rfl }
  · intro h1; rw [show s.started = false from h1] at hst; cases hst
  · intro h1; cases h1
  · intro h1; exact { h.watch h1 with }
  · rcases h.good with hg | hg
    · exact .inl (Excused.of_lasting (hg.scanning hr))
    · refine .inr { told := fun _ _ => rfl, batch := ?_, same := ?_ }
      · intro p x hx; cases hx
      · intro p hp _ _ h3 h4
        exact hg.same p hp (by rw [hr]; exact hd p hp) (by rw [hr]; rfl) h3 h4

theorem inv_scanRestarts {s : State ν α} (h : Inv s) {i : Bool} {done : Path ν → Prop} (hr : s.run = .scanning i done) :
    Inv { s with run := .scanning i fun _ => False, view := .empty, saved := .empty } := by
  have hst := h.begun (by rw [hr]; simp) (by rw [hr]; simp)
  refine { h with viewWf := empty_wf, savedWf := empty_wf, runStart := ?_, startTold := ?_, keysBatch := rfl, watch := ?_, good := ?_, pub := ?_ }
  · intro h1; rw [show s.started = false from h1] at hst; cases hst
  · intro h1; cases h1
  · intro h1; exact { h.watch h1 with }
  · rcases h.good with hg | hg
    · exact .inl (Excused.of_lasting (hg.scanning hr))
    · refine .inr { told := fun _ _ => rfl, batch := ?_, same := ?_ }
      · intro p x hx; cases hx
      · intro p _ h1; exact h1.elim
  · intro _ h1; rcases h1 with h1 | ⟨b, h1⟩ <;> cases h1

theorem inv_scanFails {s : State ν α} (h : Inv s) {i : Bool} {done : Path ν → Prop} (hr : s.run = .scanning i done) :
    Inv { s with
        run := if i then .stopped else .waiting
        view := s.saved
        published := if i then s.published else .empty
        scanOk := false } := by
  have hst := h.begun (by rw [hr]; simp) (by rw [hr]; simp)
  refine { h with viewWf := h.savedWf, runStart := ?_, startTold := ?_, keysBatch := ?_, watch := ?_, good := ?_, pub := ?_ }
  · intro h1; rw [show s.started = false from h1] at hst; cases hst
  · intro h1; dsimp only at h1; split at h1 <;> cases h1
  · dsimp only; split <;> rfl
  · intro h1; exact { h.watch h1 with }
  · refine .inl ?_
    cases i
    · exact .inr (.inr (.inr (.inr (.inr (.inr (.inr ⟨rfl, rfl⟩))))))
    · exact .inr (.inr (.inr (.inr (.inr (.inr (.inl rfl))))))
  · intro h1; cases h1

theorem inv_rescan {s : State ν α} (h : Inv s) (hr : s.run = .waiting) :
    Inv { s with run := .scanning false fun _ => False, dirRecreated := false } := by
  have hst := h.begun (by rw [hr]; simp) (by rw [hr]; simp)
  refine { h with runStart := ?_, startTold := ?_, keysBatch := rfl, watch := ?_, good := ?_, pub := ?_ }
  · intro h1; rw [show s.started = false from h1] at hst; cases hst
  · intro h1; cases h1
  · intro h1; exact { h.watch h1 with }
  · refine .inr { told := fun _ _ => rfl, batch := ?_, same := ?_ }
    · intro p x hx; cases hx
    · intro p _ h1; exact h1.elim
  · intro _ h1; rcases h1 with h1 | ⟨b, h1⟩ <;> cases h1

theorem inv_take {s : State ν α} (h : Inv s) (hr : s.run = .waiting) :
    Inv { s with run := .taken s.map, map := .empty, base := s.seen } := by
  have hst := h.begun (by rw [hr]; simp) (by rw [hr]; simp)
  refine { h with runStart := ?_, mapEmpty := fun _ _ => rfl, startTold := ?_, keysMap := rfl, keysBatch := h.keysMap, watch := ?_, good := ?_, pub := ?_ }
  · intro h1; rw [show s.started = false from h1] at hst; cases hst
  · intro h1; cases h1
  · intro h1
    have hw := h.watch h1
    exact { snaps := hw.snaps, seenWf := hw.seenWf, baseWf := hw.seenWf, mapOk := fun _ => rfl }
  · by_cases he : Excused s
    · refine .inl ?_
      rcases he.applying (b := .empty) (.inr (.inr hr)) with h1 | h1
      · exact Excused.of_lasting h1
      · exact .inr (.inr (.inr (.inr (.inr (.inr (.inr ⟨h1, rfl⟩))))))
    · have hg := h.good.resolve_left he
      refine .inr { told := fun ht p => h.mapEmpty (.inr (.inr ht)) p, batch := ?_, same := ?_ }
      · intro p x hx
        have hx : s.map p = some x := hx
        rcases h.phases he with h1 | h1
        · rw [h.mapEmpty (.inr (.inr h1.1))] at hx; cases hx
        · exact ((h.watch h1).mapOk p).batch hx
      · intro p hp _ h2 _ h4
        exact hg.same p hp (by rw [hr]; trivial) (by rw [hr]; rfl) h2 h4
  · intro h1 _
    exact h.pub h1 (.inl hr)

theorem inv_takenNothing {s : State ν α} (h : Inv s) {b : FileMap ν α} (hr : s.run = .taken b) (hb : ∀ p, b p = none) :
    Inv { s with run := .waiting, filesChanged := false } := by
  have hst := h.begun (by rw [hr]; simp) (by rw [hr]; simp)
  refine { h with runStart := ?_, startTold := ?_, keysBatch := rfl, watch := ?_, good := ?_, pub := ?_ }
  · intro h1; rw [show s.started = false from h1] at hst; cases hst
  · intro h1; cases h1
  · intro h1; exact { h.watch h1 with }
  · rcases h.good with hg | hg
    · refine .inl ?_
      rcases hg.applying (.inl hr) with h1 | h1
      · exact Excused.of_lasting h1
      · exact .inr (.inr (.inr (.inr (.inr (.inr (.inr ⟨h1, rfl⟩))))))
    · refine .inr { told := fun _ _ => rfl, batch := ?_, same := ?_ }
      · intro p x hx; cases hx
      · intro p hp _ _ h3 h4
        exact hg.same p hp (by rw [hr]; trivial) (by rw [hr]; exact hb p) h3 h4
  · intro h1 _; exact h.pub h1 (.inr ⟨b, hr⟩)

theorem inv_takenSome {s : State ν α} (h : Inv s) {b : FileMap ν α} (hr : s.run = .taken b) :
    Inv { s with run := .applying b, filesChanged := false } := by
  have hst := h.begun (by rw [hr]; simp) (by rw [hr]; simp)
  have hb := batch_of_run (.inl hr)
  refine { h with runStart := ?_, startTold := ?_, keysBatch := ?_, watch := ?_, good := ?_, pub := ?_ }
  · intro h1; rw [show s.started = false from h1] at hst; cases hst
  · intro h1; cases h1
  · have := h.keysBatch; rw [hb] at this; exact this
  · intro h1; exact { h.watch h1 with }
  · rcases h.good with hg | hg
    · refine .inl ?_
      rcases hg.applying (.inl hr) with h1 | h1
      · exact Excused.of_lasting h1
      · exact .inr (.inr (.inr (.inr (.inr (.inr (.inr ⟨h1, rfl⟩))))))
    · refine .inr { told := ?_, batch := ?_, same := ?_ }
      · intro ht p; have := hg.told ht p; rw [hb] at this; exact this
      · intro p x hx; exact hg.batch p x (by rw [hb]; exact hx)
      · intro p hp _ h2 h3 h4
        exact hg.same p hp (by rw [hr]; trivial) (by rw [hb]; exact h2) h3 h4
  · intro _ h1; rcases h1 with h1 | ⟨b, h1⟩ <;> cases h1

theorem inv_applyDelete {s : State ν α} (h : Inv s) {b : FileMap ν α} {d : Path ν} {e : Entry α} (hr : s.run = .applying b)
    (hd : b d = some (.deleted, e)) :
    Inv { s with run := .applying fun q => if q = d then none else b q, view := s.view.del d } := by
  have hst := h.begun (by rw [hr]; simp) (by rw [hr]; simp)
  have hb := batch_of_run (.inr hr)
  have hnil : d ≠ [] := by
    rintro rfl
    have := h.keysBatch; rw [hb, hd] at this; cases this
  refine { h with viewWf := del_wf h.viewWf d, runStart := ?_, startTold := ?_, keysBatch := ?_, watch := ?_, good := ?_, pub := ?_ }
  · intro h1; rw [show s.started = false from h1] at hst; cases hst
  · intro h1; cases h1
  · have := h.keysBatch; rw [hb] at this
    show (if [] = d then none else b []) = none
    rw [if_neg hnil.symm]; exact this
  · intro h1; exact { h.watch h1 with }
  · by_cases he : Excused s
    · refine .inl ?_
      rcases he.applying (.inr (.inl hr)) with h1 | h1
      · exact Excused.of_lasting h1
      · exact .inr (.inr (.inr (.inr (.inr (.inr (.inr ⟨h1, rfl⟩))))))
    · have hg := h.good.resolve_left he
      have hwd : s.watched := by
        rcases h.phases he with h1 | h1
        · have := hg.told h1.1 d; rw [hb, hd] at this; cases this
        · exact h1
      have hw := h.watch hwd
      have hbase : s.base d = none := hg.batch d (.deleted, e) (by rw [hb]; exact hd)
      refine .inr { told := ?_, batch := ?_, same := ?_ }
      · intro ht p; have := hg.told ht p; rw [hb] at this
        show (if p = d then none else b p) = none
        split
        · rfl
        · exact this
      · intro p x hx
        have hx : (if p = d then none else b p) = some x := hx
        split at hx
        · cases hx
        · exact hg.batch p x (by rw [hb]; exact hx)
      · intro p hp _ h2 h3 h4
        have h2 : (if p = d then none else b p) = none := h2
        have h4' : ∀ x ∈ s.queue, x.1.path ≠ p := fun x hx => h4 x (by
          rw [pend_watched (s := { s with run := .applying _, view := _ }) hwd]; exact hx)
        show s.view.del d p = s.fs p
        unfold Tree.del
        split
        · rename_i hpre
          rw [hw.quiet h3 h4']
          by_cases hpd : d = p
          · subst hpd; exact hbase.symm
          · exact (hw.baseWf.below_none hnil (below_iff.mpr ⟨hpre, hpd⟩) (by rw [hbase]; simp)).symm
        · rename_i hpre
          have hpd : p ≠ d := by rintro rfl; exact hpre List.prefix_rfl
          rw [if_neg hpd] at h2
          exact hg.same p hp (by rw [hr]; trivial) (by rw [hb]; exact h2) h3 (by rw [pend_watched hwd]; exact h4')
  · intro _ h1; rcases h1 with h1 | ⟨b, h1⟩ <;> cases h1

theorem inv_applyPut {s : State ν α} (h : Inv s) {b : FileMap ν α} {d : Path ν} {a : Act} {e : Entry α} (hr : s.run = .applying b)
    (hdel : ∀ q e', b q ≠ some (.deleted, e')) (hd : b d = some (a, e)) :
    Inv { s with run := .applying fun q => if q = d then none else b q, view := s.view.put d e } := by
  have hst := h.begun (by rw [hr]; simp) (by rw [hr]; simp)
  have hb := batch_of_run (.inr hr)
  have hnil : d ≠ [] := by
    rintro rfl
    have := h.keysBatch; rw [hb, hd] at this; cases this
  refine { h with viewWf := put_wf h.viewWf hnil e, runStart := ?_, startTold := ?_, keysBatch := ?_, watch := ?_, good := ?_, pub := ?_ }
  · intro h1; rw [show s.started = false from h1] at hst; cases hst
  · intro h1; cases h1
  · have := h.keysBatch; rw [hb] at this
    show (if [] = d then none else b []) = none
    rw [if_neg hnil.symm]; exact this
  · intro h1; exact { h.watch h1 with }
  · by_cases he : Excused s
    · refine .inl ?_
      rcases he.applying (.inr (.inl hr)) with h1 | h1
      · exact Excused.of_lasting h1
      · exact .inr (.inr (.inr (.inr (.inr (.inr (.inr ⟨h1, rfl⟩))))))
    · have hg := h.good.resolve_left he
      have hwd : s.watched := by
        rcases h.phases he with h1 | h1
        · have := hg.told h1.1 d; rw [hb, hd] at this; cases this
        · exact h1
      have hw := h.watch hwd
      have hbase : s.base d = some e := by
        have := hg.batch d _ (by rw [hb]; exact hd)
        cases a with
        | deleted => exact absurd hd (hdel d e)
        | added => exact this
        | modified => exact this
      refine .inr { told := ?_, batch := ?_, same := ?_ }
      · intro ht p; have := hg.told ht p; rw [hb] at this
        show (if p = d then none else b p) = none
        split
        · rfl
        · exact this
      · intro p x hx
        have hx : (if p = d then none else b p) = some x := hx
        split at hx
        · cases hx
        · exact hg.batch p x (by rw [hb]; exact hx)
      · intro p hp _ h2 h3 h4
        have h2 : (if p = d then none else b p) = none := h2
        have h4' : ∀ x ∈ s.queue, x.1.path ≠ p := fun x hx => h4 x (by
          rw [pend_watched (s := { s with run := .applying _, view := _ }) hwd]; exact hx)
        have hq := hw.quiet h3 h4'
        have hold : p ≠ d → s.view p = s.fs p := by
          intro hpd
          rw [if_neg hpd] at h2
          exact hg.same p hp (by rw [hr]; trivial) (by rw [hb]; exact h2) h3 (by rw [pend_watched hwd]; exact h4')
        show s.view.put d e p = s.fs p
        by_cases h5 : d <+: p
        · by_cases hpd : d = p
          · subst hpd; rw [put_self, hq, hbase]
          · have hbl : Below d p := below_iff.mpr ⟨h5, hpd⟩
            rw [put_below hbl]
            split
            · exact hold fun h => hpd h.symm
            · rename_i hk
              refine Eq.symm ?_
              cases hfs : s.fs p with
              | none => rfl
              | some x =>
                exfalso
                have hbd := hw.baseWf.parent _ _ hnil hbl (by rw [← hq, hfs]; simp)
                rw [hbase] at hbd
                cases hbd
                have hvd := h.viewWf.parent _ _ hnil hbl (by rw [hold fun h => hpd h.symm, hfs]; simp)
                exact hk (kindAt_of_dir hvd)
        · by_cases h6 : p <+: d
          · have hbl : Below p d := below_iff.mpr ⟨h6, fun h => h5 (h ▸ List.prefix_rfl)⟩
            rw [put_above hbl hp, hq]
            exact (hw.baseWf.parent _ _ hp hbl (by rw [hbase]; simp)).symm
          · rw [put_other h5 (.inl h6)]
            exact hold fun h => h5 (h ▸ List.prefix_rfl)
  · intro _ h1; rcases h1 with h1 | ⟨b, h1⟩ <;> cases h1

theorem inv_updateEnds {s : State ν α} (h : Inv s) {b : FileMap ν α} (hr : s.run = .applying b) (hb : ∀ p, b p = none) :
    Inv { s with run := .waiting, saved := s.view, published := s.view } := by
  have hst := h.begun (by rw [hr]; simp) (by rw [hr]; simp)
  refine { h with savedWf := h.viewWf, runStart := ?_, startTold := ?_, keysBatch := rfl, watch := ?_, good := ?_, pub := fun _ _ => rfl }
  · intro h1; rw [show s.started = false from h1] at hst; cases hst
  · intro h1; cases h1
  · intro h1; exact { h.watch h1 with }
  · rcases h.good with hg | hg
    · refine .inl ?_
      rcases hg.applying (.inr (.inl hr)) with h1 | h1
      · exact Excused.of_lasting h1
      · exact .inr (.inr (.inr (.inr (.inr (.inr (.inr ⟨h1, rfl⟩))))))
    · refine .inr { told := fun _ _ => rfl, batch := ?_, same := ?_ }
      · intro p x hx; cases hx
      · intro p hp _ _ h3 h4
        exact hg.same p hp (by rw [hr]; trivial) (by rw [hr]; exact hb p) h3 h4

theorem inv_step {zero : α} {s s' : State ν α} (h : Inv s) {k : Kind} (hs : Step zero k s s') (hk : k = .clean) : Inv s' := by
  cases hs with
  | change hc hk' =>
    refine inv_change h hc fun hn => ?_
    rw [if_pos hn] at hk'; rw [hk'] at hk; cases hk
  | move hc hk' =>
    by_cases hn : s.wphase = .told ∧ s.first = false
    · rw [if_pos hn] at hk'; rw [hk'] at hk; cases hk
    · rw [if_neg hn] at hk'
      refine inv_move h hc hn fun hw => ?_
      rw [if_pos hw] at hk'; rw [hk'] at hk; cases hk
  | replace ht => exact inv_replace h ht
  | opens hp => exact inv_opens h hp
  | openFails hp _ => exact inv_openFails h hp
  | tell hp _ => exact inv_tell h hp
  | register hp => exact inv_register h hp
  | registerFails hp => exact inv_registerFails h hp
  | fetch hp hq he => exact inv_fetch h hp hq he
  | fetchErased => cases hk
  | notify hp _ => exact inv_notify h hp
  | lose hp => exact inv_lose h hp
  | clear hp => exact inv_clear h hp
  | start hr hs => exact inv_start h hr hs
  | startFails => exact inv_stop h
  | scanDir hr hd => exact inv_scanDir h hr hd
  | scanDirFails => cases hk
  | chunk hu hv hf => exact inv_set h hu hv (.inr hf)
  | chunkFails hu hv hk' =>
    refine inv_set h hu hv (.inl ?_)
    split at hk'
    · assumption
    · rw [hk'] at hk; cases hk
  | push hu => exact inv_push h hu _
  | scanEnds hr hd => exact inv_scanEnds h hr hd
  | scanRestarts hr => exact inv_scanRestarts h hr
  | scanFails hr => exact inv_scanFails h hr
  | rescan hr _ => exact inv_rescan h hr
  | take hr _ _ => exact inv_take h hr
  | takenNothing hr hb => exact inv_takenNothing h hr hb
  | takenSome hr _ => exact inv_takenSome h hr
  | applyDelete hr hd => exact inv_applyDelete h hr hd
  | applyPut hr hdel hd => exact inv_applyPut h hr hdel hd
  | updateEnds hr hb => exact inv_updateEnds h hr hb
  | updateFails => cases hk
  | shutdown => exact inv_stop h

theorem Reach.inv {zero : α} {s : State ν α} (h : Reach zero (· = .clean) s) : Inv s := by
  induction h with
  | init hi => exact inv_init hi
  | step _ hk hs ih => exact inv_step ih hs hk

/-- C74 (the part that holds): as long as no directory is moved with its contents, no known file is taken for a temporary one, no
change falls between the callback and the first `ReadDirectoryChangesExW`, everything can be read and no `Update` fails, the
published manifest shows the streamed directory whenever watcher and runner have nothing to do - whatever the order in which directory,
watcher and runner take their steps, and however often the directory is deleted and created or notifications are lost. -/
theorem C74_catches_up_partial : CatchesUp ν α (· = .clean) := by
  intro zero s h hi p
  have hinv := h.inv
  have hmap := C73_no_lost_wakeup h hi.filesChanged (by rw [hi.wphase]; simp)
  rw [hinv.pub hi.scanOk (.inl hi.run)]
  by_cases hp : p = []
  · subst hp; rw [hinv.viewWf.root, hinv.fsWf.root]
  rcases hinv.good with hg | hg
  · exfalso
    rcases hg.applying (b := .empty) (.inr (.inr hi.run)) with h1 | h1
    · rcases h1 with h1 | h1 | h1 | h1 | h1
      · rw [hi.dirRecreated] at h1; cases h1
      · rw [hi.wphase] at h1; cases h1
      · rw [hi.wphase] at h1; cases h1
      · rw [hi.wphase] at h1; cases h1
      · rw [hi.gone] at h1; cases h1
    · rw [hi.scanOk] at h1; cases h1
  · refine hg.same p hp (by rw [hi.run]; trivial) (by rw [hi.run]; rfl) (hmap p) ?_
    rw [pend_watched ⟨.inl hi.wphase, hi.gone⟩, hi.queue]
    intro x hx; cases hx

end Verif.Watch
