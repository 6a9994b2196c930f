import Verif.Updater.Scan

/-! # C31, C55: theorems about scanning a directory -/
namespace Verif.Updater
open Verif.Manifest

section
variable {cfg : Cfg}

theorem Rest.refl (dir : Manifest.Asset) (w : Work) : Rest dir dir w w cfg := ⟨rfl, rfl, rfl, fun _ _ => rfl⟩

theorem Rest.trans {d1 d2 d3 : Manifest.Asset} {w1 w2 w3 : Work} (h : Rest d1 d2 w1 w2 cfg) (g : Rest d2 d3 w2 w3 cfg) :
    Rest d1 d3 w1 w3 cfg :=
  ⟨g.info.trans h.info, g.ids.trans h.ids, g.store.trans h.store, fun i hi => by rw [g.lists i (by rw [h.ids]; exact hi), h.lists i hi]⟩

/-- The entries after the deletions. -/
def afterDel (ops : List Oper) (V : Name → Option Manifest.Asset) (n : Name) : Option Manifest.Asset :=
  if ops.any (fun o => match o with | .delete i => i.name == n | _ => false) then none else V n

theorem applyDeletes_shows (ops : List Oper) {s : St} {V} (h : Shows cfg s.dir s.w V) :
    ∃ s', applyDeletes cfg ops s = .ok s' ∧ Shows cfg s'.dir s'.w (afterDel ops V) ∧ s'.queued = s.queued ∧ Rest s.dir s'.dir s.w s'.w cfg := by
  induction ops generalizing s V with
  | nil => exact ⟨s, rfl, h, rfl, .refl _ _⟩
  | cons o ops ih =>
    cases o with
    | delete i =>
      obtain ⟨d, w, r, h1, h2, h3⟩ := delete_shows h i.name
      obtain ⟨s', g1, g2, g3, g4⟩ := ih (s := { s with dir := d, w := w }) h2
      refine ⟨s', by simp only [applyDeletes]; rw [h1]; exact g1, ?_, g3, h3.trans g4⟩
      have : afterDel ops (upd V i.name none) = afterDel (.delete i :: ops) V := by
        funext n
        unfold afterDel upd
        rw [List.any_cons]
        by_cases hn : n = i.name
        · simp [hn]
        · have : (i.name == n) = false := by simpa using Ne.symm hn
          simp only [this, Bool.false_or]; rw [if_neg hn]
      rw [← this]; exact g2
    | add i => exact ih h
    | update i => exact ih h
    | keep i => exact ih h

@[simp] theorem setters_name (rec : Bool) (i : Info) (a : Manifest.Asset) : (setters rec i a).name = a.name := by
  simp only [setters, Manifest.Asset.name_mk]
  split
  · rfl
  · split <;> rfl

/-- The entries after additions and updates. -/
def afterAdd (cfg : Cfg) (ops : List Oper) (V : Name → Option Manifest.Asset) (n : Name) : Option Manifest.Asset :=
  match ops.find? (fun o => o.info.name == n) with
  | some (.add i) => some (setters true i (blank i))
  | some (.update i) => some (forced cfg i.kind n (setters true i) (V n))
  | _ => V n

/-- The assets queued. -/
def toQueue : Oper → Option Name
  | .add i => if i.kind = .file ∨ (i.kind = .directory ∧ true) then some i.name else none
  | .update i => if i.kind = .file ∨ (i.kind = .directory ∧ true) then some i.name else none
  | _ => none

theorem enqueue_eq (i : Info) (q : List Name) :
    enqueue i true q = q ++ (if i.kind = .file ∨ (i.kind = .directory ∧ true) then some i.name else none).toList := by
  unfold enqueue; split <;> simp

theorem toList_filterMap (o : Oper) (ops : List Oper) : (toQueue o).toList ++ ops.filterMap toQueue = (o :: ops).filterMap toQueue := by
  rw [List.filterMap_cons]
  cases toQueue o <;> rfl

theorem toQueue_some {o : Oper} {n : Name} (h : toQueue o = some n) : n = o.info.name ∧ ∃ i, o = .add i ∨ o = .update i := by
  have key : ∀ i : Info, (if i.kind = .file ∨ (i.kind = .directory ∧ true) then some i.name else none) = some n → n = i.name := by
    intro i hi
    split at hi
    · exact (Option.some.inj hi).symm
    · cases hi
  cases o with
  | add i => exact ⟨key i h, i, .inl rfl⟩
  | update i => exact ⟨key i h, i, .inr rfl⟩
  | keep => cases h
  | delete => cases h

theorem afterAdd_cons {o : Oper} {ops : List Oper} {V V' : Name → Option Manifest.Asset}
    (hn : o.info.name ∉ ops.map fun o => o.info.name) (h1 : afterAdd cfg [o] V o.info.name = V' o.info.name)
    (h2 : ∀ n, n ≠ o.info.name → V' n = V n) : afterAdd cfg ops V' = afterAdd cfg (o :: ops) V := by
  funext n
  by_cases hno : n = o.info.name
  · subst hno
    have hf : ops.find? (fun x => x.info.name == o.info.name) = none := by
      rw [List.find?_eq_none]
      intro x hx e
      exact hn (List.mem_map.mpr ⟨x, hx, by simpa using e⟩)
    have : afterAdd cfg ops V' o.info.name = V' o.info.name := by unfold afterAdd; rw [hf]
    rw [this, ← h1]
    unfold afterAdd
    rw [List.find?_cons, List.find?_cons]; simp
  · unfold afterAdd
    rw [List.find?_cons]
    have : (o.info.name == n) = false := by simpa using Ne.symm hno
    rw [this, h2 n hno]

theorem applyAdds_shows (ops : List Oper) {s : St} {V} (h : Shows cfg s.dir s.w V) (hn : (ops.map fun o => o.info.name).Nodup)
    (ha : ∀ i, .add i ∈ ops → V i.name = none) :
    ∃ s', applyAdds cfg true ops s = .ok s' ∧ Shows cfg s'.dir s'.w (afterAdd cfg ops V) ∧
      s'.queued = s.queued ++ ops.filterMap toQueue ∧ Rest s.dir s'.dir s.w s'.w cfg := by
  induction ops generalizing s V with
  | nil => exact ⟨s, rfl, h, by simp, .refl _ _⟩
  | cons o ops ih =>
    rw [List.map_cons, List.nodup_cons] at hn
    have hne : ∀ i, .add i ∈ ops → i.name ≠ o.info.name := fun i hi e =>
      hn.1 (e ▸ List.mem_map.mpr ⟨.add i, hi, rfl⟩)
    cases o with
    | add i =>
      have hname : (setters true i (blank i)).name = i.name := by rw [setters_name]; rfl
      have h1 := append_shows h (setters true i (blank i)) (by rw [hname]; exact ha i (by simp))
      rw [hname] at h1
      obtain ⟨s', g1, g2, g3, g4⟩ := ih (s := ⟨_, s.w, enqueue i true s.queued⟩) h1 hn.2
        (fun j hj => by unfold upd; rw [if_neg (show ¬ j.name = i.name from hne j hj)]; exact ha j (by simp [hj]))
      refine ⟨s', g1, ?_, ?_, Rest.trans (d2 := .mk s.dir.info (s.dir.children ++ [setters true i (blank i)]) s.dir.indirect)
        (w2 := s.w) ⟨rfl, rfl, rfl, fun _ _ => rfl⟩ g4⟩
      · rw [← afterAdd_cons (cfg := cfg) (o := .add i) (V := V) (V' := upd V i.name (some (setters true i (blank i)))) hn.1
          (by simp [afterAdd, upd, Oper.info]) (fun n hnn => by unfold upd; exact if_neg hnn)]
        exact g2
      · rw [g3]
        dsimp only
        rw [enqueue_eq, List.append_assoc]
        congr 1
        exact toList_filterMap (.add i) _
    | update i =>
      obtain ⟨d, w, r, h1, h2, h3⟩ := inAsset_shows h i.kind i.name (setters true i) (fun a => setters_name _ _ _)
      obtain ⟨s', g1, g2, g3, g4⟩ := ih (s := ⟨d, w, enqueue i true s.queued⟩) h2 hn.2
        (fun j hj => by unfold upd; rw [if_neg (show ¬ j.name = i.name from hne j hj)]; exact ha j (by simp [hj]))
      refine ⟨s', by simp only [applyAdds]; rw [h1]; exact g1, ?_, ?_, h3.trans g4⟩
      · rw [← afterAdd_cons (cfg := cfg) (o := .update i) (V := V) (V' := upd V i.name (some (forced cfg i.kind i.name (setters true i) (V i.name)))) hn.1
          (by simp [afterAdd, upd, Oper.info]) (fun n hnn => by unfold upd; exact if_neg hnn)]
        exact g2
      · rw [g3]
        dsimp only
        rw [enqueue_eq, List.append_assoc]
        congr 1
        exact toList_filterMap (.update i) _
    | delete i =>
      obtain ⟨s', g1, g2, g3, g4⟩ := ih h hn.2 fun j hj => ha j (by simp [hj])
      refine ⟨s', g1, ?_, g3, g4⟩
      rw [← afterAdd_cons (cfg := cfg) (o := .delete i) (V := V) (V' := V) hn.1 (by simp [afterAdd, Oper.info]) (fun _ _ => rfl)]
      exact g2
    | keep i =>
      obtain ⟨s', g1, g2, g3, g4⟩ := ih h hn.2 fun j hj => ha j (by simp [hj])
      refine ⟨s', g1, ?_, g3, g4⟩
      rw [← afterAdd_cons (cfg := cfg) (o := .keep i) (V := V) (V' := V) hn.1 (by simp [afterAdd, Oper.info]) (fun _ _ => rfl)]
      exact g2

/-- The entries of a directory in the lists that can be read. -/
def present (cfg : Cfg) (store : List Stored) (dir : Manifest.Asset) : List Manifest.Asset :=
  dir.children ++ (dir.indirect.filterMap (findAssets cfg.hash store)).flatten

/-- The builder has not changed any list of the directory in memory. -/
def AsStored (cfg : Cfg) (dir : Manifest.Asset) (w : Work) : Prop :=
  ∀ id ∈ dir.indirect, ∀ l, w.lists.find id = some l → findAssets cfg.hash w.store id = some l

theorem flat_filter {get get' : Id → Option (List Manifest.Asset)} (ids : List Id) (h : ∀ id ∈ ids, (get id).isSome → get' id = get id) :
    flatAssets get' (ids.filter fun id => (get id).isSome) = some (ids.filterMap get).flatten := by
  induction ids with
  | nil => rfl
  | cons id ids ih =>
    have ih := ih fun i hi => h i (by simp [hi])
    cases hg : get id with
    | none => rw [List.filter_cons_of_neg (by simp [hg]), List.filterMap_cons_none hg]; exact ih
    | some l =>
      rw [List.filter_cons_of_pos (by simp [hg]), List.filterMap_cons_some hg, List.flatten_cons]
      exact flat_mk (by rw [h id (by simp) (by simp [hg]), hg]) ih

theorem filterMap_filter_isSome (get : Id → Option (List Manifest.Asset)) (ids : List Id) :
    (ids.filter fun id => (get id).isSome).filterMap get = ids.filterMap get := by
  induction ids with
  | nil => rfl
  | cons id ids ih =>
    cases hg : get id with
    | none => rw [List.filter_cons_of_neg (by simp [hg]), List.filterMap_cons_none hg]; exact ih
    | some l => rw [List.filter_cons_of_pos (by simp [hg]), List.filterMap_cons_some hg, List.filterMap_cons_some hg, ih]

theorem same_iff {s : Info} {a : Manifest.Asset} (hk : s.kind = .file ∨ s.kind = .directory) :
    same s (infoOf a) = true ↔ s.kind = .file ∧ a.info.kind = .file ∧ a.info.mtime = s.mtime ∧ a.info.fileSize = s.size := by
  unfold same infoOf
  simp only [Bool.and_eq_true, Bool.or_eq_true, beq_iff_eq, bne_iff_ne, ne_eq]
  rcases hk with hk | hk
  · rw [hk]
    simp only [not_true_eq_false, false_or, reduceCtorEq, not_false_eq_true, and_true, true_and]
    constructor
    · rintro ⟨⟨h1, h2⟩, h3⟩
      rw [← h2] at h3 ⊢
      simp at h3
      exact ⟨rfl, h1.symm, h3.symm⟩
    · rintro ⟨h1, h2, h3⟩
      rw [h1]
      simp [h2, h3]
  · rw [hk]; simp

theorem setters_spec {s : Info} (hk : s.kind = .file ∨ s.kind = .directory) (a : Manifest.Asset) (ha : a.info.kind = s.kind) :
    let b := setters true s a
    b.info.kind = s.kind ∧ b.info.mtime = s.mtime ∧ (s.kind = .file → b.info.fileSize = s.size) ∧ b.info.inProgress = true ∧
    (s.kind = .file → b.info.chunks = [] ∧ b.info.indirect = []) ∧ b.children = a.children ∧ b.indirect = a.indirect := by
  unfold setters
  rcases hk with h | h
  · rw [h] at ha; simp [h, ha]
  · rw [h] at ha; simp [h, ha]

theorem upToDate_new {old : Option Manifest.Asset} {s : Info} (hk : s.kind = .file ∨ s.kind = .directory) {a : Manifest.Asset}
    (ha : a.info.kind = s.kind) {queued : Prop} (hq : queued) (hu : ¬ Unchanged old s)
    (hc : (∃ o, old = some o ∧ o.info.kind = s.kind ∧ a = o) ∨ ((∀ o, old = some o → o.info.kind ≠ s.kind) ∧ a.children = [] ∧ a.indirect = [])) :
    UpToDate old s (setters true s a) queued := by
  obtain ⟨h1, h2, h3, h4, h5, h6, h7⟩ := setters_spec hk a ha
  refine ⟨h1, h2, h3, fun h => absurd h hu, fun _ => ⟨hq, h4, h5⟩, fun hd => ?_⟩
  rw [h6, h7]
  rcases hc with ⟨o, g1, g2, g3⟩ | g
  · exact .inl ⟨o, g1, g2.trans hd, by rw [g3], by rw [g3]⟩
  · rw [hd] at g; exact .inr g

theorem forced_new {old : Option Manifest.Asset} {s : Info} (hk : s.kind = .file ∨ s.kind = .directory)
    {queued : Prop} (hq : queued) (hu : ¬ Unchanged old s) :
    UpToDate old s (forced cfg s.kind s.name (setters true s) old) queued := by
  cases old with
  | none => exact upToDate_new hk (a := newAsset cfg s.name s.kind) rfl hq hu (.inr ⟨by simp, rfl, rfl⟩)
  | some o =>
    unfold forced
    dsimp only
    split
    · rename_i h; exact upToDate_new hk h hq hu (.inl ⟨o, rfl, h, rfl⟩)
    · rename_i h
      exact upToDate_new hk (a := newAsset cfg s.name s.kind) rfl hq hu (.inr ⟨fun o' e => by cases e; exact h, rfl, rfl⟩)

/-- C31: scanning a directory and applying the result. `src` is what is on disk, the old entries are those in the lists that
can be read. It does not fail, and afterwards the directory has exactly the names on disk, each entry is up to date (see
`UpToDate`: files with equal type, time and size are left alone, all else is queued to be read again), nothing is queued
twice, and no list of another directory changes. -/
theorem C31_scan_brings_up_to_date (src : List Info) (dir : Manifest.Asset) (w : Work)
    (hdir : dir.info.kind = .directory) (hids : dir.indirect.Nodup) (hmem : AsStored cfg dir w)
    (hold : ((present cfg w.store dir).map Manifest.Asset.name).Nodup)
    (hsrc : (src.map Info.name).Nodup) (hkind : ∀ s ∈ src, s.kind = .file ∨ s.kind = .directory) :
    ∃ s es, scanAndApply cfg src dir w = .ok s ∧ entries (lookup cfg s.w) s.dir = some es ∧
      (es.map Manifest.Asset.name).Perm (src.map Info.name) ∧
      (∀ i ∈ src, ∀ a ∈ es, a.name = i.name →
        UpToDate ((present cfg w.store dir).find? fun o => o.name = i.name) i a (i.name ∈ s.queued)) ∧
      s.queued.Nodup ∧ (∀ n ∈ s.queued, n ∈ src.map Info.name) ∧
      s.dir.info = { dir.info with inProgress := false } ∧ s.w.store = w.store ∧
      (∀ id, id ∉ dir.indirect → lookup cfg s.w id = lookup cfg w id) := by
  let V : Name → Option Manifest.Asset := fun n => (present cfg w.store dir).find? (named n)
  have hM : Map (present cfg w.store dir) V := ⟨hold, fun _ => rfl⟩
  let man := (present cfg w.store dir).map infoOf
  have hman : (man.map Info.name).Nodup := by rw [List.map_map]; exact hold
  let ops := compareAssets (sortInfos src) (sortInfos man)
  have hs := sortInfos_sorted hsrc
  have hm := sortInfos_sorted hman
  have hdec : ∀ o, o ∈ ops ↔ Decided (sortInfos src) (sortInfos man) o := fun o => compare_decided hs hm
  have hmsrc : ∀ i, i ∈ sortInfos src ↔ i ∈ src := fun i => Util.mem_isort
  have hmman : ∀ i, i ∈ sortInfos man ↔ ∃ a ∈ present cfg w.store dir, infoOf a = i := fun i => by
    rw [show (i ∈ sortInfos man) ↔ i ∈ man from Util.mem_isort]; exact List.mem_map
  have hopsn := compare_nodup hs hm
  let dir1 := Manifest.Asset.mk dir.info dir.children (dir.indirect.filter fun id => (findAssets cfg.hash w.store id).isSome)
  have hscan : scan cfg src dir w.store = (dir1, ops) := by
    unfold scan
    dsimp only
    rw [filterMap_filter_isSome]
    rfl
  have hsh : Shows cfg dir1 w V := by
    refine ⟨hdir, hids.filter _, present cfg w.store dir, entries_some.mpr ⟨_, flat_filter dir.indirect fun id hid h => ?_, rfl⟩, hM⟩
    rw [lookup_def]
    cases hl : w.lists.find id with
    | none => rfl
    | some l => rw [hmem id hid l hl]; rfl
  obtain ⟨s1, h1, h2, hq1, h4⟩ := applyDeletes_shows ops (s := { dir := dir1, w := w }) hsh
  have hadd : ∀ i, .add i ∈ ops → afterDel ops V i.name = none := fun i hi => by
    unfold afterDel
    split
    · rfl
    · have := ((hdec _).mp hi).2
      show (present cfg w.store dir).find? (named i.name) = none
      rw [List.find?_eq_none]
      intro a ha e
      exact this (infoOf a) ((hmman _).mpr ⟨a, ha, rfl⟩) (show a.name = i.name by simpa [named] using e)
  obtain ⟨s2, g1, g2, g3, g4⟩ := applyAdds_shows ops h2 hopsn hadd
  obtain ⟨-, -, es, hes, hmap⟩ := g2
  have hrest := h4.trans g4
  refine ⟨{ s2 with dir := .mk { s2.dir.info with inProgress := false } s2.dir.children s2.dir.indirect }, es, ?_, hes, ?_, ?_, ?_, ?_, ?_, ?_, ?_⟩
  · unfold scanAndApply
    rw [hscan]
    dsimp only
    rw [h1]
    dsimp only
    rw [g1]
  all_goals
    have hfind : ∀ o ∈ ops, ops.find? (fun x => x.info.name == o.info.name) = some o := fun o ho => by
      have hinj : ∀ x ∈ ops, x.info.name = o.info.name → x = o := fun x hx e => List.inj_on_of_nodup_map hopsn hx ho e
      cases hf : ops.find? (fun x => x.info.name == o.info.name) with
      | none => exact absurd (by simp) (List.find?_eq_none.mp hf o ho)
      | some x =>
        rw [hinj x (List.mem_of_find?_eq_some hf) (by simpa using List.find?_some hf)]
    have hkeep : ∀ n, (∀ i, .delete i ∈ ops → i.name ≠ n) → afterDel ops V n = V n := fun n hn => by
      unfold afterDel
      rw [if_neg]
      intro h
      obtain ⟨o, ho, h⟩ := List.any_eq_true.mp h
      cases o with
      | delete i => exact hn i ho (by simpa using h)
      | add => cases h
      | update => cases h
      | keep => cases h
    have hnodel : ∀ i ∈ src, ∀ d, .delete d ∈ ops → d.name ≠ i.name := fun i hi d hd e =>
      ((hdec _).mp hd).2 i ((hmsrc i).mpr hi) e.symm
    -- the decision for a file on disk
    have hcase : ∀ i ∈ src, ∃ a, afterAdd cfg ops (afterDel ops V) i.name = some a ∧
        UpToDate (V i.name) i a (i.name ∈ s2.queued) := by
      intro i hi
      have hq : ∀ o, o ∈ ops → toQueue o = some i.name → i.name ∈ s2.queued := fun o ho e => by
        rw [g3]; exact List.mem_append_right _ (List.mem_filterMap.mpr ⟨o, ho, e⟩)
      have hk := hkind i hi
      have hkq : i.kind = .file ∨ (i.kind = .directory ∧ true) := hk.imp_right fun h => ⟨h, rfl⟩
      cases hv : V i.name with
      | none =>
        have hin : .add i ∈ ops := (hdec _).mpr ⟨(hmsrc i).mpr hi, fun m hm e => by
          obtain ⟨a, ha, rfl⟩ := (hmman m).mp hm
          have := hM.mem.mp ha
          rw [show a.name = i.name from e, hv] at this; cases this⟩
        refine ⟨setters true i (blank i), ?_, ?_⟩
        · have hf : ops.find? (fun x => x.info.name == i.name) = some (.add i) := hfind _ hin
          unfold afterAdd; rw [hf]
        · exact upToDate_new hk (a := blank i) rfl (hq _ hin (if_pos hkq))
            (by rintro ⟨-, o, ho, -⟩; cases ho) (.inr ⟨by simp, rfl, rfl⟩)
      | some o =>
        have hoe := hM.mem.mpr (by rw [hM.name hv]; exact hv)
        have hon : o.name = i.name := hM.name hv
        have hu : Unchanged (some o) i ↔ same i (infoOf o) = true := by
          rw [same_iff hk]
          unfold Unchanged
          simp
        cases hsame : same i (infoOf o) with
        | true =>
          have hin : .keep (infoOf o) ∈ ops := (hdec _).mpr ⟨(hmman _).mpr ⟨o, hoe, rfl⟩, i, (hmsrc i).mpr hi, hon.symm, hsame⟩
          have hun := hu.mpr hsame
          obtain ⟨hfile, o', ho', h1, h2, h3⟩ := hun
          cases ho'
          refine ⟨o, ?_, ⟨h1.trans hfile.symm, h2, fun _ => h3, fun _ => ⟨rfl, fun hqq => ?_⟩, fun hnu => absurd (hu.mpr hsame) hnu,
            fun hd => by rw [hfile] at hd; cases hd⟩⟩
          · have hf : ops.find? (fun x => x.info.name == i.name) = some (.keep (infoOf o)) := by
              have := hfind _ hin
              rw [show (Oper.keep (infoOf o)).info.name = i.name from hon] at this
              exact this
            unfold afterAdd; rw [hf]
            dsimp only
            rw [hkeep _ (hnodel i hi), hv]
          · rw [g3, hq1] at hqq
            obtain ⟨x, hx, e⟩ := List.mem_filterMap.mp (by simpa using hqq)
            have hxn : x.info.name = i.name := (toQueue_some e).1.symm
            have := List.inj_on_of_nodup_map hopsn hx hin (hxn.trans hon.symm)
            rw [this] at e; cases e
        | false =>
          have hin : .update i ∈ ops := (hdec _).mpr ⟨(hmsrc i).mpr hi, infoOf o, (hmman _).mpr ⟨o, hoe, rfl⟩, hon, hsame⟩
          refine ⟨_, ?_, forced_new (cfg := cfg) hk (hq _ hin (if_pos hkq)) (by rw [hu, hsame]; simp)⟩
          have hf : ops.find? (fun x => x.info.name == i.name) = some (.update i) := hfind _ hin
          unfold afterAdd; rw [hf]
          dsimp only
          rw [hkeep _ (hnodel i hi), hv]
  · rw [List.perm_ext_iff_of_nodup hmap.nodup hsrc]
    intro n
    constructor
    · intro hn
      obtain ⟨a, ha, rfl⟩ := List.mem_map.mp hn
      have hv := hmap.mem.mp ha
      by_contra hno
      have hno' : ∀ i ∈ src, i.name ≠ a.name := fun i hi e => hno (List.mem_map.mpr ⟨i, hi, e⟩)
      have hnone : afterDel ops V a.name = none := by
        cases hva : V a.name with
        | none => unfold afterDel; split <;> first | rfl | exact hva
        | some o =>
          have hoe := hM.mem.mpr (by rw [hM.name hva]; exact hva)
          have : .delete (infoOf o) ∈ ops := (hdec _).mpr ⟨(hmman _).mpr ⟨o, hoe, rfl⟩, fun i hi e =>
            hno' i ((hmsrc i).mp hi) (e.trans (hM.name hva))⟩
          unfold afterDel
          rw [if_pos (List.any_eq_true.mpr ⟨_, this, by simpa using (show (infoOf o).name = a.name from hM.name hva)⟩)]
      unfold afterAdd at hv
      cases hf : ops.find? (fun x => x.info.name == a.name) with
      | none => rw [hf, hnone] at hv; cases hv
      | some o =>
        have ho := List.mem_of_find?_eq_some hf
        have hon : o.info.name = a.name := by simpa using List.find?_some hf
        have hd := (hdec o).mp ho
        cases o with
        | add i => exact hno' i ((hmsrc i).mp hd.1) hon
        | update i => exact hno' i ((hmsrc i).mp hd.1) hon
        | delete i => rw [hf] at hv; dsimp only at hv; rw [hnone] at hv; cases hv
        | keep i => rw [hf] at hv; dsimp only at hv; rw [hnone] at hv; cases hv
    · intro hn
      obtain ⟨i, hi, rfl⟩ := List.mem_map.mp hn
      obtain ⟨a, ha, -⟩ := hcase i hi
      have hnm := hmap.name ha
      exact List.mem_map.mpr ⟨a, hmap.mem.mpr (by rw [hnm]; exact ha), hnm⟩
  · intro i hi a ha hai
    obtain ⟨b, hb, hu⟩ := hcase i hi
    have := hmap.mem.mp ha
    rw [hai, hb] at this
    cases this
    have hVe : V i.name = (present cfg w.store dir).find? fun o => decide (o.name = i.name) := by
      show List.find? (named i.name) _ = _
      congr 1
      funext o
      rw [Bool.eq_iff_iff]; simp [named]
    rw [← hVe]; exact hu
  · rw [show ({ s2 with dir := _ } : St).queued = s2.queued from rfl, g3, hq1]
    simp only [List.nil_append]
    have hsub : (ops.filterMap toQueue).Sublist (ops.map fun o => o.info.name) := by
      clear * -
      generalize ops = l
      induction l with
      | nil => exact .slnil
      | cons o l ih =>
        rw [List.filterMap_cons, List.map_cons]
        cases hq : toQueue o with
        | none => exact ih.cons _
        | some n =>
          have : n = o.info.name := (toQueue_some hq).1
          rw [this]; exact ih.cons_cons _
    exact hopsn.sublist hsub
  · intro n hn
    have hn : n ∈ s2.queued := hn
    rw [g3, hq1] at hn
    obtain ⟨x, hx, e⟩ := List.mem_filterMap.mp (by simpa using hn)
    have hd := (hdec x).mp hx
    obtain ⟨rfl, j, rfl | rfl⟩ := toQueue_some e
    · exact List.mem_map.mpr ⟨j, (hmsrc j).mp hd.1, rfl⟩
    · exact List.mem_map.mpr ⟨j, (hmsrc j).mp hd.1, rfl⟩
  · show ({ s2.dir.info with inProgress := false } : Meta) = _
    rw [hrest.info]; rfl
  · exact hrest.store
  · intro id hid
    exact hrest.lists id fun h => hid (List.mem_filter.mp h).1

/-- C55: what an update should do. After a scan every chunk list of a file in the directory is in the store, or the file is queued
to be read again. -/
def RepairsFiles : Prop :=
  ∀ (cfg : Cfg) (src : List Info) (dir : Manifest.Asset) (w : Work) (s : St) (es : List Manifest.Asset),
    dir.info.kind = .directory → dir.indirect.Nodup → AsStored cfg dir w →
    ((present cfg w.store dir).map Manifest.Asset.name).Nodup → (src.map Info.name).Nodup →
    (∀ s ∈ src, s.kind = .file ∨ s.kind = .directory) →
    scanAndApply cfg src dir w = .ok s → entries (lookup cfg s.w) s.dir = some es →
    ∀ a ∈ es, a.name ∈ s.queued ∨ ∀ i ∈ a.info.indirect, (findChunks cfg.hash s.w.store i.listId).isSome

/-- C55, partial: missing lists of directory entries are repaired. Indirect asset lists that cannot be read are dropped from the
directory, every name on disk is in the directory afterwards, and whatever was in a missing list is queued to be read
again. Missing: files with a missing chunk list, for which it is false (see below). -/
theorem C55_missing_entries_repaired_partial (src : List Info) (dir : Manifest.Asset) (w : Work)
    (hdir : dir.info.kind = .directory) (hids : dir.indirect.Nodup) (hmem : AsStored cfg dir w)
    (hold : ((present cfg w.store dir).map Manifest.Asset.name).Nodup)
    (hsrc : (src.map Info.name).Nodup) (hkind : ∀ s ∈ src, s.kind = .file ∨ s.kind = .directory) :
    ∃ s es, scanAndApply cfg src dir w = .ok s ∧ entries (lookup cfg s.w) s.dir = some es ∧
      (es.map Manifest.Asset.name).Perm (src.map Info.name) ∧
      ∀ i ∈ src, (∀ a ∈ present cfg w.store dir, a.name ≠ i.name) → i.name ∈ s.queued := by
  obtain ⟨s, es, h1, h2, h3, h4, -⟩ := C31_scan_brings_up_to_date src dir w hdir hids hmem hold hsrc hkind
  refine ⟨s, es, h1, h2, h3, fun i hi hn => ?_⟩
  obtain ⟨a, ha, e⟩ := List.mem_map.mp (h3.mem_iff.mpr (List.mem_map.mpr ⟨i, hi, rfl⟩))
  refine ((h4 i hi a ha e).redone ?_).1
  rintro ⟨-, o, ho, -⟩
  exact hn o (List.mem_of_find?_eq_some ho) (by simpa using List.find?_some ho)

end

namespace ScanExample

def cfg : Cfg := ⟨1000, fun p => match p with | .assets _ => [1] | .chunks _ => [2] | .manifest _ => [3], fun l => l, 0⟩
def file (n : UInt8) (mtime : Int) (size : Nat) : Manifest.Asset :=
  .mk { name := [n], kind := .file, mtime := mtime, fileSize := size, chunks := [⟨0, [n]⟩] } [] []
def stored : List Manifest.Asset := [file 5 10 7, file 6 10 7, .mk { name := [7], kind := .directory } [file 1 1 1] []]
def store : List Stored := [.assets stored]
/-- A directory with direct entries, a list in the store and a list that is missing. -/
def dir : Manifest.Asset := .mk { name := [9], kind := .directory } [file 3 10 7, file 4 10 7] [[1], [8]]
/-- On disk: 3 unchanged, 4 deleted, 5 with another size, 6 now a directory, 7 a directory, 8 new. -/
def src : List Info := [⟨[8], .file, 11, 5⟩, ⟨[3], .file, 10, 7⟩, ⟨[5], .file, 10, 8⟩, ⟨[6], .directory, 10, 0⟩, ⟨[7], .directory, 12, 0⟩]

/-- The hypotheses of C31 hold and the result is as expected: all but 3 are queued. -/
example : dir.info.kind = .directory ∧ dir.indirect.Nodup ∧ AsStored cfg dir ⟨[], store⟩ ∧
    ((present cfg store dir).map Manifest.Asset.name).Nodup ∧ (src.map Info.name).Nodup ∧
    (∀ s ∈ src, s.kind = .file ∨ s.kind = .directory) ∧
    (match scanAndApply cfg src dir ⟨[], store⟩ with
      | .ok s => (s.queued, (entries (lookup cfg s.w) s.dir).map fun es => es.map fun a => (a.name, a.info.inProgress))
      | .error _ => ([], none)) =
    ([[5], [6], [7], [8]], some [([3], false), ([6], true), ([8], true), ([5], true), ([7], true)]) := by
  refine ⟨rfl, by decide, (by intro _ _ l h; cases h), by decide, by decide, by decide, by decide +kernel⟩

/-- A file whose only chunk list is missing. -/
def broken : Manifest.Asset := .mk { name := [3], kind := .file, mtime := 10, fileSize := 7, indirect := [⟨0, [2]⟩] } [] []
def brokenDir : Manifest.Asset := .mk { name := [9], kind := .directory } [broken] []

/-- C55 is violated: the warning in manifest_updater.cc:298-303 says that a file with a missing chunk list will be updated from
disk, but `CompareAssets` only looks at type, time and size (374-377), so the file is kept with its dangling reference. -/
theorem C55_missing_chunks_repaired_violated : ¬ RepairsFiles := by
  intro h
  have := h cfg [⟨[3], .file, 10, 7⟩] brokenDir ⟨[], []⟩ ⟨brokenDir, ⟨[], []⟩, []⟩ [broken] rfl (by decide)
    (fun _ _ l h => by cases h) (by decide) (by decide) (by decide) (by with_unfolding_all rfl) rfl broken (by simp)
  rcases this with h | h
  · cases h
  · have := h ⟨0, [2]⟩ (by simp [broken])
    cases this

end ScanExample
end Verif.Updater
