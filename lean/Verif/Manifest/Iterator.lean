import Verif.Manifest.Dirs

/-! # C29: `ManifestIterator` (manifest/manifest_iterator.cc)

The relative path is modelled as the list of names that `UpdateRelPath` joins with `path::AppendUnix` (the first
of them is that of the root directory, which is empty). `last_opened_dir_` is a pointer to a list node that may
have been freed; its address can be reused for a new node, so nodes carry an address chosen by an arbitrary
allocator. -/
namespace Verif.Manifest.Iter

/-- `OpenedDirectory`, manifest_iterator.cc:32-57. -/
structure Frame where
  addr : Nat
  dir : Asset
  list : Option (List Asset) := none
  nextAsset : Nat := 0
  nextList : Nat := 0
  nextListAsset : Nat := 0

/-- `ManifestIterator`, manifest_iterator.h:87-92; the last node of `dirs_` is the first here. -/
structure State where
  dirs : List Frame
  last : Option Nat := none
  relPath : List Name := []
  ok : Bool := true

/-- The allocator picks the address for a new node. -/
abbrev Alloc := State → Nat

/-- `Open`, manifest_iterator.cc:66-71, for a manifest that could be read. -/
def open_ (addr : Nat) (root : Asset) : State := { dirs := [{ addr := addr, dir := root }] }

/-- The names of the opened directories, the root first. -/
def pathOf (dirs : List Frame) : List Name := (dirs.map fun f => f.dir.name).reverse

/-- `UpdateRelPath`, manifest_iterator.cc:108-115. -/
def updateRelPath (s : State) (od : Frame) : State :=
  if s.last = some od.addr then s else { s with relPath := pathOf s.dirs, last := some od.addr }

/-- `MutableAsset`, manifest_iterator.cc:100-106, after the index was incremented. -/
def visit (alloc : Alloc) (s : State) (a : Asset) : State :=
  if a.info.kind = .directory then { s with dirs := { addr := alloc s, dir := a } :: s.dirs } else s

inductive Outcome where
  /-- an asset is returned -/
  | entry (a : Asset) (s : State)
  /-- `nullptr` is returned -/
  | stop (s : State)
  /-- the loop goes on -/
  | again (s : State)

/-- One iteration of the loop in `NextEntry`, manifest_iterator.cc:117-154. -/
def iterate (get : Id → Option (List Asset)) (alloc : Alloc) (s : State) : Outcome :=
  match s.dirs with
  | [] => .stop s
  | od :: rest =>
    if s.ok = false then .stop s
    else
      let s := updateRelPath s od
      match od.dir.children[od.nextAsset]? with
      | some a => .entry a (visit alloc { s with dirs := { od with nextAsset := od.nextAsset + 1 } :: rest } a)
      | none =>
        match od.list.bind fun l => l[od.nextListAsset]? with
        | some a => .entry a (visit alloc { s with dirs := { od with nextListAsset := od.nextListAsset + 1 } :: rest } a)
        | none =>
          match od.dir.indirect[od.nextList]? with
          | some id =>
            match get id with
            | some l => .again { s with dirs := { od with nextList := od.nextList + 1, list := some l, nextListAsset := 0 } :: rest }
            | none => .stop { s with ok := false, dirs := { od with nextList := od.nextList + 1, nextListAsset := 0 } :: rest }
          | none => .again { s with dirs := rest }

/-- Calling `NextEntry` until it returns `nullptr`: what `RelativePath()` and `NextEntry()` returned in each call, and
`Status().ok()` at the end; `none` if there is too little fuel. -/
def collect (get : Id → Option (List Asset)) (alloc : Alloc) : (fuel : Nat) → State → Option (List (List Name × Asset) × Bool)
  | 0, _ => none
  | fuel + 1, s =>
    match iterate get alloc s with
    | .entry a s => (collect get alloc fuel s).map fun r => ((s.relPath, a) :: r.1, r.2)
    | .stop s => some ([], s.ok)
    | .again s => collect get alloc fuel s

/-! ### Specification -/

mutual
/-- `Walk get path dir out`: `out` lists everything below `dir` with the path of the directory it is in; `path` is the
path of `dir`. Each directory is followed by what is in it. -/
inductive Walk (get : Id → Option (List Asset)) : List Name → Asset → List (List Name × Asset) → Prop where
  | dir {path : List Name} {dir : Asset} {es : List Asset} {out} : entries get dir = some es → WalkL get path es out →
      Walk get path dir out

inductive WalkL (get : Id → Option (List Asset)) : List Name → List Asset → List (List Name × Asset) → Prop where
  | nil (path : List Name) : WalkL get path [] []
  | file {path : List Name} {a : Asset} {as : List Asset} {out} : a.info.kind ≠ .directory → WalkL get path as out →
      WalkL get path (a :: as) ((path, a) :: out)
  | dir {path : List Name} {a : Asset} {as : List Asset} {out out'} : a.info.kind = .directory →
      Walk get (path ++ [a.name]) a out → WalkL get path as out' → WalkL get path (a :: as) ((path, a) :: (out ++ out'))
end

/-- An allocator does not hand out the address of a node that is in use. -/
def Alloc.Fresh (alloc : Alloc) : Prop := ∀ s : State, ∀ f ∈ s.dirs, f.addr ≠ alloc s

/-! ### Proof -/

variable {get : Id → Option (List Asset)} {alloc : Alloc}

/-- What is left to visit in an opened directory. -/
def remaining (get : Id → Option (List Asset)) (f : Frame) : Option (List Asset) :=
  (flatAssets get (f.dir.indirect.drop f.nextList)).map fun r =>
    f.dir.children.drop f.nextAsset ++ (((f.list.getD []).drop f.nextListAsset) ++ r)

structure Inv (s : State) : Prop where
  ok : s.ok = true
  nodup : (s.dirs.map Frame.addr).Nodup
  path : ∀ f fs, f :: fs <:+ s.dirs → s.last = some f.addr → s.relPath = pathOf (f :: fs)

theorem addr_notin {s : State} {f : Frame} {fs : List Frame} (h : Inv s) (hd : s.dirs = f :: fs) :
    ∀ g ∈ fs, g.addr ≠ f.addr := by
  have := h.nodup
  rw [hd, List.map_cons, List.nodup_cons] at this
  intro g hg e
  exact this.1 (List.mem_map.mpr ⟨g, hg, e⟩)

/-- After `UpdateRelPath` and a change of the top frame. -/
theorem inv_update {s : State} {od : Frame} {rest : List Frame} (h : Inv s) (hd : s.dirs = od :: rest) (od' : Frame)
    (ha : od'.addr = od.addr) (hdir : od'.dir = od.dir) :
    Inv { updateRelPath s od with dirs := od' :: rest } ∧ (updateRelPath s od).relPath = pathOf (od :: rest) ∧
      (updateRelPath s od).last = some od.addr ∧ (updateRelPath s od).ok = true := by
  have hrel : (updateRelPath s od).relPath = pathOf (od :: rest) ∧ (updateRelPath s od).last = some od.addr ∧
      (updateRelPath s od).ok = true := by
    unfold updateRelPath
    split
    · rename_i he
      exact ⟨h.path od rest (by rw [hd]; exact List.suffix_rfl) he, he, h.ok⟩
    · refine ⟨by rw [← hd], rfl, h.ok⟩
  refine ⟨⟨hrel.2.2, ?_, ?_⟩, hrel⟩
  · have := h.nodup
    rw [hd] at this
    simpa [ha] using this
  · intro f fs hs hl
    dsimp only at hs hl ⊢
    rw [hrel.2.1] at hl
    simp only [Option.some.injEq] at hl
    rcases List.suffix_cons_iff.mp hs with e | hs
    · obtain ⟨rfl, rfl⟩ := List.cons.inj e
      rw [hrel.1]; simp [pathOf, hdir]
    · exact absurd hl.symm (addr_notin h hd f (hs.subset (by simp)))

theorem inv_visit (hf : alloc.Fresh) {s : State} {top : Frame} {rest : List Frame} (h : Inv s) (hd : s.dirs = top :: rest)
    (hl : s.last = some top.addr) (a : Asset) : Inv (visit alloc s a) := by
  unfold visit
  split
  · refine ⟨h.ok, ?_, ?_⟩
    · simp only [List.map_cons, List.nodup_cons]
      refine ⟨?_, h.nodup⟩
      intro hm
      obtain ⟨f, hf1, hf2⟩ := List.mem_map.mp hm
      exact hf s f hf1 hf2
    · intro f fs hs hl'
      dsimp only at hs hl' ⊢
      rcases List.suffix_cons_iff.mp hs with e | hs
      · obtain ⟨rfl, rfl⟩ := List.cons.inj e
        rw [hl] at hl'
        simp only [Option.some.injEq] at hl'
        exact absurd hl' (hf s top (by rw [hd]; simp))
      · exact h.path f fs hs hl'
  · exact h

theorem inv_pop {s : State} {od : Frame} {rest : List Frame} (h : Inv s) (hd : s.dirs = od :: rest) :
    Inv { s with dirs := rest } := by
  refine ⟨h.ok, ?_, ?_⟩
  · have := h.nodup
    rw [hd, List.map_cons, List.nodup_cons] at this
    exact this.2
  · intro f fs hs hl
    exact h.path f fs (hs.trans (by rw [hd]; exact List.suffix_cons _ _)) hl

theorem visit_relPath (s : State) (a : Asset) : (visit alloc s a).relPath = s.relPath := by
  unfold visit; split <;> rfl

theorem drop_eq_cons {α : Type} {l : List α} {n : Nat} {a : α} (h : l[n]? = some a) : l.drop n = a :: l.drop (n + 1) := by
  obtain ⟨h1, rfl⟩ := List.getElem?_eq_some_iff.mp h
  exact List.drop_eq_getElem_cons h1

theorem drop_eq_nil {α : Type} {l : List α} {n : Nat} (h : l[n]? = none) : l.drop n = [] := by
  rw [List.drop_eq_nil_iff]; exact List.getElem?_eq_none_iff.mp h

/-- What one iteration does, in terms of the remaining entries. -/
theorem iterate_cases (hf : alloc.Fresh) {s : State} {od : Frame} {rest : List Frame} (hi : Inv s) (hd : s.dirs = od :: rest) :
    (∃ a s' od', iterate get alloc s = .entry a (visit alloc s' a) ∧ Inv (visit alloc s' a) ∧ s'.relPath = pathOf s.dirs ∧
        s'.dirs = od' :: rest ∧ od'.dir = od.dir ∧ od'.nextList = od.nextList ∧
        ∀ es, remaining get od = some es ↔ ∃ es', es = a :: es' ∧ remaining get od' = some es') ∨
    (∃ s' od', iterate get alloc s = .again s' ∧ Inv s' ∧ s'.dirs = od' :: rest ∧ od'.dir = od.dir ∧
        remaining get od = remaining get od' ∧ od'.nextList = od.nextList + 1 ∧ od.nextList < od.dir.indirect.length) ∨
    (∃ s', iterate get alloc s = .again s' ∧ Inv s' ∧ s'.dirs = rest ∧ remaining get od = some []) ∨
    (∃ s', iterate get alloc s = .stop s' ∧ s'.ok = false ∧ remaining get od = none) := by
  unfold iterate
  rw [hd]
  dsimp only
  rw [if_neg (by rw [hi.ok]; simp)]
  cases h1 : od.dir.children[od.nextAsset]? with
  | some a =>
    left
    obtain ⟨i1, i2, i3, i4⟩ := inv_update hi hd { od with nextAsset := od.nextAsset + 1 } rfl rfl
    refine ⟨a, _, { od with nextAsset := od.nextAsset + 1 }, rfl, inv_visit hf i1 rfl i3 a, ?_, rfl, rfl, rfl, ?_⟩
    · rw [← i2]
    · intro es
      unfold remaining
      dsimp only
      rw [drop_eq_cons h1]
      constructor
      · intro h
        obtain ⟨r, hr, rfl⟩ := Option.map_eq_some_iff.mp h
        exact ⟨_, rfl, by rw [hr]; rfl⟩
      · rintro ⟨es', rfl, h⟩
        obtain ⟨r, hr, rfl⟩ := Option.map_eq_some_iff.mp h
        rw [hr]; rfl
  | none =>
    have hc := drop_eq_nil h1
    cases h2 : od.list.bind fun l => l[od.nextListAsset]? with
    | some a =>
      left
      obtain ⟨i1, i2, i3, i4⟩ := inv_update hi hd { od with nextListAsset := od.nextListAsset + 1 } rfl rfl
      refine ⟨a, _, { od with nextListAsset := od.nextListAsset + 1 }, rfl, inv_visit hf i1 rfl i3 a, ?_, rfl, rfl, rfl, ?_⟩
      · rw [← i2]
      · intro es
        obtain ⟨l, hl, h2⟩ := Option.bind_eq_some_iff.mp h2
        unfold remaining
        dsimp only
        rw [hc, hl]
        simp only [Option.getD_some, List.nil_append]
        rw [drop_eq_cons h2]
        constructor
        · intro h
          obtain ⟨r, hr, rfl⟩ := Option.map_eq_some_iff.mp h
          exact ⟨_, rfl, by rw [hr]; rfl⟩
        · rintro ⟨es', rfl, h⟩
          obtain ⟨r, hr, rfl⟩ := Option.map_eq_some_iff.mp h
          rw [hr]; rfl
    | none =>
      have hl : (od.list.getD []).drop od.nextListAsset = [] := by
        cases hol : od.list with
        | none => simp
        | some l =>
          rw [hol] at h2
          exact drop_eq_nil h2
      cases h3 : od.dir.indirect[od.nextList]? with
      | some id =>
        have hid := drop_eq_cons h3
        cases h4 : get id with
        | some l =>
          right; left
          obtain ⟨i1, i2, i3, i4⟩ := inv_update hi hd { od with nextList := od.nextList + 1, list := some l, nextListAsset := 0 } rfl rfl
          refine ⟨_, { od with nextList := od.nextList + 1, list := some l, nextListAsset := 0 }, by simp only [h4], i1, rfl, rfl, ?_, rfl,
            (List.getElem?_eq_some_iff.mp h3).1⟩
          unfold remaining
          dsimp only
          rw [hc, hl, hid]
          simp only [flatAssets, h4]
          cases flatAssets get (od.dir.indirect.drop (od.nextList + 1)) <;> rfl
        | none =>
          right; right; right
          refine ⟨_, by simp only [h4]; rfl, rfl, ?_⟩
          unfold remaining
          rw [hid]
          simp [flatAssets, h4]
      | none =>
        right; right; left
        obtain ⟨i1, i2, i3, i4⟩ := inv_update hi hd od rfl rfl
        refine ⟨_, rfl, inv_pop (s := { updateRelPath s od with dirs := od :: rest }) i1 rfl, rfl, ?_⟩
        unfold remaining
        rw [hc, hl, drop_eq_nil h3]
        rfl

/-- What the stack of opened directories still has to deliver. -/
inductive Rest (get : Id → Option (List Asset)) : List Frame → List (List Name × Asset) → Prop where
  | nil : Rest get [] []
  | cons {f : Frame} {fs : List Frame} {es : List Asset} {out out'} : remaining get f = some es →
      WalkL get (pathOf (f :: fs)) es out → Rest get fs out' → Rest get (f :: fs) (out ++ out')

theorem remaining_open (addr : Nat) (dir : Asset) : remaining get { addr := addr, dir := dir } = entries get dir := by
  unfold remaining entries
  simp

theorem pathOf_cons (f : Frame) (fs : List Frame) : pathOf (f :: fs) = pathOf fs ++ [f.dir.name] := by simp [pathOf]

theorem pathOf_congr {f g : Frame} (fs : List Frame) (h : f.dir = g.dir) : pathOf (f :: fs) = pathOf (g :: fs) := by
  simp [pathOf, h]

/-- One delivered entry. -/
theorem rest_entry {s' : State} {od od' : Frame} {rest : List Frame} {a : Asset} (hd' : s'.dirs = od' :: rest)
    (hdir : od'.dir = od.dir)
    (hrem : ∀ es, remaining get od = some es ↔ ∃ es', es = a :: es' ∧ remaining get od' = some es')
    (out : List (List Name × Asset)) :
    Rest get (od :: rest) out ↔ ∃ out', out = (pathOf (od :: rest), a) :: out' ∧ Rest get (visit alloc s' a).dirs out' := by
  have hp : pathOf (od' :: rest) = pathOf (od :: rest) := pathOf_congr rest hdir
  constructor
  · intro h
    cases h with
    | @cons _ _ es o1 o2 h1 h2 h3 =>
      obtain ⟨es', rfl, h1'⟩ := (hrem es).mp h1
      cases h2 with
      | @file _ _ _ o h4 h5 =>
        refine ⟨o ++ o2, rfl, ?_⟩
        unfold visit
        rw [if_neg h4, hd']
        exact .cons h1' (by rw [hp]; exact h5) h3
      | @dir _ _ _ o o' h4 h5 h6 =>
        refine ⟨o ++ (o' ++ o2), by simp, ?_⟩
        unfold visit
        rw [if_pos h4]
        dsimp only
        rw [hd']
        cases h5 with
        | dir h7 h8 =>
          refine .cons (by rw [remaining_open]; exact h7) ?_ (.cons h1' (by rw [hp]; exact h6) h3)
          rw [pathOf_cons, hp]; exact h8
  · rintro ⟨out', rfl, h⟩
    unfold visit at h
    split at h
    · rename_i h4
      dsimp only at h
      rw [hd'] at h
      cases h with
      | @cons _ _ es o1 o2 h1 h2 h3 =>
        rw [remaining_open] at h1
        rw [pathOf_cons, hp] at h2
        cases h3 with
        | @cons _ _ es' o3 o4 h5 h6 h7 =>
          rw [hp] at h6
          have := Rest.cons ((hrem _).mpr ⟨es', rfl, h5⟩) (WalkL.dir h4 (.dir h1 h2) h6) h7
          simpa using this
    · rename_i h4
      rw [hd'] at h
      cases h with
      | @cons _ _ es' o1 o2 h5 h6 h7 =>
        rw [hp] at h6
        exact Rest.cons ((hrem _).mpr ⟨es', rfl, h5⟩) (WalkL.file h4 h6) h7

/-- Whatever the iterator delivers without error is what the stack had to deliver. -/
theorem collect_sound (hf : alloc.Fresh) (fuel : Nat) (s : State) (hi : Inv s) (out : List (List Name × Asset))
    (h : collect get alloc fuel s = some (out, true)) : Rest get s.dirs out := by
  induction fuel generalizing s out with
  | zero => cases h
  | succ fuel ih =>
    unfold collect at h
    cases hd : s.dirs with
    | nil =>
      simp only [iterate, hd, Option.some.injEq, Prod.mk.injEq] at h
      rw [← h.1]
      exact .nil
    | cons od rest =>
      rcases iterate_cases (get := get) hf hi hd with ⟨a, s', od', e, i1, i2, i3, i4, i0, i5⟩ | ⟨s', od', e, i1, i2, i3, i4, -⟩ |
        ⟨s', e, i1, i2, i3⟩ | ⟨s', e, i1, i2⟩
      · rw [e] at h
        dsimp only at h
        obtain ⟨r, hr, he⟩ := Option.map_eq_some_iff.mp h
        obtain ⟨o, b⟩ := r
        simp only [Prod.mk.injEq] at he
        obtain ⟨rfl, rfl⟩ := he
        rw [rest_entry (alloc := alloc) i3 i4 i5]
        refine ⟨o, ?_, ih _ i1 _ hr⟩
        rw [visit_relPath, i2, hd]
      · rw [e] at h
        have := ih _ i1 _ h
        rw [i2] at this
        cases this with
        | cons h1 h2 h3 => exact .cons (i4.trans h1) (by rw [pathOf_congr rest i3.symm]; exact h2) h3
      · rw [e] at h
        have := ih _ i1 _ h
        rw [i2] at this
        exact Rest.cons (out := []) i3 (.nil _) this
      · rw [e] at h
        dsimp only at h
        rw [i1] at h
        cases h

/-- The iterator delivers everything the stack has to deliver. -/
theorem collect_complete_aux (hf : alloc.Fresh) (k : Nat) : ∀ (s : State), Inv s → ∀ out, Rest get s.dirs out →
    -- the lexicographic measure: number of entries left, then directories and lists left on the stack
    out.length + (s.dirs.map fun f => 1 + (f.dir.indirect.length - f.nextList)).sum + (out.filter fun e => e.2.info.kind = .directory).length
      + (out.map fun e => e.2.indirect.length).sum ≤ k →
    ∃ fuel, collect get alloc fuel s = some (out, true) := by
  induction k with
  | zero =>
    intro s hi out hr hk
    cases hd : s.dirs with
    | nil =>
      rw [hd] at hr
      cases hr
      exact ⟨1, by simp [collect, iterate, hd, hi.ok]⟩
    | cons od rest =>
      rw [hd] at hk
      simp only [List.map_cons, List.sum_cons] at hk
      omega
  | succ k ih =>
    intro s hi out hr hk
    cases hd : s.dirs with
    | nil =>
      rw [hd] at hr
      cases hr
      exact ⟨1, by simp [collect, iterate, hd, hi.ok]⟩
    | cons od rest =>
      rw [hd] at hr
      rcases iterate_cases (get := get) hf hi hd with ⟨a, s', od', e, i1, i2, i3, i4, i0, i5⟩ | ⟨s', od', e, i1, i2, i3, i4, i6, i7⟩ |
        ⟨s', e, i1, i2, i3⟩ | ⟨s', e, i1, i2⟩
      · obtain ⟨out', rfl, hr'⟩ := (rest_entry (alloc := alloc) i3 i4 i5 out).mp hr
        have hm : ∃ fuel, collect get alloc fuel (visit alloc s' a) = some (out', true) := by
          refine ih _ i1 out' hr' ?_
          have hs : ((visit alloc s' a).dirs.map fun f => 1 + (f.dir.indirect.length - f.nextList)).sum
              ≤ ((od' :: rest).map fun f => 1 + (f.dir.indirect.length - f.nextList)).sum +
                (if a.info.kind = .directory then 1 else 0) + a.indirect.length := by
            unfold visit
            split
            · dsimp only; rw [i3]; simp only [List.map_cons, List.sum_cons]; omega
            · rw [i3]; omega
          rw [hd] at hk
          simp only [List.map_cons, List.sum_cons, List.length_cons, i0, i4, List.filter_cons] at hk hs ⊢
          by_cases hdir : a.info.kind = .directory
          · simp only [hdir, decide_true, if_true, List.length_cons] at hk hs
            omega
          · simp only [hdir, decide_false, if_false] at hk hs
            simp at hk
            omega
        obtain ⟨fuel, hfuel⟩ := hm
        refine ⟨fuel + 1, ?_⟩
        unfold collect
        rw [e]
        dsimp only
        rw [hfuel, visit_relPath, i2, hd]
        rfl
      · have hr' : Rest get s'.dirs out := by
          rw [i2]
          cases hr with
          | cons h1 h2 h3 => exact .cons (i4.symm.trans h1) (by rw [pathOf_congr rest i3]; exact h2) h3
        obtain ⟨fuel, hfuel⟩ := ih _ i1 out hr' (by
          rw [hd] at hk; rw [i2]
          simp only [List.map_cons, List.sum_cons, i3, i6] at hk ⊢
          omega)
        exact ⟨fuel + 1, by unfold collect; rw [e]; exact hfuel⟩
      · have hr' : Rest get s'.dirs out := by
          rw [i2]
          cases hr with
          | cons h1 h2 h3 =>
            rw [i3] at h1
            cases h1
            cases h2
            exact h3
        obtain ⟨fuel, hfuel⟩ := ih _ i1 out hr' (by
          rw [hd] at hk; rw [i2]
          simp only [List.map_cons, List.sum_cons] at hk ⊢
          omega)
        exact ⟨fuel + 1, by unfold collect; rw [e]; exact hfuel⟩
      · cases hr with
        | cons h1 => rw [i2] at h1; cases h1

theorem inv_open (addr : Nat) (root : Asset) : Inv (open_ addr root) := by
  refine ⟨rfl, by simp [open_], ?_⟩
  intro f fs _ hl
  cases hl

theorem rest_open (addr : Nat) (root : Asset) (out : List (List Name × Asset)) :
    Rest get (open_ addr root).dirs out ↔ Walk get [root.name] root out := by
  constructor
  · intro h
    cases h with
    | cons h1 h2 h3 =>
      cases h3
      rw [remaining_open] at h1
      rw [List.append_nil]
      exact .dir h1 h2
  · intro h
    cases h with
    | dir h1 h2 =>
      have := Rest.cons (f := { addr := addr, dir := root }) (fs := []) (by rw [remaining_open]; exact h1) h2 .nil
      rw [List.append_nil] at this
      exact this

theorem collect_mono {fuel : Nat} {s : State} {r} (h : collect get alloc fuel s = some r) (k : Nat) :
    collect get alloc (fuel + k) s = some r := by
  induction fuel generalizing s r with
  | zero => cases h
  | succ fuel ih =>
    rw [Nat.succ_add]
    unfold collect at h ⊢
    split
    · rename_i hi
      rw [hi] at h
      dsimp only at h
      obtain ⟨r', hr, rfl⟩ := Option.map_eq_some_iff.mp h
      rw [ih hr]; rfl
    · rename_i hi
      rw [hi] at h; exact h
    · rename_i hi
      rw [hi] at h; exact ih h

/-- C29: if all asset lists of a manifest can be read, then calling `NextEntry` until it returns `nullptr` delivers exactly
the assets of the manifest, each once, in order, a directory before what is in it, and `RelativePath()` is the path of
the directory that contains the asset. -/
theorem C29_visits_everything_once (hf : alloc.Fresh) (addr : Nat) (root : Asset) (out : List (List Name × Asset))
    (h : Walk get [root.name] root out) :
    ∃ fuel, ∀ more, collect get alloc (fuel + more) (open_ addr root) = some (out, true) := by
  obtain ⟨fuel, hfuel⟩ := collect_complete_aux hf _ (open_ addr root) (inv_open addr root) out ((rest_open addr root out).mpr h)
    (Nat.le_refl _)
  exact ⟨fuel, fun more => collect_mono hfuel more⟩

/-- C29: conversely, if the iterator comes to the end without an error, then it has delivered exactly the assets of the manifest;
a list that cannot be read is never skipped silently. -/
theorem C29_no_silent_gaps (hf : alloc.Fresh) (addr : Nat) (root : Asset) (out : List (List Name × Asset)) (fuel : Nat)
    (h : collect get alloc fuel (open_ addr root) = some (out, true)) : Walk get [root.name] root out :=
  (rest_open addr root out).mp (collect_sound hf fuel _ (inv_open addr root) out h)

/-! ### Example: a directory `b` with an indirect list between two files; addresses are reused as soon as possible -/

namespace Example

def file (c : UInt8) : Asset := .mk { name := [c], kind := .file } [] []
def sub : Asset := .mk { name := [98], kind := .directory } [file 1] [[7]]
def root : Asset := .mk { kind := .directory } [file 2, sub, .mk { name := [99], kind := .directory } [file 4] []] [[8]]
def lists : Id → Option (List Asset)
  | [7] => some [file 3]
  | [8] => some [file 5]
  | _ => none

/-- The smallest address that is not in use, if the nodes at addresses 0, 1, ... are in use. -/
def reuse : Alloc := fun s => s.dirs.foldl (fun n f => max n (f.addr + 1)) 0

theorem reuse_fresh : reuse.Fresh := by
  have key : ∀ (l : List Frame) (n : Nat), n ≤ l.foldl (fun n f => max n (f.addr + 1)) n ∧
      ∀ f ∈ l, f.addr < l.foldl (fun n f => max n (f.addr + 1)) n := by
    intro l
    induction l with
    | nil => simp
    | cons g l ih =>
      intro n
      obtain ⟨h1, h2⟩ := ih (max n (g.addr + 1))
      simp only [List.foldl_cons, List.mem_cons]
      refine ⟨by omega, ?_⟩
      rintro f (rfl | hf)
      · omega
      · exact h2 f hf
  intro s f hfm
  have := (key s.dirs 0).2 f hfm
  unfold reuse; omega

example : ((collect lists reuse 30 (open_ 0 root)).map fun r => (r.1.map fun e => (e.1, e.2.name), r.2)) =
    some ([([[]], [2]), ([[]], [98]), ([[], [98]], [1]), ([[], [98]], [3]), ([[]], [99]), ([[], [99]], [4]), ([[]], [5])], true) := by
  decide +kernel

end Example

end Verif.Manifest.Iter
