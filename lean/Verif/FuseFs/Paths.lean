import Verif.FuseFs.Inodes

/-!
# The valid nodes form a tree

Helper for C65: after every history the paths of the valid nodes are distinct and closed under
taking the parent directory.
-/

namespace Verif.FuseFs

structure PInv (s : Nodes) : Prop where
  uniq : ∀ m ∈ s, ∀ n ∈ s, ∀ p, m.path = some p → n.path = some p → m = n
  up : ∀ n ∈ s, n.ino ≠ rootIno → ∀ p, n.path = some p →
    ∃ q a, p = q ++ [a] ∧ ∃ m ∈ s, m.ino = n.parent ∧ m.path = some q

theorem find_path_none {s : Nodes} {p : Path} (h : s.find? (·.path = some p) = none) :
    ∀ n ∈ s, n.path ≠ some p := by
  intro n hn e
  have := List.find?_eq_none.mp h n hn
  simp [e] at this

theorem modify_back {i : Ino} {f : Node → Node} {s : Nodes} (hf : ∀ n, SameNode n (f n)) {m' : Node}
    (h : m' ∈ modify i f s) : ∃ m ∈ s, SameNode m m' ∧ m' = if m.ino = i then f m else m := by
  obtain ⟨m, hm, rfl⟩ := List.mem_map.mp h
  refine ⟨m, hm, ?_, rfl⟩
  split
  · exact hf m
  · exact ⟨rfl, rfl, rfl⟩

theorem modify_mem {i : Ino} {f : Node → Node} {s : Nodes} (hf : ∀ n, SameNode n (f n)) {m : Node}
    (h : m ∈ s) : ∃ m' ∈ modify i f s, SameNode m m' := by
  refine ⟨_, List.mem_map.mpr ⟨m, h, rfl⟩, ?_⟩
  split
  · exact hf m
  · exact ⟨rfl, rfl, rfl⟩

theorem PInv.modify {s : Nodes} (h : PInv s) (i : Ino) (f : Node → Node) (hf : ∀ n, SameNode n (f n)) :
    PInv (modify i f s) := by
  refine ⟨fun m' hm' n' hn' p e1 e2 => ?_, fun n' hn' hr p e => ?_⟩
  · obtain ⟨m, hm, ⟨_, _, a1⟩, rfl⟩ := modify_back hf hm'
    obtain ⟨n, hn, ⟨_, _, a2⟩, rfl⟩ := modify_back hf hn'
    rw [h.uniq m hm n hn p (a1 ▸ e1) (a2 ▸ e2)]
  · obtain ⟨n, hn, ⟨a1, a2, a3⟩, _⟩ := modify_back hf hn'
    obtain ⟨q, a, e', m, hm, b1, b2⟩ := h.up n hn (a1 ▸ hr) p (a3 ▸ e)
    obtain ⟨m', hm', c1, c2, c3⟩ := modify_mem (i := i) hf hm
    exact ⟨q, a, e', m', hm', by rw [c1, b1, a2], by rw [c3, b2]⟩

theorem PInv.getOrCreate {s : Nodes} (h : PInv s) {parent fresh : Ino} {p : Path} {a : Name}
    {d : Node} (hd : d ∈ s) (hdi : d.ino = parent) (hdp : d.path = some p) :
    PInv (getOrCreate parent (p ++ [a]) fresh s).1 := by
  simp only [Verif.FuseFs.getOrCreate]
  split
  · exact h.modify _ _ fun _ => ⟨rfl, rfl, rfl⟩
  · rename_i hf
    have hno := find_path_none hf
    have h' := h.modify parent (fun n => { n with kids := n.kids + 1 }) fun _ => ⟨rfl, rfl, rfl⟩
    have hno' : ∀ n ∈ Verif.FuseFs.modify parent (fun n => { n with kids := n.kids + 1 }) s,
        n.path ≠ some (p ++ [a]) := by
      intro n' hn' e
      obtain ⟨n, hn, ⟨_, _, a3⟩, _⟩ :=
        modify_back (f := fun n => { n with kids := n.kids + 1 }) (fun _ => ⟨rfl, rfl, rfl⟩) hn'
      exact hno n hn (a3 ▸ e)
    refine ⟨fun m' hm' n' hn' p' e1 e2 => ?_, fun n' hn' hr p' e => ?_⟩
    · rcases List.mem_cons.mp hm' with rfl | hm'' <;> rcases List.mem_cons.mp hn' with rfl | hn''
      · rfl
      · cases e1; exact absurd e2 (hno' _ hn'')
      · cases e2; exact absurd e1 (hno' _ hm'')
      · exact h'.uniq _ hm'' _ hn'' _ e1 e2
    · rcases List.mem_cons.mp hn' with rfl | hn''
      · cases e
        obtain ⟨d', hd', c1, c2, c3⟩ :=
          modify_mem (i := parent) (f := fun n => { n with kids := n.kids + 1 })
            (fun _ => ⟨rfl, rfl, rfl⟩) hd
        exact ⟨p, a, rfl, d', List.mem_cons_of_mem _ hd', by rw [c1, hdi], by rw [c3, hdp]⟩
      · obtain ⟨q, b, e', m, hm, b1, b2⟩ := h'.up n' hn'' hr p' e
        exact ⟨q, b, e', m, List.mem_cons_of_mem _ hm, b1, b2⟩

theorem PInv.readAll {names : List Name} {fresh : List Ino} {s : Nodes} (h : PInv s) {dir : Ino}
    {p : Path} {d : Node} (hd : d ∈ s) (hdi : d.ino = dir) (hdp : d.path = some p) :
    PInv (readAll dir p names fresh s) := by
  induction names generalizing fresh s d with
  | nil => simpa only [Verif.FuseFs.readAll] using h
  | cons a l ih =>
    cases fresh with
    | nil => simpa only [Verif.FuseFs.readAll] using h
    | cons i is =>
      rw [Verif.FuseFs.readAll]
      have h' := h.getOrCreate (a := a) (fresh := i) hd hdi hdp
      obtain ⟨d', hd', c1, c2, c3⟩ : ∃ d' ∈ (Verif.FuseFs.getOrCreate dir (p ++ [a]) i s).1, SameNode d d' := by
        simp only [Verif.FuseFs.getOrCreate]
        split
        · exact modify_mem (f := fun n => { n with nlookup := n.nlookup + 1 }) (fun _ => ⟨rfl, rfl, rfl⟩) hd
        · obtain ⟨d', hd', e⟩ :=
            modify_mem (i := dir) (f := fun n => { n with kids := n.kids + 1 })
              (fun _ => ⟨rfl, rfl, rfl⟩) hd
          exact ⟨d', List.mem_cons_of_mem _ hd', e⟩
      exact ih h' hd' (c1.trans hdi) (c3.trans hdp)

theorem PInv.step {K : Kinds} {s t : State} (hi : Inv K s) (h : PInv s.nodes) {op : Op}
    (ha : Allowed s op) (hK : K.ok op) (e : apply op s = some t) : PInv t.nodes := by
  cases op with
  | lookup parent name found fresh =>
    obtain ⟨h1, h2, h3⟩ := ha
    obtain ⟨d, hd, e1, e2⟩ := getNode_some (hi.live _ h1)
    simp only [apply, e2] at e
    cases hp : d.path with
    | none => simp only [hp, Option.some.injEq] at e; exact e ▸ h
    | some p =>
      simp only [hp] at e
      cases found with
      | false => simp only [Bool.false_eq_true, if_false, Option.some.injEq] at e; exact e ▸ h
      | true =>
        simp only [if_true, Option.some.injEq] at e
        subst e
        exact h.getOrCreate hd e1 hp
  | readdir dir names fresh =>
    obtain ⟨h1, h2, h3, h4, h5⟩ := ha
    obtain ⟨d, hd, e1, e2⟩ := getNode_some (hi.live _ h1)
    simp only [apply, e2] at e
    cases hp : d.path with
    | none => simp only [hp, Option.some.injEq] at e; exact e ▸ h
    | some p =>
      simp only [hp] at e
      cases hu : getNode s.nodes d.parent with
      | none => simp only [hu] at e; cases e
      | some u =>
        simp only [hu] at e
        cases hup : u.path with
        | none => simp only [hup, Option.some.injEq] at e; exact e ▸ h
        | some _ =>
          simp only [hup, Option.some.injEq] at e
          subst e
          exact h.readAll hd e1 hp
  | forget i k =>
    obtain ⟨h1, h2, h3⟩ := ha
    obtain ⟨n, hn, en⟩ := hi.live i (by omega)
    obtain ⟨s', e1, e2, e3, e4⟩ := forgetOne_spec (i := i) (k := k) hi.inv h3 h2
      ⟨n, hn, en, by have := hi.refs n hn; rw [en] at this; omega⟩
    simp only [apply, e1, Option.some.injEq] at e
    subst e
    refine ⟨fun m' hm' n' hn' p c1 c2 => ?_, fun n' hn' hr p c => ?_⟩
    · obtain ⟨m, hm, ⟨a1, a2, a3⟩, _⟩ := e3.back m' hm'
      obtain ⟨n, hn, ⟨b1, b2, b3⟩, _⟩ := e3.back n' hn'
      have := h.uniq m hm n hn p (a3 ▸ c1) (b3 ▸ c2)
      subst this
      exact mem_unique e2.inos hm' hn' (a1.trans b1.symm)
    · obtain ⟨n, hn, ⟨a1, a2, a3⟩, _⟩ := e3.back n' hn'
      obtain ⟨q, a, e', m, hm, b1, b2⟩ := h.up n hn (a1 ▸ hr) p (a3 ▸ c)
      obtain ⟨m', hm', c1⟩ := e2.older.parent hn' hr fun hz => by
        rw [e2.alive n' hn' hr hz] at c; cases c
      obtain ⟨m2, hm2, ⟨d1, d2, d3⟩, _⟩ := e3.back m' hm'
      have := mem_unique hi.inv.inos hm2 hm (by rw [← d1, c1, a2, b1])
      subst this
      exact ⟨q, a, e', m', hm', c1, by rw [d3, b2]⟩
  | update gone =>
    obtain ⟨h1, h2⟩ := ha
    simp only [apply, Option.some.injEq] at e
    subst e
    have hg : ∀ n : Node, ∀ p, (invalidate gone n).path = some p ↔ n.path = some p ∧ gone p = false := by
      intro n p
      simp only [invalidate, Option.bind_eq_some_iff]
      constructor
      · rintro ⟨q, h1, h2⟩
        split at h2
        · cases h2
        · rename_i hx; cases h2; exact ⟨h1, by simpa using hx⟩
      · rintro ⟨h1, h2⟩
        exact ⟨p, h1, by rw [h2]; rfl⟩
    refine ⟨fun m' hm' n' hn' p c1 c2 => ?_, fun n' hn' hr p c => ?_⟩
    · obtain ⟨m, hm, rfl⟩ := List.mem_map.mp hm'
      obtain ⟨n, hn, rfl⟩ := List.mem_map.mp hn'
      rw [h.uniq m hm n hn p ((hg m p).mp c1).1 ((hg n p).mp c2).1]
    · obtain ⟨n, hn, rfl⟩ := List.mem_map.mp hn'
      obtain ⟨c1, c2⟩ := (hg n p).mp c
      obtain ⟨q, a, e', m, hm, b1, b2⟩ := h.up n hn hr p c1
      refine ⟨q, a, e', _, List.mem_map.mpr ⟨m, hm, rfl⟩, ?_, ?_⟩
      · exact b1
      · rw [hg]
        refine ⟨b2, ?_⟩
        cases hq : gone q with
        | false => rfl
        | true => rw [e', h2 q [a] hq] at c2; cases c2

theorem Reach.pinv {K : Kinds} {s : State} (h : Reach K s) : PInv s.nodes := by
  induction h with
  | init =>
    refine ⟨fun m hm n hn _ _ _ => ?_, fun n hn hr => ?_⟩
    · rw [List.mem_singleton.mp hm, List.mem_singleton.mp hn]
    · rw [List.mem_singleton.mp hn] at hr
      exact absurd rfl hr
  | step op hr ha hK e ih => exact ih.step hr.inv ha hK e

end Verif.FuseFs
