import Verif.Asset.Read

/-!
# The consistency check of a single entry (`Asset::IsConsistent`, cdc_fuse_fs/asset.cc:242-371)

With `--check` the file system examines every loaded entry after each manifest update
(`CheckConsistencyIndividualInodes`, cdc_fuse_fs.cc:1094-1115).
The warning texts are not modelled, only whether there is one.
-/
namespace Verif.Asset.Check
open Verif.Manifest Verif.Asset

/-! ## Model -/

/-- The loop over the direct chunks, asset.cc:296-305, from the value of `total_offset`. `none`: a warning. -/
def directScan : Nat → List Ref → Option Nat
  | total, [] => some total
  | total, r :: rs => if r.offset < total then none else directScan r.offset rs

/-- The loop over the chunks of a fetched list, asset.cc:334-355. `first` is `chunk_idx == 0`. -/
def chunkScan (listOff : Nat) : Bool → Nat → List Ref → Option Nat
  | _, total, [] => some total
  | first, total, r :: rs =>
    if first ∧ r.offset ≠ 0 then none
    else if r.offset + listOff < total then none
    else chunkScan listOff false (listOff + r.offset) rs

/-- The loop over the indirect lists, asset.cc:310-356. `prev` is `prev_list_offset`, which is set once before
the loop. The rest of `file_indirect_chunks` from index `i` is given. -/
def listScan (noDirect : Bool) (fetched : List (Option (List Ref))) (prev : Nat) : Nat → Nat → List Indirect → Option Nat
  | _, total, [] => some total
  | i, total, ind :: inds =>
    if i = 0 ∧ noDirect ∧ ind.offset ≠ 0 then none
    else if 0 < i ∧ (ind.offset ≤ prev ∨ ind.offset ≤ total) then none
    else match (fetched[i]?).join with
      | none => listScan noDirect fetched prev (i + 1) ind.offset inds
      | some refs => match chunkScan ind.offset true total refs with
        | none => none
        | some total' => listScan noDirect fetched prev (i + 1) total' inds

/-- The part for files, asset.cc:293-370. -/
def filePart (info : Meta) (fetched : List (Option (List Ref))) : Bool :=
  match directScan 0 info.chunks with
  | none => false
  | some total => match listScan info.chunks.isEmpty fetched total 0 total info.indirect with
    | none => false
    | some total' => if total' = 0 ∧ info.fileSize = 0 then true else decide (total' < info.fileSize)

/-- No entries below, asset.cc:247-248, 274-275. -/
def noEntries (proto : Manifest.Asset) (s : State) : Bool := s.lookup.isEmpty && proto.children.isEmpty && proto.indirect.isEmpty

/-- No chunks, asset.cc:258-259, 279-280. -/
def noChunks (proto : Manifest.Asset) (s : State) : Bool :=
  proto.info.chunks.isEmpty && s.chunkLists.isEmpty && proto.info.indirect.isEmpty

/-- `IsConsistent`, asset.cc:242-371. -/
def isConsistent (proto : Manifest.Asset) (s : State) : Bool :=
  match proto.info.kind with
  | .file => noEntries proto s && proto.info.symlink.isEmpty && filePart proto.info s.chunkLists
  | .directory => noChunks proto s && proto.info.symlink.isEmpty && decide (proto.info.fileSize = 0)
  | .symlink => noEntries proto s && noChunks proto s && decide (proto.info.fileSize = 0)
  | .unknown => false

/-! ## Specification -/

/-- A well-formed entry: a file that describes its content by non-empty chunks in non-empty lists and has nothing
else; a directory or a link that is not a file in disguise. -/
def WellFormed (truth : Id → List UInt8) (S : Store) (proto : Manifest.Asset) : Prop :=
  match proto.info.kind with
  | .file => proto.children = [] ∧ proto.indirect = [] ∧ proto.info.symlink = [] ∧
      ∃ content, Encodes truth S proto content ∧ (∀ id, truth id ≠ []) ∧ ∀ id l, S.chunkLists id = some l → l ≠ []
  | .directory => proto.info.chunks = [] ∧ proto.info.indirect = [] ∧ proto.info.symlink = [] ∧ proto.info.fileSize = 0
  | .symlink => proto.children = [] ∧ proto.indirect = [] ∧ proto.info.chunks = [] ∧ proto.info.indirect = [] ∧
      proto.info.fileSize = 0
  | .unknown => False

/-- The offsets of all chunks in the file, in the order of the entry; `lists` are the indirect lists. -/
def offsets (info : Meta) (lists : List (List Ref)) : List Nat :=
  info.chunks.map Ref.offset ++ (List.zipWith (fun (i : Indirect) l => l.map fun r => i.offset + r.offset) info.indirect lists).flatten

/-! ## What is accepted -/

theorem directScan_some {rs : List Ref} {t u : Nat} (h : directScan t rs = some u) :
    t ≤ u ∧ (rs.map Ref.offset).Pairwise (· ≤ ·) ∧ (∀ x ∈ rs.map Ref.offset, t ≤ x ∧ x ≤ u) ∧
      (rs = [] → u = t) := by
  induction rs generalizing t with
  | nil => simp only [directScan, Option.some.injEq] at h; subst h; simp
  | cons r rs ih =>
    simp only [directScan] at h
    split at h
    · cases h
    obtain ⟨h1, h2, h3, _⟩ := ih h
    refine ⟨by omega, ?_, ?_, by simp⟩
    · simp only [List.map_cons, List.pairwise_cons]
      exact ⟨fun x hx => (h3 x hx).1, h2⟩
    · intro x hx
      simp only [List.map_cons, List.mem_cons] at hx
      rcases hx with rfl | hx
      · omega
      · have := h3 x hx; omega

theorem chunkScan_some {o : Nat} {rs : List Ref} {f : Bool} {t u : Nat} (h : chunkScan o f t rs = some u) :
    t ≤ u ∧ (rs.map fun r => o + r.offset).Pairwise (· ≤ ·) ∧ (∀ x ∈ rs.map (fun r => o + r.offset), t ≤ x ∧ x ≤ u) ∧
      (f = true → ∀ r, rs.head? = some r → r.offset = 0) ∧ (u = t ∨ u ∈ rs.map fun r => o + r.offset) := by
  induction rs generalizing t f with
  | nil => simp only [chunkScan, Option.some.injEq] at h; subst h; simp
  | cons r rs ih =>
    simp only [chunkScan] at h
    split at h
    · cases h
    rename_i hf
    split at h
    · cases h
    obtain ⟨h1, h2, h3, _, h5⟩ := ih h
    refine ⟨by omega, ?_, ?_, ?_, ?_⟩
    · simp only [List.map_cons, List.pairwise_cons]
      exact ⟨fun x hx => (h3 x hx).1, h2⟩
    · intro x hx
      simp only [List.map_cons, List.mem_cons] at hx
      rcases hx with rfl | hx
      · omega
      · have := h3 x hx; omega
    · intro e r' hr
      simp only [List.head?_cons, Option.some.injEq] at hr
      subst hr
      exact Decidable.byContradiction fun hc => hf ⟨e, hc⟩
    · right
      simp only [List.map_cons, List.mem_cons]
      exact h5

theorem listScan_some {nd : Bool} {fetched : List (Option (List Ref))} {p : Nat} {inds : List Indirect} {ls : List (List Ref)}
    {i t u : Nat} (hlen : ls.length = inds.length) (hl : ∀ j, (fetched[i + j]?).join = ls[j]?)
    (h : listScan nd fetched p i t inds = some u) :
    t ≤ u ∧ ((List.zipWith (fun (i : Indirect) l => l.map fun r => i.offset + r.offset) inds ls).flatten).Pairwise (· ≤ ·) ∧
      (∀ x ∈ (List.zipWith (fun (i : Indirect) l => l.map fun r => i.offset + r.offset) inds ls).flatten, t ≤ x ∧ x ≤ u) ∧
      (∀ l ∈ ls, ∀ r, l.head? = some r → r.offset = 0) := by
  induction inds generalizing i t ls with
  | nil =>
    simp only [listScan, Option.some.injEq] at h; subst h
    have : ls = [] := List.eq_nil_of_length_eq_zero (by simpa using hlen)
    subst this; simp
  | cons ind inds ih =>
    cases ls with
    | nil => simp at hlen
    | cons l ls =>
      simp only [listScan] at h
      split at h
      · cases h
      split at h
      · cases h
      have h0 := hl 0
      simp only [Nat.add_zero, List.getElem?_cons_zero] at h0
      rw [h0] at h
      dsimp only at h
      split at h
      · cases h
      rename_i t' ht'
      obtain ⟨c1, c2, c3, c4, _⟩ := chunkScan_some ht'
      obtain ⟨r1, r2, r3, r4⟩ := ih (ls := ls) (i := i + 1) (by simpa using hlen)
        (fun j => by have := hl (j + 1); rw [List.getElem?_cons_succ] at this; rw [← this, Nat.add_assoc, Nat.add_comm 1 j]) h
      simp only [List.zipWith_cons_cons, List.flatten_cons]
      refine ⟨by omega, ?_, ?_, ?_⟩
      · rw [List.pairwise_append]
        exact ⟨c2, r2, fun a ha b hb => by have := c3 a ha; have := r3 b hb; omega⟩
      · intro x hx
        rcases List.mem_append.mp hx with hx | hx
        · have := c3 x hx; omega
        · have := r3 x hx; omega
      · intro l' hl' r hr
        rcases List.mem_cons.mp hl' with rfl | hl'
        · exact c4 rfl r hr
        · exact r4 l' hl' r hr

/-- **C144, what an accepted file guarantees.** If the check accepts a file all of whose indirect lists are loaded, then
the chunks' offsets ascend through the direct chunks and all lists, all of them lie inside the file (the only chunks of
an empty file are at 0), each list starts where the entry says, and the entry has neither entries of a directory nor the
target of a link.
Missing: a first chunk that does not start at 0 is accepted (`C144_start_violated`), and so are lists that are out of order
as long as they are not loaded (`C144_unloaded_violated`). -/
theorem C144_accepted_partial (proto : Manifest.Asset) (s : State) (hk : proto.info.kind = .file) (lists : List (List Ref))
    (hl : s.chunkLists = lists.map some) (hlen : lists.length = proto.info.indirect.length)
    (h : isConsistent proto s = true) :
    (offsets proto.info lists).Pairwise (· ≤ ·) ∧
    (∀ x ∈ offsets proto.info lists, x < proto.info.fileSize ∨ x = 0 ∧ proto.info.fileSize = 0) ∧
    (∀ l ∈ lists, ∀ r, l.head? = some r → r.offset = 0) ∧
    proto.children = [] ∧ proto.indirect = [] ∧ proto.info.symlink = [] := by
  unfold isConsistent at h
  rw [hk] at h
  simp only [Bool.and_eq_true, noEntries, List.isEmpty_iff] at h
  obtain ⟨⟨⟨⟨_, q1⟩, q2⟩, q3⟩, h⟩ := h
  unfold filePart at h
  split at h
  · cases h
  rename_i t ht
  split at h
  · cases h
  rename_i u hu
  obtain ⟨a1, a2, a3, _⟩ := directScan_some ht
  obtain ⟨b1, b2, b3, b4⟩ := listScan_some (ls := lists) hlen (fun j => by
    rw [hl, Nat.zero_add, List.getElem?_map]; cases lists[j]? <;> rfl) hu
  have hu' : ∀ x, x ≤ u → x < proto.info.fileSize ∨ x = 0 ∧ proto.info.fileSize = 0 := by
    intro x hx
    split at h
    · rename_i hc; exact .inr ⟨by omega, hc.2⟩
    · have := of_decide_eq_true h; exact .inl (by omega)
  refine ⟨?_, ?_, b4, q1, q2, q3⟩
  · unfold offsets
    rw [List.pairwise_append]
    exact ⟨a2, b2, fun x hx y hy => by have := a3 x hx; have := b3 y hy; omega⟩
  · intro x hx
    rcases List.mem_append.mp hx with hx | hx
    · exact hu' x (by have := a3 x hx; omega)
    · exact hu' x (by have := b3 x hx; omega)

theorem listScan_order {nd : Bool} {fetched : List (Option (List Ref))} {p : Nat} {inds : List Indirect} {i t u : Nat}
    (hne : ∀ j : Nat, fetched[j]? ≠ some (some [])) (h : listScan nd fetched p i t inds = some u) :
    (inds.map Indirect.offset).Pairwise (· < ·) ∧ (0 < i → ∀ x ∈ inds, t < x.offset ∧ p < x.offset) ∧
    ∀ x ∈ inds.tail, p < x.offset := by
  induction inds generalizing i t with
  | nil => simp
  | cons ind inds ih =>
    simp only [listScan] at h
    split at h
    · cases h
    split at h
    · cases h
    rename_i hc
    have hc : 0 < i → t < ind.offset ∧ p < ind.offset := fun hi => by
      constructor
      · exact Decidable.byContradiction fun hn => hc ⟨hi, by omega⟩
      · exact Decidable.byContradiction fun hn => hc ⟨hi, by omega⟩
    have done : ∀ t', ind.offset ≤ t' → listScan nd fetched p (i + 1) t' inds = some u →
        ((ind :: inds).map Indirect.offset).Pairwise (· < ·) ∧
        (0 < i → ∀ x ∈ ind :: inds, t < x.offset ∧ p < x.offset) ∧ ∀ x ∈ (ind :: inds).tail, p < x.offset := by
      intro t' h1 h3
      obtain ⟨p1, p2, _⟩ := ih h3
      refine ⟨?_, ?_, ?_⟩
      · rw [List.map_cons, List.pairwise_cons]
        refine ⟨?_, p1⟩
        intro x hx
        obtain ⟨y, hy, rfl⟩ := List.mem_map.mp hx
        have := p2 (by omega) y hy; omega
      · intro hi x hx
        have := hc hi
        rcases List.mem_cons.mp hx with rfl | hx
        · exact hc hi
        · have := p2 (by omega) x hx; omega
      · intro x hx
        exact (p2 (by omega) x hx).2
    cases hf : (fetched[i]?).join with
    | none => rw [hf] at h; exact done ind.offset (Nat.le_refl _) h
    | some l =>
      rw [hf] at h
      dsimp only at h
      split at h
      · cases h
      rename_i t' ht'
      refine done t' ?_ h
      have hl : l ≠ [] := by
        intro e
        subst e
        apply hne i
        cases hq : fetched[i]? with
        | none => rw [hq] at hf; cases hf
        | some o => rw [hq] at hf; exact congrArg some hf
      obtain ⟨_, _, c3, _⟩ := chunkScan_some ht'
      cases l with
      | nil => exact absurd rfl hl
      | cons r rs =>
        have := c3 (ind.offset + r.offset) (by simp)
        omega

/-- **C144, lists.** In an accepted file the lists start at ascending places, and all but the first after the last direct
chunk, no matter which of them are loaded (a list without chunks is never written).
Missing: the start of the first list, unless that list is loaded (`C144_unloaded_violated`). -/
theorem C144_lists_partial (proto : Manifest.Asset) (s : State) (hk : proto.info.kind = .file)
    (hne : ∀ j : Nat, s.chunkLists[j]? ≠ some (some [])) (h : isConsistent proto s = true) :
    (proto.info.indirect.map Indirect.offset).Pairwise (· < ·) ∧
    ∀ i ∈ proto.info.indirect.tail, ∀ r ∈ proto.info.chunks, r.offset < i.offset := by
  unfold isConsistent at h
  rw [hk] at h
  simp only [Bool.and_eq_true] at h
  obtain ⟨_, h⟩ := h
  unfold filePart at h
  split at h
  · cases h
  rename_i t ht
  split at h
  · cases h
  rename_i u hu
  obtain ⟨o1, _, o3⟩ := listScan_order hne hu
  obtain ⟨_, _, a3, _⟩ := directScan_some ht
  refine ⟨o1, fun i hi r hr => ?_⟩
  have := o3 i hi
  have := a3 r.offset (List.mem_map_of_mem hr)
  omega

/-! ## No false alarms -/

theorem directScan_refsAt (truth : Id → List UInt8) (ids : List Id) (o t : Nat) (ht : t ≤ o)
    (hne : ∀ id, truth id ≠ []) :
    ∃ u, directScan t (refsAt truth o ids) = some u ∧ (ids = [] → u = t) ∧
      (ids ≠ [] → u < o + (bytes truth ids).length) ∧ (ids ≠ [] → o ≤ u) := by
  induction ids generalizing o t with
  | nil => exact ⟨t, rfl, fun _ => rfl, by simp, by simp⟩
  | cons id ids ih =>
    have hpos : 0 < (truth id).length := List.length_pos_iff.mpr (hne id)
    obtain ⟨u, h1, h2, h3, h4⟩ := ih (o + (truth id).length) o (by omega)
    refine ⟨u, ?_, by simp, fun _ => ?_, fun _ => ?_⟩
    · simp only [refsAt, directScan]
      rw [if_neg (by omega)]
      exact h1
    · by_cases he : ids = []
      · subst he; have := h2 rfl; simp [bytes]; omega
      · have := h3 he
        simp only [bytes, List.map_cons, List.flatten_cons, List.length_append] at this ⊢
        omega
    · by_cases he : ids = []
      · have := h2 he; omega
      · have := h4 he; omega

theorem chunkScan_refsAt (truth : Id → List UInt8) (ids : List Id) (L o t : Nat) (f : Bool) (hf : f = true → o = 0)
    (ht : t ≤ L + o) (hne : ∀ id, truth id ≠ []) :
    ∃ u, chunkScan L f t (refsAt truth o ids) = some u ∧ (ids = [] → u = t) ∧
      (ids ≠ [] → u < L + o + (bytes truth ids).length) := by
  induction ids generalizing o t f with
  | nil => exact ⟨t, rfl, fun _ => rfl, by simp⟩
  | cons id ids ih =>
    have hpos : 0 < (truth id).length := List.length_pos_iff.mpr (hne id)
    obtain ⟨u, h1, h2, h3⟩ := ih (o + (truth id).length) (L + o) false (by simp) (by omega)
    refine ⟨u, ?_, by simp, fun _ => ?_⟩
    · simp only [refsAt, chunkScan]
      rw [if_neg (fun hc => hc.2 (hf hc.1)), if_neg (by omega)]
      exact h1
    · by_cases he : ids = []
      · subst he; have := h2 rfl; simp [bytes]; omega
      · have := h3 he
        simp only [bytes, List.map_cons, List.flatten_cons, List.length_append] at this ⊢
        omega

theorem bytes_pos (truth : Id → List UInt8) (ids : List Id) (hne : ∀ id, truth id ≠ []) (h : ids ≠ []) :
    0 < (bytes truth ids).length := by
  cases ids with
  | nil => exact absurd rfl h
  | cons id ids =>
    have hpos : 0 < (truth id).length := List.length_pos_iff.mpr (hne id)
    simp only [bytes, List.map_cons, List.flatten_cons, List.length_append]
    omega

theorem listScan_indirectAt (truth : Id → List UInt8) (hne : ∀ id, truth id ≠ []) (nd : Bool)
    (fetched : List (Option (List Ref))) (p : Nat) (lists : List (Id × List Id)) (i o t : Nat)
    (hfe : ∀ j refs, (fetched[i + j]?).join = some refs → ∃ l, lists[j]? = some l ∧ refs = refsAt truth 0 l.2)
    (hlne : ∀ l ∈ lists, l.2 ≠ [])
    (h0 : i = 0 → nd = true → o = 0) (hp : 0 < i → p < o ∧ t < o) (hpo : p ≤ o) (ht : t ≤ o) :
    ∃ u, listScan nd fetched p i t (indirectAt truth o lists) = some u ∧ (lists = [] → u = t) ∧
      (lists ≠ [] → u < o + ((lists.map fun l => bytes truth l.2).flatten).length) := by
  induction lists generalizing i o t with
  | nil => exact ⟨t, rfl, fun _ => rfl, by simp⟩
  | cons l ls ih =>
    obtain ⟨lid, ids⟩ := l
    have hids : ids ≠ [] := hlne (lid, ids) List.mem_cons_self
    have hb := bytes_pos truth ids hne hids
    have hfe' : ∀ j refs, (fetched[i + 1 + j]?).join = some refs → ∃ l, ls[j]? = some l ∧ refs = refsAt truth 0 l.2 := by
      intro j refs hr
      obtain ⟨l, hl, e⟩ := hfe (j + 1) refs (by rw [← hr, Nat.add_assoc, Nat.add_comm 1 j])
      exact ⟨l, by simpa using hl, e⟩
    have hlne' : ∀ l ∈ ls, l.2 ≠ [] := fun l hl => hlne l (List.mem_cons_of_mem _ hl)
    have fin : ∀ t', t' < o + (bytes truth ids).length →
        ∃ u, listScan nd fetched p (i + 1) t' (indirectAt truth (o + (bytes truth ids).length) ls) = some u ∧
          u < o + ((((lid, ids) :: ls).map fun l => bytes truth l.2).flatten).length := by
      intro t' ht'
      obtain ⟨u, h1, h2, h3⟩ := ih (i + 1) (o + (bytes truth ids).length) t' hfe' hlne' (by omega)
        (fun _ => ⟨by omega, ht'⟩) (by omega) (by omega)
      refine ⟨u, h1, ?_⟩
      simp only [List.map_cons, List.flatten_cons, List.length_append]
      by_cases he : ls = []
      · have := h2 he; omega
      · have := h3 he; omega
    have e : listScan nd fetched p i t (indirectAt truth o ((lid, ids) :: ls)) = (match (fetched[i]?).join with
      | none => listScan nd fetched p (i + 1) o (indirectAt truth (o + (bytes truth ids).length) ls)
      | some refs => match chunkScan o true t refs with
        | none => none
        | some total' => listScan nd fetched p (i + 1) total' (indirectAt truth (o + (bytes truth ids).length) ls)) := by
      simp only [indirectAt, listScan]
      rw [if_neg (fun hc => hc.2.2 (h0 hc.1 hc.2.1)), if_neg (fun hc => by have := hp hc.1; omega)]
    rw [e]
    cases hj : (fetched[i]?).join with
    | none =>
      obtain ⟨u, h1, h2⟩ := fin o (by omega)
      exact ⟨u, h1, by simp, fun _ => h2⟩
    | some refs =>
      obtain ⟨l, hl, rfl⟩ := hfe 0 refs (by simpa using hj)
      simp only [List.getElem?_cons_zero, Option.some.injEq] at hl
      subst hl
      obtain ⟨t', c1, c2, c3⟩ := chunkScan_refsAt truth ids o 0 t true (fun _ => rfl) (by omega) hne
      have ht' := c3 hids
      obtain ⟨u, h1, h2⟩ := fin t' (by omega)
      refine ⟨u, ?_, by simp, fun _ => h2⟩
      dsimp only
      rw [c1]
      exact h1

theorem lookup_nil {S : Store} {proto : Manifest.Asset} {s : State} (h : StateOk S proto s)
    (hc : proto.children = []) (hi : proto.indirect = []) : s.lookup = [] := by
  have hd : s.dirLists = [] := by
    have := congrArg List.length h.dirs
    rw [hi] at this
    simpa using this
  rw [h.lookup, hc, hd]
  rfl

theorem chunkLists_nil {S : Store} {proto : Manifest.Asset} {s s' : State} (ho : Other S proto s s')
    (hi : proto.info.indirect = []) (hs : s.chunkLists = []) : s'.chunkLists = [] := by
  induction ho with
  | refl => exact hs
  | chunks i r hlt _ _ _ => rw [hi] at hlt; simp at hlt
  | dirs r hf _ ih =>
    refine ih ?_
    unfold fetchDirList at hf
    split at hf
    · obtain ⟨_, rfl⟩ := hf; exact hs
    · rcases hf with ⟨_, _, rfl⟩ | ⟨_, _, _, _, _, rfl⟩ <;> exact hs

/-- **C144, no false alarms.** A well-formed entry is accepted whatever has been loaded of it, by whichever reads and
listings. -/
theorem C144_no_false_alarm (truth : Id → List UInt8) (S : Store) (proto : Manifest.Asset) (hw : WellFormed truth S proto)
    (s : State) (hs : Other S proto (initial proto) s) : isConsistent proto s = true := by
  have hok := stateOk_other (stateOk_initial S proto) hs
  unfold WellFormed at hw
  unfold isConsistent
  cases hk : proto.info.kind with
  | unknown => rw [hk] at hw; exact hw.elim
  | directory =>
    rw [hk] at hw
    obtain ⟨h1, h2, h3, h4⟩ := hw
    simp [noChunks, h1, h2, h3, h4, chunkLists_nil hs h2 rfl]
  | symlink =>
    rw [hk] at hw
    obtain ⟨h1, h2, h3, h4, h5⟩ := hw
    simp [noChunks, noEntries, h1, h2, h3, h4, h5, chunkLists_nil hs h4 rfl, lookup_nil hok h1 h2]
  | file =>
    rw [hk] at hw
    obtain ⟨h1, h2, h3, content, ⟨direct, lists, e1, e2, e3, e4, e5, e6⟩, hne, hln⟩ := hw
    have hn : noEntries proto s = true := by simp [noEntries, h1, h2, lookup_nil hok h1 h2]
    simp only [hn, h3, List.isEmpty_nil, Bool.and_self, Bool.true_and]
    have hlne : ∀ l ∈ lists, l.2 ≠ [] := by
      intro l hl he
      have := e5 l hl
      rw [he] at this
      exact hln _ _ this rfl
    have hfe : ∀ j refs, (s.chunkLists[0 + j]?).join = some refs →
        ∃ l, lists[j]? = some l ∧ refs = refsAt truth 0 l.2 := by
      intro j refs hr
      rw [Nat.zero_add] at hr
      have hr' : s.chunkLists[j]? = some (some refs) := by
        cases hx : s.chunkLists[j]? with
        | none => rw [hx] at hr; cases hr
        | some y => rw [hx] at hr; exact congrArg some hr
      have hst := hok.chunks j refs hr'
      have hmap : ∀ (ls : List (Id × List Id)) (o j : Nat),
          ((indirectAt truth o ls)[j]?).map Indirect.listId = ls[j]?.map Prod.fst := by
        intro ls
        induction ls with
        | nil => intro o j; simp [indirectAt]
        | cons a ls ih =>
          intro o j
          obtain ⟨a, b⟩ := a
          cases j with
          | zero => simp [indirectAt]
          | succ j => simpa [indirectAt] using ih _ j
      rw [e4] at hst
      have hm := hmap lists (bytes truth direct).length j
      cases hx : (indirectAt truth (bytes truth direct).length lists)[j]? with
      | none => rw [hx] at hst; cases hst
      | some ind =>
        rw [hx] at hst hm
        cases hy : lists[j]? with
        | none => rw [hy] at hm; cases hm
        | some l =>
          rw [hy] at hm
          simp only [Option.map_some, Option.some.injEq] at hm
          refine ⟨l, rfl, ?_⟩
          have hS := e5 l (List.mem_of_getElem? hy)
          simp only [Option.bind_some] at hst
          rw [hm, hS] at hst
          exact (Option.some.inj hst).symm
    obtain ⟨t, d1, d2, d3, d4⟩ := directScan_refsAt truth direct 0 0 (Nat.le_refl _) hne
    have hd : direct = [] → (bytes truth direct).length = 0 := by rintro rfl; rfl
    have hto : t ≤ (bytes truth direct).length := by
      by_cases he : direct = []
      · have := d2 he; omega
      · have := d3 he; omega
    have hnd : proto.info.chunks.isEmpty = true → direct = [] := by
      rw [e3]
      cases direct with
      | nil => simp
      | cons => simp [refsAt]
    obtain ⟨u, l1, l2, l3⟩ := listScan_indirectAt truth hne proto.info.chunks.isEmpty s.chunkLists t lists 0
      (bytes truth direct).length t hfe hlne (fun _ h => hd (hnd h)) (by omega) hto hto
    unfold filePart
    rw [e3] at l1 ⊢
    rw [d1]
    dsimp only
    rw [e4, l1]
    dsimp only
    split
    · rfl
    rename_i hc
    refine decide_eq_true ?_
    rw [e2, e6] at hc ⊢
    rw [List.length_append] at hc ⊢
    by_cases hl : lists = []
    · have := l2 hl
      by_cases he : direct = []
      · have h5 := d2 he
        have h6 := hd he
        refine absurd ⟨by omega, ?_⟩ hc
        rw [hl, h6]
        rfl
      · have := d3 he; omega
    · have := l3 hl; omega

/-- A directory is rejected exactly if it has data of a file or a link. -/
theorem C144_directory (proto : Manifest.Asset) (S : Store) (hk : proto.info.kind = .directory)
    (s : State) (hs : Other S proto (initial proto) s) :
    isConsistent proto s = true ↔ proto.info.chunks = [] ∧ proto.info.indirect = [] ∧ proto.info.symlink = [] ∧ proto.info.fileSize = 0 := by
  constructor
  · intro h
    unfold isConsistent at h
    rw [hk] at h
    simp only [noChunks, Bool.and_eq_true, decide_eq_true_eq, List.isEmpty_iff] at h
    exact ⟨h.1.1.1.1, h.1.1.2, h.1.2, h.2⟩
  · intro h
    refine C144_no_false_alarm (fun _ => []) S proto ?_ s hs
    unfold WellFormed
    rw [hk]
    exact h

/-- A link is rejected exactly if it has entries or data of a file. -/
theorem C144_symlink (proto : Manifest.Asset) (S : Store) (hk : proto.info.kind = .symlink)
    (s : State) (hs : Other S proto (initial proto) s) :
    isConsistent proto s = true ↔
      proto.children = [] ∧ proto.indirect = [] ∧ proto.info.chunks = [] ∧ proto.info.indirect = [] ∧ proto.info.fileSize = 0 := by
  constructor
  · intro h
    unfold isConsistent at h
    rw [hk] at h
    simp only [noChunks, noEntries, Bool.and_eq_true, decide_eq_true_eq, List.isEmpty_iff] at h
    exact ⟨h.1.1.1.2, h.1.1.2, h.1.2.1.1, h.1.2.2, h.2⟩
  · intro h
    refine C144_no_false_alarm (fun _ => []) S proto ?_ s hs
    unfold WellFormed
    rw [hk]
    exact h

/-! ## What goes unnoticed -/

/-- A file of ten bytes whose first chunk is said to start at 5. -/
def lateProto : Manifest.Asset := .mk { kind := .file, fileSize := 10, chunks := [⟨5, [1]⟩] } [] []

/-- **C144 fails for the start of a file.** A file without any chunk for its first bytes is accepted, although nothing is left to be
loaded and no content is described by it. -/
theorem C144_start_violated : ∃ proto : Manifest.Asset, proto.info.kind = .file ∧ proto.info.indirect = [] ∧
    isConsistent proto (initial proto) = true ∧ ∀ truth S content, ¬ Encodes truth S proto content := by
  refine ⟨lateProto, rfl, rfl, by decide, ?_⟩
  rintro truth S content ⟨direct, lists, e1, e2, e3, _⟩
  cases direct with
  | nil => simp [lateProto, refsAt] at e3
  | cons id ids => simp [lateProto, refsAt] at e3

/-- Two direct chunks at 0 and 4, and an indirect list that claims to start at 2. -/
def backProto : Manifest.Asset :=
  .mk { kind := .file, fileSize := 10, chunks := [⟨0, [1]⟩, ⟨4, [2]⟩], indirect := [⟨2, [101]⟩] } [] []

def backStore : Store where
  chunkLists := fun id => if id = [101] then some [⟨0, [3]⟩] else none
  assetLists := fun _ => none
  fails := False
  conc := False

/-- **C144 fails for lists that are not loaded.** The start of every list is in the entry itself, yet a first list that starts before the
last direct chunk is accepted; the same entry is rejected once somebody has read from that list. -/
theorem C144_unloaded_violated : ∃ (S : Store) (proto : Manifest.Asset) (s : State), Other S proto (initial proto) s ∧
    (∃ r ∈ proto.info.chunks, ∃ i ∈ proto.info.indirect, i.offset < r.offset) ∧
    isConsistent proto (initial proto) = true ∧ isConsistent proto s = false := by
  refine ⟨backStore, backProto, { initial backProto with chunkLists := [some [⟨0, [3]⟩]] }, ?_,
    ⟨⟨4, [2]⟩, by simp [backProto], ⟨2, [101]⟩, by simp [backProto], by decide⟩, by decide, by decide⟩
  refine .chunks 0 (some [⟨0, [3]⟩]) (by decide) ?_ (.refl _)
  exact .inr ⟨⟨2, [101]⟩, [⟨0, [3]⟩], rfl, rfl, rfl, rfl⟩

/-! ## Examples -/

/-- Non-vacuity: the file of eight bytes in `Verif.Asset.Read` is well-formed, and accepted before and after loading. -/
example : WellFormed demoTruth demoStore demoProto := by
  refine ⟨rfl, rfl, rfl, _, ⟨[[1]], [([101], [[2], [3]]), ([102], [[4]])], rfl, rfl, by decide, by decide, by decide, rfl⟩, ?_, ?_⟩
  · intro id
    unfold demoTruth
    split
    · simp
    split
    · simp
    split <;> simp
  · intro id l h
    simp only [demoStore] at h
    split at h
    · cases h; simp
    split at h
    · cases h; simp
    · cases h

example : isConsistent demoProto { chunkLists := [some [⟨0, [2]⟩, ⟨2, [3]⟩], some [⟨0, [4]⟩]] } = true := by decide

/-- Chunks out of order, past the end of the file, and lists that do not start at their start are noticed. -/
example : isConsistent (.mk { kind := .file, fileSize := 10, chunks := [⟨0, [1]⟩, ⟨4, [2]⟩, ⟨3, [2]⟩] } [] []) {} = false := by decide
example : isConsistent (.mk { kind := .file, fileSize := 4, chunks := [⟨0, [1]⟩, ⟨4, [2]⟩] } [] []) {} = false := by decide
example : isConsistent demoProto { chunkLists := [none, some [⟨1, [4]⟩]] } = false := by decide

end Verif.Asset.Check
