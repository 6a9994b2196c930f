import Verif.ChunkMap.Props

/-!
# The server's answers to requests for chunks (C78)

`AssetStreamServiceImpl`, cdc_stream/grpc_asset_stream_server.cc:48-146.  A request is answered at one instant: the
files do not change meanwhile.  Statistics are left out.
-/

namespace Verif.Content

open Verif.ChunkMap

abbrev Bytes := List UInt8

/-! ## Model -/

/-- `path::ReadFile` with an offset, common/path.cc:848-870: the bytes that are read; fewer than `len` if the file ends
before.  `none` is an error.  With length 0 the file is not opened. -/
def readFile (fs : Path → Option Bytes) (path : Path) (offset len : Nat) : Option Bytes :=
  if len = 0 then some []
  else (fs path).map fun content => (content.drop offset).take len

/-- `ReadFromFile`, grpc_asset_stream_server.cc:100-120: the buffer is resized, hence filled with zeros, and what is read
is put at its start.  The number of bytes read is not used. -/
def readFromFile (fs : Path → Option Bytes) (path : Path) (offset size : Nat) : Option Bytes :=
  (readFile fs path offset size).map fun d => d ++ List.replicate (size - d.length) 0

/-- One id of the loop of `GetContent`, grpc_asset_stream_server.cc:71-83.  `store` is the data store,
`ReadFromDataStore`, grpc_asset_stream_server.cc:122-138. -/
def getOne (m : Map) (fs : Path → Option Bytes) (store : Id → Option Bytes) (id : Id) : Option Bytes :=
  match m.lookup id with
  | some (path, offset, size) => readFromFile fs path offset.toNat size.toNat
  | none => store id

/-- `GetContent`, grpc_asset_stream_server.cc:61-89: the data of the response; the first error is the answer. -/
def getContent (m : Map) (fs : Path → Option Bytes) (store : Id → Option Bytes) : List Id → Option (List Bytes)
  | [] => some []
  | id :: ids =>
    match getOne m fs store id with
    | none => none
    | some d =>
      match getContent m fs store ids with
      | none => none
      | some ds => some (d :: ds)

/-! ## Specification -/

/-- What may be answered: one piece of data for each id, in order, with that content id. -/
def Right (hash : Bytes → Id) : List Id → List Bytes → Prop := fun ids ds => ds.map hash = ids

/-- As of the last flush, every file in the map is as it was when it was chunked. -/
def InSync (hash : Bytes → Id) (fs : Path → Option Bytes) (ops : List Op) : Prop :=
  ∀ p n cs, flushedFiles ops p = some (n, cs) →
    ∃ content, fs p = some content ∧ Describes hash 0 content cs ∧ n.toNat = content.length

/-! ## C78 -/

theorem getOne_right {hash : Bytes → Id} {fs : Path → Option Bytes} {store : Id → Option Bytes} {ops : List Op}
    (hs : InSync hash fs ops) (hst : ∀ id d, store id = some d → hash d = id) {id : Id} {d : Bytes}
    (h : getOne (Map.run {} ops) fs store id = some d) : hash d = id := by
  unfold getOne at h
  cases hl : (Map.run {} ops).lookup id with
  | none => rw [hl] at h; exact hst id d h
  | some r =>
    obtain ⟨p, off, sz⟩ := r
    rw [hl] at h
    dsimp only at h
    have hb := C24_lookup_finds_bytes hash (fun q => (fs q).getD []) ops (by
      intro q n cs hq
      obtain ⟨content, h1, h2, h3⟩ := hs q n cs hq
      rw [h1]
      exact ⟨h2, h3⟩) id p off sz hl
    have hr := C24_lookup_reflects_flushed ops id
    rw [hl] at hr
    obtain ⟨next, ⟨n, cs, pre, post, h1, _, _⟩, _⟩ := hr
    obtain ⟨content, hc, _, _⟩ := hs p n cs h1
    rw [hc] at hb
    dsimp only [Option.getD_some] at hb
    unfold readFromFile readFile at h
    by_cases e : sz.toNat = 0
    · rw [if_pos e] at h
      rw [e] at h hb
      simp at h hb
      rw [h]
      exact hb.1
    · rw [if_neg e, hc] at h
      have hlen : ((content.drop off.toNat).take sz.toNat).length = sz.toNat := by
        rw [List.length_take, List.length_drop]
        omega
      simp only [Option.map_some, hlen, Nat.sub_self, List.replicate_zero, List.append_nil, Option.some.injEq] at h
      rw [← h]
      exact hb.1

/-- If the files are unchanged since they were chunked, a request that succeeds is answered with the right data for every
id; the data store is assumed to hold right data. -/
theorem C78_content_right_partial {hash : Bytes → Id} {fs : Path → Option Bytes} {store : Id → Option Bytes}
    {ops : List Op} (hs : InSync hash fs ops) (hst : ∀ id d, store id = some d → hash d = id) {ids : List Id}
    {ds : List Bytes} (h : getContent (Map.run {} ops) fs store ids = some ds) : Right hash ids ds := by
  induction ids generalizing ds with
  | nil =>
    simp only [getContent, Option.some.injEq] at h
    subst h
    rfl
  | cons id ids ih =>
    unfold getContent at h
    cases h1 : getOne (Map.run {} ops) fs store id with
    | none => rw [h1] at h; cases h
    | some d =>
      rw [h1] at h
      cases h2 : getContent (Map.run {} ops) fs store ids with
      | none => rw [h2] at h; cases h
      | some ds' =>
        rw [h2] at h
        simp only [Option.some.injEq] at h
        subst h
        have h3 := ih h2
        unfold Right at h3 ⊢
        rw [List.map_cons, getOne_right hs hst h1, h3]

/-- A request succeeds if every chunk is in an unchanged file or in the data store. -/
theorem C103_content_available {hash : Bytes → Id} {fs : Path → Option Bytes} {store : Id → Option Bytes}
    {ops : List Op} (hs : InSync hash fs ops) {ids : List Id}
    (ha : ∀ id ∈ ids, (∃ p n cs o, flushedFiles ops p = some (n, cs) ∧ (id, o) ∈ cs) ∨ ∃ d, store id = some d) :
    ∃ ds, getContent (Map.run {} ops) fs store ids = some ds := by
  induction ids with
  | nil => exact ⟨[], rfl⟩
  | cons id ids ih =>
    obtain ⟨ds, hds⟩ := ih fun i hi => ha i (List.mem_cons_of_mem _ hi)
    have h1 : ∃ d, getOne (Map.run {} ops) fs store id = some d := by
      have hr := C24_lookup_reflects_flushed ops id
      unfold getOne
      cases hl : (Map.run {} ops).lookup id with
      | none =>
        rw [hl] at hr
        rcases ha id List.mem_cons_self with ⟨p, n, cs, o, h2, h3⟩ | h2
        · exact absurd rfl (hr p n cs h2 _ h3)
        · exact h2
      | some r =>
        obtain ⟨p, off, sz⟩ := r
        rw [hl] at hr
        obtain ⟨next, ⟨n, cs, pre, post, h2, _, _⟩, _⟩ := hr
        obtain ⟨content, hc, _, _⟩ := hs p n cs h2
        unfold readFromFile readFile
        dsimp only
        rw [hc]
        split <;> exact ⟨_, rfl⟩
    obtain ⟨d, hd⟩ := h1
    exact ⟨d :: ds, by unfold getContent; rw [hd, hds]⟩

/-- If a chunk is neither in a flushed file nor in the data store, the request fails. -/
theorem C103_content_missing {fs : Path → Option Bytes} {store : Id → Option Bytes} {ops : List Op} {ids : List Id}
    {id : Id} (hm : id ∈ ids) (hf : ∀ p n cs, flushedFiles ops p = some (n, cs) → ∀ c ∈ cs, c.1 ≠ id)
    (hst : store id = none) : getContent (Map.run {} ops) fs store ids = none := by
  have h1 : getOne (Map.run {} ops) fs store id = none := by
    have hr := C24_lookup_reflects_flushed ops id
    unfold getOne
    cases hl : (Map.run {} ops).lookup id with
    | none => exact hst
    | some r =>
      obtain ⟨p, off, sz⟩ := r
      rw [hl] at hr
      obtain ⟨next, ⟨n, cs, pre, post, h2, h3, _⟩, _⟩ := hr
      exact absurd rfl (hf p n cs h2 (id, off) (by rw [h3]; simp))
  induction ids with
  | nil => cases hm
  | cons i ids ih =>
    unfold getContent
    rcases List.mem_cons.mp hm with rfl | hm
    · rw [h1]
    · rw [ih hm]
      split <;> rfl

/-! ### Files that have changed -/

/-- The content id of the example: the bytes themselves. -/
def idHash : Bytes → Id := fun d => d

def fileA : Path := ['a']

/-- The file `a` was chunked when it held 1, 2, 3, 4. -/
def history : List Op := [.init fileA 4 [⟨[1, 2], 0⟩, ⟨[3, 4], 2⟩], .flush []]

def before : Path → Option Bytes := fun p => if p = fileA then some [1, 2, 3, 4] else none
def shorter : Path → Option Bytes := fun p => if p = fileA then some [1, 2, 3] else none
def edited : Path → Option Bytes := fun p => if p = fileA then some [9, 2, 3, 4] else none

theorem flushed_history : flushedFiles history = fun q => if q = fileA then some (4, [([1, 2], 0), ([3, 4], 2)]) else none := rfl

/-- The hypotheses are met, and the answer is not trivial. -/
theorem inSync_before : InSync idHash before history := by
  intro p n cs h
  rw [flushed_history] at h
  by_cases e : p = fileA
  · simp only [if_pos e, Option.some.injEq, Prod.mk.injEq] at h
    obtain ⟨rfl, rfl⟩ := h
    refine ⟨[1, 2, 3, 4], if_pos e, ?_, rfl⟩
    refine ⟨[1, 2], [3, 4], rfl, rfl, rfl, by decide, [3, 4], [], rfl, rfl, rfl, by decide, rfl⟩
  · simp only [if_neg e] at h
    cases h

example : getContent (Map.run {} history) before (fun _ => none) [[3, 4], [1, 2]] = some [[3, 4], [1, 2]] := by decide
example : getContent (Map.run {} history) before (fun _ => none) [[3, 4], [7]] = none := by decide
example : getContent (Map.run {} history) before (fun i => if i = [7] then some [7] else none) [[7], [3, 4]] =
    some [[7], [3, 4]] := by decide

/-- The file has become shorter since it was chunked: the answer is a success, the missing bytes are zeros. -/
theorem C78_shorter_file_violated :
    ∃ ds, getContent (Map.run {} history) shorter (fun _ => none) [[3, 4]] = some ds ∧ ¬ Right idHash [[3, 4]] ds :=
  ⟨[[3, 0]], by decide, by unfold Right; decide⟩

/-- The file has been edited since it was chunked: the answer is a success, with other bytes than those of the chunk. -/
theorem C78_edited_file_violated :
    ∃ ds, getContent (Map.run {} history) edited (fun _ => none) [[1, 2]] = some ds ∧ ¬ Right idHash [[1, 2]] ds :=
  ⟨[[9, 2]], by decide, by unfold Right; decide⟩

end Verif.Content
