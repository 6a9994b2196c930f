import Verif.Manifest.Iterator

/-!
# The size of a manifest that is reported when streaming begins (C202)

`MultiSessionRunner::RecordMultiSessionStart`, cdc_stream/multi_session.cc:315-364, on the model of the iterator of C29.
-/

namespace Verif.Manifest.Counts

open Verif.Manifest.Iter (State Alloc open_ collect Walk WalkL C29_visits_everything_once)

/-! ## Model -/

/-- `file_count`, `total_chunks` and `total_processed_bytes`, multi_session.cc:325-327. -/
structure Counts where
  files : UInt32 := 0
  chunks : UInt64 := 0
  bytes : UInt64 := 0
  deriving DecidableEq, Repr

/-- The loop over the indirect chunk lists of a file, multi_session.cc:333-344; `lists` reads a chunk list from the store.  A list that cannot be read is
only logged. -/
def addLists (lists : Id → Option (List Ref)) : List Indirect → UInt64 → UInt64
  | [], n => n
  | i :: is, n =>
    match lists i.listId with
    | some l => addLists lists is (n + UInt64.ofNat l.length)
    | none => addLists lists is n

/-- One iteration of the loop, multi_session.cc:329-345. -/
def countOne (lists : Id → Option (List Ref)) (c : Counts) (a : Asset) : Counts :=
  if a.info.kind = .file then
    { files := c.files + 1
      chunks := addLists lists a.info.indirect (c.chunks + UInt64.ofNat a.info.chunks.length)
      bytes := c.bytes + UInt64.ofNat a.info.fileSize }
  else c

/-- The counts that are reported, multi_session.cc:324-350: the loop begins with the root directory and goes on with what `NextEntry` returns until it
returns `nullptr`; its status is not looked at.  `none` if there is too little fuel. -/
def reported (get : Id → Option (List Asset)) (lists : Id → Option (List Ref)) (alloc : Alloc) (fuel : Nat) (addr : Nat) (root : Asset) : Option Counts :=
  (collect get alloc fuel (open_ addr root)).map fun r => (root :: r.1.map (·.2)).foldl (countOne lists) {}

/-! ## Specification -/

/-- All chunks of a file: those in the file itself, and those in its lists, if all can be read. -/
def allChunks (lists : Id → Option (List Ref)) (a : Asset) : Option (List Ref) :=
  (a.info.indirect.mapM fun i => lists i.listId).map fun ls => a.info.chunks ++ ls.flatten

/-- The files among some assets. -/
def filesOf (l : List Asset) : List Asset := l.filter fun a => a.info.kind = .file

/-- The counts tell how many files there are, and how many chunks and bytes they have. -/
structure Right (lists : Id → Option (List Ref)) (fs : List Asset) (c : Counts) : Prop where
  files : c.files.toNat = fs.length % 2 ^ 32
  chunks : ∃ chunks : List (List Ref), fs.mapM (allChunks lists) = some chunks ∧ c.chunks.toNat = chunks.flatten.length % 2 ^ 64
  bytes : c.bytes.toNat = (fs.map (·.info.fileSize)).sum % 2 ^ 64

/-! ## Proof -/

theorem addLists_eq {lists : Id → Option (List Ref)} {is : List Indirect} {ls : List (List Ref)} (h : is.mapM (fun i => lists i.listId) = some ls)
    (n : UInt64) : (addLists lists is n).toNat = (n.toNat + ls.flatten.length) % 2 ^ 64 := by
  induction is generalizing ls n with
  | nil =>
    cases ls with
    | nil =>
      show n.toNat = _
      have := n.toNat_lt
      simp only [List.flatten_nil, List.length_nil, Nat.add_zero]
      omega
    | cons l ls => simp at h
  | cons i is ih =>
    simp only [List.mapM_cons, Option.bind_eq_bind, Option.bind_eq_some_iff, Option.pure_def, Option.some.injEq] at h
    obtain ⟨l, hl, ls', hls, rfl⟩ := h
    unfold addLists
    rw [hl]
    dsimp only
    rw [ih hls]
    simp only [UInt64.toNat_add, UInt64.toNat_ofNat', List.flatten_cons, List.length_append]
    omega

theorem count_files {lists : Id → Option (List Ref)} (l : List Asset) (c : Counts) {chunks : List (List Ref)}
    (h : (filesOf l).mapM (allChunks lists) = some chunks) :
    (l.foldl (countOne lists) c).files.toNat = (c.files.toNat + (filesOf l).length) % 2 ^ 32 ∧
    (l.foldl (countOne lists) c).chunks.toNat = (c.chunks.toNat + chunks.flatten.length) % 2 ^ 64 ∧
    (l.foldl (countOne lists) c).bytes.toNat = (c.bytes.toNat + ((filesOf l).map (·.info.fileSize)).sum) % 2 ^ 64 := by
  induction l generalizing c chunks with
  | nil =>
    cases chunks with
    | nil =>
      have h1 := c.files.toNat_lt
      have h2 := c.chunks.toNat_lt
      have h3 := c.bytes.toNat_lt
      simp only [filesOf, List.foldl_nil, List.filter_nil, List.map_nil, List.length_nil, List.flatten_nil, List.sum_nil, Nat.add_zero]
      omega
    | cons a b => simp [filesOf] at h
  | cons a l ih =>
    rw [List.foldl_cons]
    by_cases ha : a.info.kind = .file
    · have hf : filesOf (a :: l) = a :: filesOf l := by simp [filesOf, ha]
      rw [hf] at h ⊢
      simp only [List.mapM_cons, Option.bind_eq_bind, Option.bind_eq_some_iff, Option.pure_def, Option.some.injEq] at h
      obtain ⟨x, hx, xs, hxs, rfl⟩ := h
      obtain ⟨h1, h2, h3⟩ := ih (countOne lists c a) hxs
      rw [h1, h2, h3]
      unfold countOne
      rw [if_pos ha]
      unfold allChunks at hx
      obtain ⟨ls, hls, rfl⟩ := Option.map_eq_some_iff.mp hx
      simp only [addLists_eq hls, UInt32.toNat_add, UInt64.toNat_add, UInt64.toNat_ofNat', List.length_cons, List.map_cons, List.sum_cons, List.flatten_cons,
        List.length_append, show (1 : UInt32).toNat = 1 from rfl]
      omega
    · have hf : filesOf (a :: l) = filesOf l := by simp [filesOf, ha]
      rw [hf] at h ⊢
      have : countOne lists c a = c := by unfold countOne; rw [if_neg ha]
      rw [this]
      exact ih c h

/-- **C202**, the part that holds: if all parts of a manifest can be read, the counts reported are those of its files. -/
theorem C202_counts_partial {get : Id → Option (List Asset)} {lists : Id → Option (List Ref)} {alloc : Alloc} (hf : alloc.Fresh) (addr : Nat) {root : Asset}
    (hroot : root.info.kind = .directory) {out : List (List Name × Asset)} (hw : Walk get [root.name] root out)
    (hl : ∀ e ∈ out, e.2.info.kind = .file → allChunks lists e.2 ≠ none) :
    ∃ c fuel, (∀ more, reported get lists alloc (fuel + more) addr root = some c) ∧ Right lists (filesOf (out.map (·.2))) c := by
  obtain ⟨fuel, hfuel⟩ := C29_visits_everything_once (alloc := alloc) hf addr root out hw
  have hsome : ∀ l : List Asset, (∀ a ∈ l, allChunks lists a ≠ none) → ∃ r, l.mapM (allChunks lists) = some r := by
    intro l
    induction l with
    | nil => exact fun _ => ⟨[], rfl⟩
    | cons a l ih =>
      intro h
      obtain ⟨r, hr⟩ := ih fun b hb => h b (List.mem_cons_of_mem _ hb)
      obtain ⟨x, hx⟩ := Option.ne_none_iff_exists'.mp (h a (List.mem_cons_self ..))
      exact ⟨x :: r, by simp [List.mapM_cons, hx, hr]⟩
  obtain ⟨chunks, hchunks⟩ := hsome (filesOf (out.map (·.2))) fun a ha => by
    have ha := List.mem_filter.mp ha
    obtain ⟨e, he, hea⟩ := List.mem_map.mp ha.1
    rw [← hea]
    exact hl e he (by rw [hea]; simpa using ha.2)
  refine ⟨(root :: out.map (·.2)).foldl (countOne lists) {}, fuel, fun more => ?_, ?_⟩
  · unfold reported; rw [hfuel more]; rfl
  · have hr : countOne lists {} root = {} := by unfold countOne; rw [if_neg (by rw [hroot]; decide)]
    rw [List.foldl_cons, hr]
    obtain ⟨h1, h2, h3⟩ := count_files (out.map (·.2)) {} hchunks
    refine ⟨?_, ⟨chunks, hchunks, ?_⟩, ?_⟩
    · rw [h1]; show (0 + _) % _ = _; rw [Nat.zero_add]
    · rw [h2]; show (0 + _) % _ = _; rw [Nat.zero_add]
    · rw [h3]; show (0 + _) % _ = _; rw [Nat.zero_add]

/-! ## Examples -/

namespace Example

def chunk (n : Nat) : Ref := ⟨n, [1]⟩
def small : Asset := .mk { name := [1], kind := .file, fileSize := 10, chunks := [chunk 0] } [] []
def large : Asset := .mk { name := [2], kind := .file, fileSize := 5000, chunks := [chunk 0], indirect := [⟨1000, [9]⟩] } [] []
def sub : Asset := .mk { name := [3], kind := .directory } [small] [[7]]
def root : Asset := .mk { kind := .directory } [large, sub] []
def get : Id → Option (List Asset)
  | [7] => some [.mk { name := [4], kind := .file, fileSize := 1, chunks := [chunk 0] } [] []]
  | _ => none
def lists : Id → Option (List Ref)
  | [9] => some [chunk 0, chunk 2000]
  | _ => none

example : reported get lists Iter.Example.reuse 30 0 root = some ⟨3, 5, 5011⟩ := by decide +kernel

/-- With a list that cannot be read there is one file less, and one chunk list less. -/
example : reported (fun _ => none) lists Iter.Example.reuse 30 0 root = some ⟨2, 4, 5010⟩ ∧
    reported get (fun _ => none) Iter.Example.reuse 30 0 root = some ⟨3, 3, 5011⟩ ∧
    (collect (fun _ => none) Iter.Example.reuse 30 (open_ 0 root)).map (·.2) = some false := by decide +kernel

example : ∃ out, Walk get [root.name] root out ∧ ∀ e ∈ out, e.2.info.kind = .file → allChunks lists e.2 ≠ none := by
  refine ⟨_, .dir rfl (.file (by decide) (.dir rfl (.dir rfl (.file (by decide) (.file (by decide) (.nil _)))) (.nil _))), ?_⟩
  simp [allChunks, lists, large, small, sub]

end Example

/-- **C202** is false of the code: when a part of the manifest, or a chunk list, cannot be read, smaller counts are reported, and nothing tells that they
are not those of the manifest.  Here `get` and `lists` are what was stored, and `get'` and `lists'` what can still be read. -/
theorem C202_silent_violated :
    ¬ ∀ (get get' : Id → Option (List Asset)) (lists lists' : Id → Option (List Ref)) (root : Asset) (out : List (List Name × Asset)) (fuel : Nat) (c : Counts),
      Walk get [root.name] root out → (∀ id, get' id = none ∨ get' id = get id) → (∀ id, lists' id = none ∨ lists' id = lists id) →
      reported get' lists' Iter.Example.reuse fuel 0 root = some c → Right lists (filesOf (out.map (·.2))) c := by
  intro h
  have := h Example.get (fun _ => none) Example.lists Example.lists Example.root _ 30 ⟨2, 4, 5010⟩
    (.dir rfl (.file (by decide) (.dir rfl (.dir rfl (.file (by decide) (.file (by decide) (.nil _)))) (.nil _))))
    (fun _ => .inl rfl) (fun _ => .inr rfl) (by decide +kernel)
  exact absurd this.files (by decide)

end Verif.Manifest.Counts
