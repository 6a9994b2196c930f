import Verif.ChunkMap.Props
import Mathlib.Data.List.Induction

/-!
# C188: the streaming statistics

manifest/file_chunk_map.cc:128-221 (the recording of streamed and cached chunks), manifest/stats_printer.cc. With statistics enabled the
service shows, for the files used last, which chunks have been streamed to the remote side or were found in its cache, and the
total amounts.

Not modelled: times (which of several chunks shown by one character was touched last), bandwidth, and the printing itself. Numbers
of bytes are natural numbers.
-/
namespace Verif.ChunkMap

/-- `FindChunk`, file_chunk_map.cc:223-251: path, index and size. -/
def Map.locate (m : Map) (id : Id) : Option (Path × Nat × UInt32) :=
  match m.ids.find? fun e => e.1 = id with
  | none => none
  | some (_, path, index) =>
    match m.files.find? fun e => e.1 = path with
    | none => none
    | some (_, file) =>
      match file.chunks[index]? with
      | none => none
      | some c =>
        let next := if index + 1 = file.chunks.length then file.size
          else (file.chunks.getD (index + 1) ⟨[], 0⟩).offset
        some (path, index, (next - c.offset).toUInt32)

/-- `FileChunk`, stats_printer.h:84-106, without the time. -/
inductive Mark where
  | notLoaded
  | streamed (thread : Nat)
  | cached
deriving DecidableEq, Repr

/-- `StatsPrinter`, stats_printer.h:113-130. `broken`: an assertion has failed, or memory outside a vector was written. -/
structure Stats where
  marks : List (Path × List Mark) := []
  recent : List Path := []
  /-- the threads that have a colour -/
  colors : List Nat := []
  streamedBytes : Nat := 0
  cachedBytes : Nat := 0
  broken : Bool := false
deriving DecidableEq, Repr

/-- `AddToRecentFiles`, stats_printer.cc:257-265. -/
def addRecent (recent : List Path) (p : Path) : List Path :=
  if p ∈ recent then recent
  else if (recent ++ [p]).length > 32 then (recent ++ [p]).drop 1 else recent ++ [p]

/-- `path_to_file_[path].chunks[index] = mark`. -/
def setMark (marks : List (Path × List Mark)) (p : Path) (i : Nat) (mk : Mark) : List (Path × List Mark) :=
  marks.map fun e => if e.1 = p then (e.1, e.2.set i mk) else e

/-- The mark of a chunk of a file. -/
def markAt (marks : List (Path × List Mark)) (p : Path) (i : Nat) : Option Mark :=
  match marks.find? fun e => e.1 = p with
  | none => none
  | some e => e.2[i]?

/-- `StatsPrinter::RecordStreamedChunk`, stats_printer.cc:150-163. -/
def Stats.streamed (st : Stats) (p : Path) (i : Nat) (size : UInt32) (thread : Nat) : Stats :=
  { marks := setMark st.marks p i (.streamed thread), recent := addRecent st.recent p,
    colors := if thread ∈ st.colors then st.colors else st.colors ++ [thread],
    streamedBytes := st.streamedBytes + size.toNat, cachedBytes := st.cachedBytes,
    broken := st.broken || (markAt st.marks p i).isNone }

/-- `StatsPrinter::RecordCachedChunk`, stats_printer.cc:165-170. -/
def Stats.cached (st : Stats) (p : Path) (i : Nat) (size : UInt32) : Stats :=
  { st with marks := setMark st.marks p i .cached, recent := addRecent st.recent p, cachedBytes := st.cachedBytes + size.toNat,
            broken := st.broken || (markAt st.marks p i).isNone }

/-- `if (FindChunk(...)) stats_->RecordStreamedChunk(...)`, file_chunk_map.cc:142-143, 207-208. -/
def recordStreamed (m : Map) (st : Stats) (x : Id × Nat) : Stats :=
  match m.locate x.1 with
  | none => st
  | some (p, i, size) => st.streamed p i size x.2

/-- `if (FindChunk(...)) stats_->RecordCachedChunk(...)`, file_chunk_map.cc:164-165, 213-214. -/
def recordCached (m : Map) (st : Stats) (id : Id) : Stats :=
  match m.locate id with
  | none => st
  | some (p, i, size) => st.cached p i size

/-- A map with statistics. -/
structure Shown where
  map : Map := {}
  stats : Stats := {}
  /-- `streamed_chunks_to_thread_` -/
  streamed : List (Id × Nat) := []
  /-- `cached_chunks_` -/
  cached : List Id := []

/-- The second part of `UpdateIdToChunkMap`, file_chunk_map.cc:196-220; `Clear` and `InitFile`, stats_printer.cc:129-142. -/
def rebuild (m : Map) (streamed : List (Id × Nat)) (cached : List Id) (broken : Bool) : Stats :=
  cached.foldl (recordCached m) (streamed.foldl (recordStreamed m)
    { marks := m.files.map fun e => (e.1, List.replicate e.2.chunks.length .notLoaded), broken := broken })

/-- What happens: a change of the map, a chunk sent to the remote side, or a chunk found in its cache. The iteration orders of the hash
maps of the statistics are part of the change (used if they list the same entries). -/
inductive Ev where
  | change (op : Op) (streamed : List (Id × Nat)) (cached : List Id)
  | streamed (id : Id) (thread : Nat)
  | cached (id : Id)

/-- One event: file_chunk_map.cc:67-117 with 182-221, `RecordStreamedChunk` 128-145, `RecordCachedChunk` 147-167. -/
def Shown.step (s : Shown) : Ev → Shown
  | .change op so co =>
    if op.isFlush = true ∧ s.map.updates ≠ [] then
      { s with map := s.map.step op,
               stats := rebuild (s.map.step op) (if so.isPerm s.streamed then so else s.streamed) (if co.isPerm s.cached then co else s.cached) s.stats.broken }
    else { s with map := s.map.step op }
  | .streamed id t =>
    if s.streamed.any (fun e => e.1 = id) then s
    else { s with stats := recordStreamed s.map s.stats (id, t), streamed := s.streamed ++ [(id, t)] }
  | .cached id =>
    if id ∈ s.cached then s
    else if s.streamed.any (fun e => e.1 = id) then s
    else { s with stats := recordCached s.map s.stats id, cached := s.cached ++ [id] }

def Shown.run (s : Shown) (evs : List Ev) : Shown := evs.foldl Shown.step s

/-! ## Specification -/

/-- The chunk was streamed, for the first time to this thread. -/
def WasStreamed (evs : List Ev) (id : Id) (t : Nat) : Prop :=
  ∃ pre post, evs = pre ++ .streamed id t :: post ∧ ∀ t', Ev.streamed id t' ∉ pre

/-- The chunk was found in the cache before it was streamed. -/
def WasCached (evs : List Ev) (id : Id) : Prop := ∃ pre post, evs = pre ++ .cached id :: post ∧ ∀ t, Ev.streamed id t ∉ pre

/-- The size of a chunk in the files of the last flush; 0 if there is no such chunk. -/
def sizeOf (m : Map) (id : Id) : Nat := match m.lookup id with
  | none => 0
  | some (_, _, size) => size.toNat

/-! ## Proof -/

theorem locate_lookup (m : Map) (id : Id) :
    (m.locate id = none ↔ m.lookup id = none) ∧
    ∀ p i sz, m.locate id = some (p, i, sz) → ∃ off, m.lookup id = some (p, off, sz) := by
  unfold Map.locate Map.lookup
  cases m.ids.find? fun e => decide (e.1 = id) with
  | none => simp
  | some e =>
    obtain ⟨_, path, index⟩ := e
    dsimp only
    cases m.files.find? fun e => decide (e.1 = path) with
    | none => simp
    | some e =>
      obtain ⟨_, file⟩ := e
      dsimp only
      cases file.chunks[index]? with
      | none => simp
      | some c =>
        dsimp only
        refine ⟨by simp, fun p i sz h => ?_⟩
        simp only [Option.some.injEq, Prod.mk.injEq] at h ⊢
        exact ⟨_, h.1, rfl, h.2.2⟩

theorem sizeOf_locate (m : Map) (id : Id) : sizeOf m id = match m.locate id with
    | none => 0
    | some (_, _, size) => size.toNat := by
  unfold sizeOf
  cases h : m.locate id with
  | none => rw [(locate_lookup m id).1.1 h]
  | some x => obtain ⟨off, h⟩ := (locate_lookup m id).2 _ _ _ h; rw [h]

/-- Where the index says a chunk is, it is. -/
theorem locate_holds {m : Map} {fl pe : Files} (h : Inv m fl pe) {id : Id} {p : Path} {i : Nat} {sz : UInt32}
    (hl : m.locate id = some (p, i, sz)) :
    ∃ f, m.files.find? (fun e => decide (e.1 = p)) = some (p, f) ∧ ∃ c, f.chunks[i]? = some c ∧ c.id = id := by
  have hx := h.index id
  unfold Map.locate at hl
  cases hf : m.ids.find? fun e => decide (e.1 = id) with
  | none => rw [hf] at hl; cases hl
  | some e =>
    obtain ⟨j, path, index⟩ := e
    rw [hf] at hl hx
    obtain ⟨f, hfm, c, hc, hid⟩ := hx
    have hfind := find_of_mem h.distinct hfm
    dsimp only at hfind hc hl
    rw [hfind] at hl
    dsimp only at hl
    rw [hc] at hl
    simp only [Option.some.injEq, Prod.mk.injEq] at hl
    obtain ⟨rfl, rfl, _⟩ := hl
    exact ⟨f, hfind, c, hc, hid⟩

theorem markAt_setMark (marks : List (Path × List Mark)) (p q : Path) (i j : Nat) (mk : Mark) :
    markAt (setMark marks p i mk) q j = if q = p ∧ j = i then (markAt marks q j).map (fun _ => mk) else markAt marks q j := by
  have hf : (setMark marks p i mk).find? (fun e => decide (e.1 = q)) =
      (marks.find? (fun e => decide (e.1 = q))).map fun e => if e.1 = p then (e.1, e.2.set i mk) else e := by
    unfold setMark
    rw [List.find?_map]
    congr 2
    funext e
    simp only [Function.comp]
    split <;> rfl
  unfold markAt
  rw [hf]
  cases he : marks.find? fun e => decide (e.1 = q) with
  | none => simp
  | some e =>
    have : e.1 = q := by simpa using List.find?_some he
    subst this
    simp only [Option.map_some]
    by_cases hp : e.1 = p
    · rw [if_pos hp]
      by_cases hj : j = i
      · subst hj
        rw [if_pos ⟨hp, rfl⟩]
        simp only [List.getElem?_set_self']
        rfl
      · rw [if_neg (by simp [hj])]
        exact List.getElem?_set_ne (by omega)
    · rw [if_neg hp, if_neg (by simp [hp])]

/-- The shape of the statistics. -/
def shape (marks : List (Path × List Mark)) : List (Path × Nat) := marks.map fun e => (e.1, e.2.length)

theorem shape_setMark (marks : List (Path × List Mark)) (p : Path) (i : Nat) (mk : Mark) : shape (setMark marks p i mk) = shape marks := by
  unfold shape setMark
  rw [List.map_map]
  apply List.map_congr_left
  intro e _
  simp only [Function.comp]
  split <;> simp

/-- The shape of the files. -/
def fileShape (files : List (Path × File)) : List (Path × Nat) := files.map fun e => (e.1, e.2.chunks.length)

theorem markAt_some {marks : List (Path × List Mark)} {files : List (Path × File)} (h : shape marks = fileShape files) {p : Path} {f : File}
    (hf : files.find? (fun e => decide (e.1 = p)) = some (p, f)) (i : Nat) : (markAt marks p i).isSome = decide (i < f.chunks.length) := by
  have h1 : (shape marks).find? (fun e => decide (e.1 = p)) = some (p, f.chunks.length) := by
    rw [h]
    unfold fileShape
    rw [List.find?_map]
    have : ((fun e : Path × Nat => decide (e.1 = p)) ∘ fun e : Path × File => (e.1, e.2.chunks.length)) = fun e => decide (e.1 = p) := rfl
    rw [this, hf]; rfl
  unfold shape at h1
  rw [List.find?_map] at h1
  have : ((fun e : Path × Nat => decide (e.1 = p)) ∘ fun e : Path × List Mark => (e.1, e.2.length)) = fun e => decide (e.1 = p) := rfl
  rw [this] at h1
  unfold markAt
  cases hm : marks.find? fun e => decide (e.1 = p) with
  | none => rw [hm] at h1; cases h1
  | some e =>
    rw [hm] at h1
    simp only [Option.map_some, Option.some.injEq, Prod.mk.injEq] at h1
    simp only [← h1.2]
    by_cases hi : i < e.2.length <;> simp [hi]

/-- The statistics are right for the chunks recorded so far. -/
structure Good (m : Map) (st : Stats) (streamed : List (Id × Nat)) (cached : List Id) : Prop where
  shape : shape st.marks = fileShape m.files
  whole : st.broken = false
  sound_s : ∀ p i t, markAt st.marks p i = some (.streamed t) → ∃ x sz, (x, t) ∈ streamed ∧ m.locate x = some (p, i, sz)
  sound_c : ∀ p i, markAt st.marks p i = some .cached → ∃ x sz, x ∈ cached ∧ m.locate x = some (p, i, sz)
  complete_s : ∀ x ∈ streamed, ∀ p i sz, m.locate x.1 = some (p, i, sz) → markAt st.marks p i ≠ some .notLoaded
  complete_c : ∀ x ∈ cached, ∀ p i sz, m.locate x = some (p, i, sz) → markAt st.marks p i ≠ some .notLoaded
  bytes_s : st.streamedBytes = (streamed.map fun x => sizeOf m x.1).sum
  bytes_c : st.cachedBytes = (cached.map fun x => sizeOf m x).sum
  colors : ∀ p i t, markAt st.marks p i = some (.streamed t) → t ∈ st.colors
  recent_nodup : st.recent.Nodup
  recent_len : st.recent.length ≤ 32
  recent_files : ∀ p ∈ st.recent, ∃ f, (p, f) ∈ m.files

theorem addRecent_spec {l : List Path} (hn : l.Nodup) (hl : l.length ≤ 32) (p : Path) :
    (addRecent l p).Nodup ∧ (addRecent l p).length ≤ 32 ∧ (∀ q ∈ addRecent l p, q = p ∨ q ∈ l) ∧ p ∈ addRecent l p := by
  unfold addRecent
  split
  · rename_i h; exact ⟨hn, hl, fun q hq => .inr hq, h⟩
  · rename_i h
    have hnd : (l ++ [p]).Nodup := by
      rw [List.nodup_append]
      refine ⟨hn, by simp, ?_⟩
      intro a ha b hb
      simp only [List.mem_singleton] at hb
      subst hb
      intro e; subst e; exact h ha
    split
    · rename_i hlen
      refine ⟨(List.drop_sublist ..).nodup hnd, by simp at hlen ⊢; omega, fun q hq => ?_, ?_⟩
      · have := List.mem_of_mem_drop hq
        rcases List.mem_append.mp this with h | h
        · exact .inr h
        · simp at h; exact .inl h
      · cases l with
        | nil => simp at hlen
        | cons a l => simp
    · rename_i hlen
      refine ⟨hnd, by simp at hlen ⊢; omega, fun q hq => ?_, by simp⟩
      rcases List.mem_append.mp hq with h | h
      · exact .inr h
      · simp at h; exact .inl h

theorem mem_of_find {files : List (Path × File)} {p : Path} {f : File} (h : files.find? (fun e => decide (e.1 = p)) = some (p, f)) :
    (p, f) ∈ files := List.mem_of_find?_eq_some h

theorem map_ne_notLoaded {o : Option Mark} {mk : Mark} (h : mk ≠ .notLoaded) : o.map (fun _ => mk) ≠ some .notLoaded := by
  cases o with
  | none => simp
  | some _ => simpa using h

theorem map_some {o : Option Mark} {a b : Mark} (h : o.map (fun _ => a) = some b) : a = b := by
  cases o with
  | none => cases h
  | some _ => simpa using h

theorem good_streamed {m : Map} {fl pe : Files} (hi : Inv m fl pe) {st : Stats} {S : List (Id × Nat)} {C : List Id} (h : Good m st S C)
    (x : Id × Nat) : Good m (recordStreamed m st x) (S ++ [x]) C := by
  unfold recordStreamed
  have hsz := sizeOf_locate m x.1
  cases hl : m.locate x.1 with
  | none =>
    rw [hl] at hsz
    exact { h with
      sound_s := fun p i t hm => by
        obtain ⟨y, sz, hy, e⟩ := h.sound_s p i t hm
        exact ⟨y, sz, List.mem_append_left _ hy, e⟩
      complete_s := fun y hy p i sz e => by
        rcases List.mem_append.mp hy with hy | hy
        · exact h.complete_s y hy p i sz e
        · simp only [List.mem_singleton] at hy; subst hy; rw [hl] at e; cases e
      bytes_s := by rw [h.bytes_s]; simp at hsz; simp [hsz] }
  | some loc =>
    obtain ⟨p, i, sz⟩ := loc
    rw [hl] at hsz
    obtain ⟨f, hf, c, hc, hid⟩ := locate_holds hi hl
    have hlt : i < f.chunks.length := (List.getElem?_eq_some_iff.1 hc).1
    have hsome : (markAt st.marks p i).isSome = true := by rw [markAt_some h.shape hf]; simpa using hlt
    obtain ⟨r1, r2, r3, r4⟩ := addRecent_spec h.recent_nodup h.recent_len p
    refine { shape := ?_, whole := ?_, sound_s := ?_, sound_c := ?_, complete_s := ?_, complete_c := ?_, bytes_s := ?_, bytes_c := h.bytes_c,
             colors := ?_, recent_nodup := r1, recent_len := r2, recent_files := ?_ }
    · show ChunkMap.shape (setMark _ _ _ _) = _
      rw [shape_setMark]; exact h.shape
    · show (st.broken || (markAt st.marks p i).isNone) = false
      rw [h.whole]
      cases hm : markAt st.marks p i with
      | none => rw [hm] at hsome; cases hsome
      | some _ => rfl
    · intro q j t hm
      have hm : markAt (setMark st.marks p i (.streamed x.2)) q j = some (.streamed t) := hm
      rw [markAt_setMark] at hm
      split at hm
      · rename_i e
        have := map_some hm
        injection this with this
        exact ⟨x.1, sz, List.mem_append_right _ (by rw [← this]; simp), by rw [e.1, e.2]; exact hl⟩
      · obtain ⟨y, sz, hy, e⟩ := h.sound_s q j t hm
        exact ⟨y, sz, List.mem_append_left _ hy, e⟩
    · intro q j hm
      have hm : markAt (setMark st.marks p i (.streamed x.2)) q j = some .cached := hm
      rw [markAt_setMark] at hm
      split at hm
      · exact nomatch map_some hm
      · exact h.sound_c q j hm
    · intro y hy q j sz' e
      show markAt (setMark st.marks p i (.streamed x.2)) q j ≠ _
      rw [markAt_setMark]
      split
      · exact map_ne_notLoaded (by simp)
      · rename_i hne
        rcases List.mem_append.mp hy with hy | hy
        · exact h.complete_s y hy q j sz' e
        · simp only [List.mem_singleton] at hy; subst hy
          rw [hl] at e
          simp only [Option.some.injEq, Prod.mk.injEq] at e
          exact absurd ⟨e.1.symm, e.2.1.symm⟩ hne
    · intro y hy q j sz' e
      show markAt (setMark st.marks p i (.streamed x.2)) q j ≠ _
      rw [markAt_setMark]
      split
      · exact map_ne_notLoaded (by simp)
      · exact h.complete_c y hy q j sz' e
    · show st.streamedBytes + sz.toNat = _
      rw [List.map_append, List.sum_append, h.bytes_s]
      simp at hsz
      simp [hsz]
    · intro q j t hm
      have hm : markAt (setMark st.marks p i (.streamed x.2)) q j = some (.streamed t) := hm
      show t ∈ (if x.2 ∈ st.colors then st.colors else st.colors ++ [x.2])
      rw [markAt_setMark] at hm
      split at hm
      · have := map_some hm
        injection this with this
        split
        · rename_i hc; rw [← this]; exact hc
        · simp [this]
      · have := h.colors q j t hm
        split
        · exact this
        · exact List.mem_append_left _ this
    · intro q hq
      rcases r3 q hq with rfl | hq
      · exact ⟨f, mem_of_find hf⟩
      · exact h.recent_files q hq

theorem good_cached {m : Map} {fl pe : Files} (hi : Inv m fl pe) {st : Stats} {S : List (Id × Nat)} {C : List Id} (h : Good m st S C)
    (x : Id) : Good m (recordCached m st x) S (C ++ [x]) := by
  unfold recordCached
  have hsz := sizeOf_locate m x
  cases hl : m.locate x with
  | none =>
    rw [hl] at hsz
    exact { h with
      sound_c := fun p i hm => by
        obtain ⟨y, sz, hy, e⟩ := h.sound_c p i hm
        exact ⟨y, sz, List.mem_append_left _ hy, e⟩
      complete_c := fun y hy p i sz e => by
        rcases List.mem_append.mp hy with hy | hy
        · exact h.complete_c y hy p i sz e
        · simp only [List.mem_singleton] at hy; subst hy; rw [hl] at e; cases e
      bytes_c := by rw [h.bytes_c]; simp at hsz; simp [hsz] }
  | some loc =>
    obtain ⟨p, i, sz⟩ := loc
    rw [hl] at hsz
    obtain ⟨f, hf, c, hc, hid⟩ := locate_holds hi hl
    have hlt : i < f.chunks.length := (List.getElem?_eq_some_iff.1 hc).1
    have hsome : (markAt st.marks p i).isSome = true := by rw [markAt_some h.shape hf]; simpa using hlt
    obtain ⟨r1, r2, r3, r4⟩ := addRecent_spec h.recent_nodup h.recent_len p
    refine { shape := ?_, whole := ?_, sound_s := ?_, sound_c := ?_, complete_s := ?_, complete_c := ?_, bytes_s := h.bytes_s, bytes_c := ?_,
             colors := ?_, recent_nodup := r1, recent_len := r2, recent_files := ?_ }
    · show ChunkMap.shape (setMark _ _ _ _) = _
      rw [shape_setMark]; exact h.shape
    · show (st.broken || (markAt st.marks p i).isNone) = false
      rw [h.whole]
      cases hm : markAt st.marks p i with
      | none => rw [hm] at hsome; cases hsome
      | some _ => rfl
    · intro q j t hm
      have hm : markAt (setMark st.marks p i .cached) q j = some (.streamed t) := hm
      rw [markAt_setMark] at hm
      split at hm
      · exact nomatch map_some hm
      · exact h.sound_s q j t hm
    · intro q j hm
      have hm : markAt (setMark st.marks p i .cached) q j = some .cached := hm
      rw [markAt_setMark] at hm
      split at hm
      · rename_i e
        obtain ⟨rfl, rfl⟩ := e
        exact ⟨x, sz, List.mem_append_right _ (by simp), hl⟩
      · obtain ⟨y, sz, hy, e⟩ := h.sound_c q j hm
        exact ⟨y, sz, List.mem_append_left _ hy, e⟩
    · intro y hy q j sz' e
      show markAt (setMark st.marks p i .cached) q j ≠ _
      rw [markAt_setMark]
      split
      · exact map_ne_notLoaded (by simp)
      · exact h.complete_s y hy q j sz' e
    · intro y hy q j sz' e
      show markAt (setMark st.marks p i .cached) q j ≠ _
      rw [markAt_setMark]
      split
      · exact map_ne_notLoaded (by simp)
      · rename_i hne
        rcases List.mem_append.mp hy with hy | hy
        · exact h.complete_c y hy q j sz' e
        · simp only [List.mem_singleton] at hy; subst hy
          rw [hl] at e
          simp only [Option.some.injEq, Prod.mk.injEq] at e
          exact absurd ⟨e.1.symm, e.2.1.symm⟩ hne
    · show st.cachedBytes + sz.toNat = _
      rw [List.map_append, List.sum_append, h.bytes_c]
      simp at hsz
      simp [hsz]
    · intro q j t hm
      have hm : markAt (setMark st.marks p i .cached) q j = some (.streamed t) := hm
      rw [markAt_setMark] at hm
      split at hm
      · exact nomatch map_some hm
      · exact h.colors q j t hm
    · intro q hq
      rcases r3 q hq with rfl | hq
      · exact ⟨f, mem_of_find hf⟩
      · exact h.recent_files q hq

theorem good_foldS {m : Map} {fl pe : Files} (hi : Inv m fl pe) (l : List (Id × Nat)) : ∀ {st : Stats} {S : List (Id × Nat)} {C : List Id},
    Good m st S C → Good m (l.foldl (recordStreamed m) st) (S ++ l) C := by
  induction l with
  | nil => intro st S C h; rw [List.append_nil]; exact h
  | cons x l ih => intro st S C h; have := ih (good_streamed hi h x); rw [List.append_assoc] at this; exact this

theorem good_foldC {m : Map} {fl pe : Files} (hi : Inv m fl pe) (l : List Id) : ∀ {st : Stats} {S : List (Id × Nat)} {C : List Id},
    Good m st S C → Good m (l.foldl (recordCached m) st) S (C ++ l) := by
  induction l with
  | nil => intro st S C h; rw [List.append_nil]; exact h
  | cons x l ih => intro st S C h; have := ih (good_cached hi h x); rw [List.append_assoc] at this; exact this

theorem good_perm {m : Map} {st : Stats} {S S' : List (Id × Nat)} {C C' : List Id} (h : Good m st S C) (hs : S.Perm S') (hc : C.Perm C') :
    Good m st S' C' :=
  { h with
    sound_s := fun p i t hm => by obtain ⟨x, sz, hx, e⟩ := h.sound_s p i t hm; exact ⟨x, sz, hs.mem_iff.1 hx, e⟩
    sound_c := fun p i hm => by obtain ⟨x, sz, hx, e⟩ := h.sound_c p i hm; exact ⟨x, sz, hc.mem_iff.1 hx, e⟩
    complete_s := fun x hx => h.complete_s x (hs.mem_iff.2 hx)
    complete_c := fun x hx => h.complete_c x (hc.mem_iff.2 hx)
    bytes_s := by rw [h.bytes_s]; exact (hs.map _).sum_nat
    bytes_c := by rw [h.bytes_c]; exact (hc.map _).sum_nat }

theorem markAt_fresh (files : List (Path × File)) (p : Path) (i : Nat) :
    markAt (files.map fun e => (e.1, List.replicate e.2.chunks.length .notLoaded)) p i = none ∨
    markAt (files.map fun e => (e.1, List.replicate e.2.chunks.length .notLoaded)) p i = some .notLoaded := by
  unfold markAt
  cases hf : (files.map fun e => (e.1, List.replicate e.2.chunks.length Mark.notLoaded)).find? fun e => decide (e.1 = p) with
  | none => exact .inl rfl
  | some e =>
    obtain ⟨x, _, rfl⟩ := List.mem_map.1 (List.mem_of_find?_eq_some hf)
    dsimp only
    by_cases h : i < x.2.chunks.length <;> simp [h]

theorem good_fresh (m : Map) : Good m { marks := m.files.map fun e => (e.1, List.replicate e.2.chunks.length .notLoaded) } [] [] := by
  refine { shape := ?_, whole := rfl, sound_s := ?_, sound_c := ?_, complete_s := by simp, complete_c := by simp, bytes_s := rfl, bytes_c := rfl,
           colors := ?_, recent_nodup := List.nodup_nil, recent_len := by simp, recent_files := by simp }
  · unfold shape fileShape
    rw [List.map_map]
    apply List.map_congr_left
    intro e _
    simp
  · intro p i t h
    rcases markAt_fresh m.files p i with e | e <;> (rw [e] at h; cases h)
  · intro p i h
    rcases markAt_fresh m.files p i with e | e <;> (rw [e] at h; cases h)
  · intro p i t h
    rcases markAt_fresh m.files p i with e | e <;> (rw [e] at h; cases h)

/-- What is known after a history. -/
structure Known (s : Shown) (evs : List Ev) : Prop where
  inv : ∃ fl pe, Inv s.map fl pe
  good : Good s.map s.stats s.streamed s.cached
  streamed : ∀ x t, (x, t) ∈ s.streamed ↔ WasStreamed evs x t
  streamed_nodup : (s.streamed.map Prod.fst).Nodup
  cached : ∀ x, x ∈ s.cached ↔ WasCached evs x
  cached_nodup : s.cached.Nodup

theorem snoc_split {evs pre post : List Ev} {e x : Ev} (h : evs ++ [e] = pre ++ x :: post) :
    (∃ post', post = post' ++ [e] ∧ evs = pre ++ x :: post') ∨ (post = [] ∧ x = e ∧ pre = evs) := by
  rcases List.eq_nil_or_concat post with hp | ⟨post', y, hp⟩
  · subst hp
    right
    have := List.append_inj' h rfl
    simp only [List.cons.injEq, and_true] at this
    exact ⟨rfl, this.2.symm, this.1.symm⟩
  · rw [List.concat_eq_append] at hp
    subst hp
    left
    rw [← List.cons_append, ← List.append_assoc] at h
    have := List.append_inj' h rfl
    simp only [List.cons.injEq, and_true] at this
    exact ⟨post', by rw [this.2], this.1⟩

theorem wasStreamed_snoc (evs : List Ev) (e : Ev) (x : Id) (t : Nat) :
    WasStreamed (evs ++ [e]) x t ↔ WasStreamed evs x t ∨ (e = .streamed x t ∧ ∀ t', Ev.streamed x t' ∉ evs) := by
  constructor
  · rintro ⟨pre, post, h, hn⟩
    rcases snoc_split h with ⟨post', rfl, rfl⟩ | ⟨rfl, rfl, rfl⟩
    · exact .inl ⟨pre, post', rfl, hn⟩
    · exact .inr ⟨rfl, hn⟩
  · rintro (⟨pre, post, rfl, hn⟩ | ⟨rfl, hn⟩)
    · exact ⟨pre, post ++ [e], by simp, hn⟩
    · exact ⟨evs, [], rfl, hn⟩

theorem wasCached_snoc (evs : List Ev) (e : Ev) (x : Id) :
    WasCached (evs ++ [e]) x ↔ WasCached evs x ∨ (e = .cached x ∧ ∀ t', Ev.streamed x t' ∉ evs) := by
  constructor
  · rintro ⟨pre, post, h, hn⟩
    rcases snoc_split h with ⟨post', rfl, rfl⟩ | ⟨rfl, rfl, rfl⟩
    · exact .inl ⟨pre, post', rfl, hn⟩
    · exact .inr ⟨rfl, hn⟩
  · rintro (⟨pre, post, rfl, hn⟩ | ⟨rfl, hn⟩)
    · exact ⟨pre, post ++ [e], by simp, hn⟩
    · exact ⟨evs, [], rfl, hn⟩

theorem wasStreamed_iff (evs : List Ev) (x : Id) : (∃ t, WasStreamed evs x t) ↔ ∃ t, Ev.streamed x t ∈ evs := by
  constructor
  · rintro ⟨t, pre, post, rfl, _⟩; exact ⟨t, by simp⟩
  · intro h
    induction evs using List.reverseRecOn with
    | nil => obtain ⟨t, h⟩ := h; cases h
    | append_singleton evs e ih =>
      by_cases hb : ∃ t, Ev.streamed x t ∈ evs
      · obtain ⟨t, h⟩ := ih hb
        exact ⟨t, (wasStreamed_snoc ..).2 (.inl h)⟩
      · obtain ⟨t, h⟩ := h
        rcases List.mem_append.mp h with h | h
        · exact absurd ⟨t, h⟩ hb
        · simp only [List.mem_singleton] at h
          exact ⟨t, (wasStreamed_snoc ..).2 (.inr ⟨h.symm, fun t' ht => hb ⟨t', ht⟩⟩)⟩

theorem any_iff (l : List (Id × Nat)) (x : Id) : l.any (fun e => decide (e.1 = x)) = true ↔ ∃ t, (x, t) ∈ l := by
  rw [List.any_eq_true]
  constructor
  · rintro ⟨e, he, h⟩
    have : e.1 = x := by simpa using h
    exact ⟨e.2, by rw [← this]; exact he⟩
  · rintro ⟨t, h⟩; exact ⟨_, h, by simp⟩

theorem known_run (evs : List Ev) : Known (Shown.run {} evs) evs := by
  induction evs using List.reverseRecOn with
  | nil =>
    refine ⟨⟨_, _, inv_empty⟩, good_fresh {}, ?_, List.nodup_nil, ?_, List.nodup_nil⟩
    · intro x t
      refine ⟨fun h => (List.not_mem_nil h).elim, ?_⟩
      rintro ⟨pre, post, h, _⟩
      exact absurd (congrArg List.length h) (by simp)
    · intro x
      refine ⟨fun h => (List.not_mem_nil h).elim, ?_⟩
      rintro ⟨pre, post, h, _⟩
      exact absurd (congrArg List.length h) (by simp)
  | append_singleton evs e ih =>
    unfold Shown.run at ih ⊢
    rw [List.foldl_append]
    generalize evs.foldl Shown.step {} = s at ih
    show Known (s.step e) _
    obtain ⟨fl, pe, hi⟩ := ih.inv
    have hst : ∀ x, (∃ t, (x, t) ∈ s.streamed) ↔ ∃ t, Ev.streamed x t ∈ evs := by
      intro x
      rw [← wasStreamed_iff]
      exact exists_congr fun t => ih.streamed x t
    cases e with
    | change op so co =>
      have hx : ∀ x t, WasStreamed (evs ++ [.change op so co]) x t ↔ WasStreamed evs x t := fun x t => by rw [wasStreamed_snoc]; simp
      have hy : ∀ x, WasCached (evs ++ [.change op so co]) x ↔ WasCached evs x := fun x => by rw [wasCached_snoc]; simp
      have hi' := inv_step hi op
      unfold Shown.step
      dsimp only
      split
      · refine ⟨⟨_, _, hi'⟩, ?_, fun x t => by rw [hx]; exact ih.streamed x t, ih.streamed_nodup, fun x => by rw [hy]; exact ih.cached x, ih.cached_nodup⟩
        dsimp only
        unfold rebuild
        rw [ih.good.whole]
        have h1 := good_foldS hi' (if so.isPerm s.streamed then so else s.streamed) (good_fresh (s.map.step op))
        have h2 := good_foldC hi' (if co.isPerm s.cached then co else s.cached) h1
        rw [List.nil_append, List.nil_append] at h2
        refine good_perm h2 ?_ ?_
        · split
          · rename_i h; exact List.isPerm_iff.mp h
          · exact .refl _
        · split
          · rename_i h; exact List.isPerm_iff.mp h
          · exact .refl _
      · rename_i hne
        refine ⟨⟨_, _, hi'⟩, ?_, fun x t => by rw [hx]; exact ih.streamed x t, ih.streamed_nodup, fun x => by rw [hy]; exact ih.cached x, ih.cached_nodup⟩
        dsimp only
        have hsame : (s.map.step op).files = s.map.files ∧ (s.map.step op).ids = s.map.ids := by
          cases op with
          | init p n cs => exact ⟨rfl, rfl⟩
          | append p l o => exact ⟨rfl, rfl⟩
          | remove p => exact ⟨rfl, rfl⟩
          | clear => exact ⟨rfl, rfl⟩
          | flush order =>
            have : s.map.updates = [] := Classical.byContradiction fun h => hne ⟨rfl, h⟩
            have e : s.map.step (.flush order) = s.map := by
              show s.map.flush order = _
              unfold Map.flush
              rw [if_pos this]
            rw [e]; exact ⟨rfl, rfl⟩
        have hloc : (s.map.step op).locate = s.map.locate := by funext x; unfold Map.locate; rw [hsame.1, hsame.2]
        have hsz : sizeOf (s.map.step op) = sizeOf s.map := by funext x; rw [sizeOf_locate, sizeOf_locate, hloc]
        have g := ih.good
        exact { shape := by rw [hsame.1]; exact g.shape, whole := g.whole, sound_s := by rw [hloc]; exact g.sound_s, sound_c := by rw [hloc]; exact g.sound_c,
                complete_s := by rw [hloc]; exact g.complete_s, complete_c := by rw [hloc]; exact g.complete_c, bytes_s := by rw [hsz]; exact g.bytes_s,
                bytes_c := by rw [hsz]; exact g.bytes_c, colors := g.colors, recent_nodup := g.recent_nodup, recent_len := g.recent_len,
                recent_files := by rw [hsame.1]; exact g.recent_files }
    | streamed id t =>
      have hy : ∀ x, WasCached (evs ++ [.streamed id t]) x ↔ WasCached evs x := fun x => by rw [wasCached_snoc]; simp
      unfold Shown.step
      dsimp only
      split
      · rename_i ha
        have hin := (hst id).1 ((any_iff _ _).1 ha)
        refine ⟨⟨_, _, hi⟩, ih.good, fun x t' => ?_, ih.streamed_nodup, fun x => by rw [hy]; exact ih.cached x, ih.cached_nodup⟩
        rw [wasStreamed_snoc, ih.streamed]
        refine ⟨.inl, ?_⟩
        rintro (h | ⟨he, hn⟩)
        · exact h
        · injection he with h1 h2
          subst h1
          obtain ⟨t', h⟩ := hin
          exact absurd h (hn t')
      · rename_i ha
        have hnin : ¬ ∃ t, Ev.streamed id t ∈ evs := fun h => ha ((any_iff _ _).2 ((hst id).2 h))
        refine ⟨⟨_, _, hi⟩, good_streamed hi ih.good (id, t), fun x t' => ?_, ?_, fun x => by rw [hy]; exact ih.cached x, ih.cached_nodup⟩
        · rw [wasStreamed_snoc, ← ih.streamed]
          simp only [List.mem_append, List.mem_singleton, Prod.mk.injEq, Ev.streamed.injEq]
          constructor
          · rintro (h | ⟨rfl, rfl⟩)
            · exact .inl h
            · exact .inr ⟨⟨rfl, rfl⟩, fun t' h => hnin ⟨t', h⟩⟩
          · rintro (h | ⟨⟨rfl, rfl⟩, _⟩)
            · exact .inl h
            · exact .inr ⟨rfl, rfl⟩
        · dsimp only
          rw [List.map_append, List.nodup_append]
          refine ⟨ih.streamed_nodup, by simp, ?_⟩
          intro a ha' b hb e
          simp only [List.map_cons, List.map_nil, List.mem_singleton] at hb
          subst hb; subst e
          obtain ⟨y, hym, rfl⟩ := List.mem_map.1 ha'
          exact ha ((any_iff _ _).2 ⟨y.2, hym⟩)
    | cached id =>
      have hx : ∀ x t, WasStreamed (evs ++ [.cached id]) x t ↔ WasStreamed evs x t := fun x t => by rw [wasStreamed_snoc]; simp
      unfold Shown.step
      dsimp only
      split
      · rename_i ha
        refine ⟨⟨_, _, hi⟩, ih.good, fun x t => by rw [hx]; exact ih.streamed x t, ih.streamed_nodup, fun x => ?_, ih.cached_nodup⟩
        rw [wasCached_snoc, ih.cached]
        refine ⟨.inl, ?_⟩
        rintro (h | ⟨he, hn⟩)
        · exact h
        · injection he with h1
          subst h1
          exact (ih.cached _).1 ha
      · rename_i ha
        split
        · rename_i hb
          refine ⟨⟨_, _, hi⟩, ih.good, fun x t => by rw [hx]; exact ih.streamed x t, ih.streamed_nodup, fun x => ?_, ih.cached_nodup⟩
          rw [wasCached_snoc, ih.cached]
          refine ⟨.inl, ?_⟩
          rintro (h | ⟨he, hn⟩)
          · exact h
          · injection he with h1
            subst h1
            obtain ⟨t, h⟩ := (hst _).1 ((any_iff _ _).1 hb)
            exact absurd h (hn t)
        · rename_i hb
          have hnin : ¬ ∃ t, Ev.streamed id t ∈ evs := fun h => hb ((any_iff _ _).2 ((hst id).2 h))
          refine ⟨⟨_, _, hi⟩, good_cached hi ih.good id, fun x t => by rw [hx]; exact ih.streamed x t, ih.streamed_nodup, fun x => ?_, ?_⟩
          · rw [wasCached_snoc, ← ih.cached]
            simp only [List.mem_append, List.mem_singleton, Ev.cached.injEq]
            constructor
            · rintro (h | rfl)
              · exact .inl h
              · exact .inr ⟨rfl, fun t h => hnin ⟨t, h⟩⟩
            · rintro (h | ⟨rfl, _⟩)
              · exact .inl h
              · exact .inr rfl
          · dsimp only
            rw [List.nodup_append]
            refine ⟨ih.cached_nodup, by simp, ?_⟩
            intro a ha' b hb' e
            simp only [List.mem_singleton] at hb'
            subst hb'; subst e
            exact ha ha'

/-! ## Results -/

/-- C188: after every history of changes, streamed and cached chunks: a chunk of a file that is shown as streamed was streamed, for the first time
to the thread shown, and a chunk shown as cached was found in the cache before it was streamed. A chunk shown as not loaded has not been
loaded, unless another place with the same content stands for it. -/
theorem C188_marks (evs : List Ev) (p : Path) (f : File) (hf : (p, f) ∈ (Shown.run {} evs).map.files) (i : Nat) (c : Chunk) (hc : f.chunks[i]? = some c) :
    ∃ mk, markAt (Shown.run {} evs).stats.marks p i = some mk ∧
      (∀ t, mk = .streamed t → WasStreamed evs c.id t) ∧ (mk = .cached → WasCached evs c.id) ∧
      (mk = .notLoaded → (∀ sz, (Shown.run {} evs).map.locate c.id ≠ some (p, i, sz)) ∨ (¬ WasCached evs c.id ∧ ∀ t, ¬ WasStreamed evs c.id t)) := by
  have k := known_run evs
  generalize Shown.run {} evs = s at *
  obtain ⟨fl, pe, hi⟩ := k.inv
  have hfind : s.map.files.find? (fun e => decide (e.1 = p)) = some (p, f) := find_of_mem hi.distinct hf
  have hlt : i < f.chunks.length := (List.getElem?_eq_some_iff.1 hc).1
  have hsome := markAt_some k.good.shape hfind i
  rw [decide_eq_true hlt] at hsome
  obtain ⟨mk, hm⟩ := Option.isSome_iff_exists.1 hsome
  have same : ∀ x sz, s.map.locate x = some (p, i, sz) → x = c.id := by
    intro x sz hl
    obtain ⟨f', hf', c', hc', hid⟩ := locate_holds hi hl
    rw [hfind] at hf'
    simp only [Option.some.injEq, Prod.mk.injEq, true_and] at hf'
    subst hf'
    rw [hc] at hc'
    injection hc' with hc'
    rw [hc', hid]
  refine ⟨mk, hm, ?_, ?_, ?_⟩
  · rintro t rfl
    obtain ⟨x, sz, hx, hl⟩ := k.good.sound_s p i t hm
    rw [← same x sz hl]
    exact (k.streamed x t).1 hx
  · rintro rfl
    obtain ⟨x, sz, hx, hl⟩ := k.good.sound_c p i hm
    rw [← same x sz hl]
    exact (k.cached x).1 hx
  · rintro rfl
    by_cases h : ∃ sz, s.map.locate c.id = some (p, i, sz)
    · obtain ⟨sz, h⟩ := h
      right
      refine ⟨fun hw => ?_, fun t hw => ?_⟩
      · exact k.good.complete_c _ ((k.cached _).2 hw) p i sz h hm
      · exact k.good.complete_s _ ((k.streamed _ t).2 hw) p i sz h hm
    · left
      intro sz hl
      exact h ⟨sz, hl⟩

/-- C188: the amounts shown are the sums of the sizes of the different chunks that were streamed, and that were cached, as far as they are still
part of a file. -/
theorem C188_totals (evs : List Ev) : ∃ streamed cached : List Id, streamed.Nodup ∧ cached.Nodup ∧
    (∀ x, x ∈ streamed ↔ ∃ t, Ev.streamed x t ∈ evs) ∧ (∀ x, x ∈ cached ↔ WasCached evs x) ∧
    (Shown.run {} evs).stats.streamedBytes = (streamed.map (sizeOf (Shown.run {} evs).map)).sum ∧
    (Shown.run {} evs).stats.cachedBytes = (cached.map (sizeOf (Shown.run {} evs).map)).sum := by
  have k := known_run evs
  generalize Shown.run {} evs = s at *
  refine ⟨s.streamed.map Prod.fst, s.cached, k.streamed_nodup, k.cached_nodup, fun x => ?_, k.cached, ?_, k.good.bytes_c⟩
  · rw [← wasStreamed_iff, List.mem_map]
    constructor
    · rintro ⟨y, hy, rfl⟩; exact ⟨y.2, (k.streamed _ _).1 hy⟩
    · rintro ⟨t, h⟩; exact ⟨(x, t), (k.streamed _ _).2 h, rfl⟩
  · rw [k.good.bytes_s, List.map_map]; rfl

/-- C188: recording never fails an assertion or writes outside the chunks of a file; at most 32 different files are shown, all of them part of the
manifest, and every thread shown has a colour. -/
theorem C188_safe (evs : List Ev) :
    let st := (Shown.run {} evs).stats
    st.broken = false ∧ st.recent.Nodup ∧ st.recent.length ≤ 32 ∧ (∀ p ∈ st.recent, ∃ f, (p, f) ∈ (Shown.run {} evs).map.files) ∧
    ∀ p i t, markAt st.marks p i = some (.streamed t) → t ∈ st.colors := by
  have k := (known_run evs).good
  exact ⟨k.whole, k.recent_nodup, k.recent_len, k.recent_files, k.colors⟩

/-! ### The line of a file -/

/-- The chunks shown by character `n`, stats_printer.cc:190-198: `begin_idx` and `end_idx`. -/
def group (chunks width n : Nat) : Nat × Nat := (n * chunks / width, (n + 1) * chunks / width)

/-- C188: in the line of a file every chunk is shown by exactly one character, and every character shows at least one chunk, however wide the console
is. -/
theorem C188_line (chunks console k : Nat) (hk : k < chunks) (hw : 0 < min chunks console) :
    (∃ n, n < min chunks console ∧ (group chunks (min chunks console) n).1 ≤ k ∧ k < (group chunks (min chunks console) n).2) ∧
    (∀ n n', (group chunks (min chunks console) n).1 ≤ k → k < (group chunks (min chunks console) n).2 →
      (group chunks (min chunks console) n').1 ≤ k → k < (group chunks (min chunks console) n').2 → n = n') ∧
    ∀ n, n < min chunks console → (group chunks (min chunks console) n).1 < (group chunks (min chunks console) n).2 ∧
      (group chunks (min chunks console) n).2 ≤ chunks := by
  generalize hW : min chunks console = w at *
  have hle : w ≤ chunks := by omega
  unfold group
  dsimp only
  have lo : ∀ n, n * chunks / w ≤ k ↔ n * chunks < (k + 1) * w := fun n => by
    rw [← Nat.lt_succ_iff, Nat.div_lt_iff_lt_mul hw]
  have hi : ∀ n, k < n * chunks / w ↔ (k + 1) * w ≤ n * chunks := fun n => by
    rw [Nat.lt_iff_add_one_le, Nat.le_div_iff_mul_le hw]
  refine ⟨?_, ?_, ?_⟩
  · -- the character is the last one that begins at or before `k`
    have hc : 0 < chunks := by omega
    refine ⟨((k + 1) * w - 1) / chunks, ?_, ?_, ?_⟩
    · rw [Nat.div_lt_iff_lt_mul hc]
      have : (k + 1) * w ≤ chunks * w := Nat.mul_le_mul_right _ hk
      have : chunks * w = w * chunks := Nat.mul_comm ..
      have : 0 < w * chunks := Nat.mul_pos hw hc
      omega
    · rw [lo]
      have := Nat.div_mul_le_self ((k + 1) * w - 1) chunks
      have : 0 < (k + 1) * w := Nat.mul_pos (by omega) hw
      omega
    · rw [hi]
      have := Nat.lt_div_mul_add (a := (k + 1) * w - 1) hc
      have e : (((k + 1) * w - 1) / chunks + 1) * chunks = ((k + 1) * w - 1) / chunks * chunks + chunks := Nat.succ_mul ..
      rw [e]
      omega
  · intro n n' h1 h2 h3 h4
    rw [lo] at h1 h3
    rw [hi] at h2 h4
    have a : n * chunks < (n' + 1) * chunks := by omega
    have b : n' * chunks < (n + 1) * chunks := by omega
    have a := Nat.lt_of_mul_lt_mul_right a
    have b := Nat.lt_of_mul_lt_mul_right b
    omega
  · intro n hn
    refine ⟨?_, ?_⟩
    · rw [Nat.lt_iff_add_one_le, Nat.le_div_iff_mul_le hw]
      have := Nat.div_mul_le_self (n * chunks) w
      rw [Nat.add_mul, Nat.add_mul]
      omega
    · calc (n + 1) * chunks / w ≤ w * chunks / w := Nat.div_le_div_right (Nat.mul_le_mul_right _ hn)
        _ = chunks := Nat.mul_div_cancel_left _ hw

/-! ### Examples and what goes wrong -/

/-- A file of two chunks, and another change. -/
def showOps : List Ev :=
  [.change (.init "a".toList 5 [⟨[1], 0⟩, ⟨[2], 3⟩]) [] [], .change (.flush []) [] [], .cached [1], .streamed [2] 7]

example : (Shown.run {} showOps).stats.marks = [("a".toList, [.cached, .streamed 7])] ∧
    (Shown.run {} showOps).stats.cachedBytes = 3 ∧ (Shown.run {} showOps).stats.streamedBytes = 2 := by decide +kernel

/-- C188, what goes wrong: a chunk that was found in the cache, dropped from it and streamed counts twice, so that more is shown than there is
in all files; and the next change of any file turns its mark from streamed to cached. -/
theorem C188_twice_violated :
    let evs : List Ev := [.change (.init "a".toList 5 [⟨[1], 0⟩]) [] [], .change (.flush []) [] [], .cached [1], .streamed [1] 7]
    let s := Shown.run {} evs
    let s' := s.run [.change (.init "b".toList 0 []) [] [], .change (.flush []) [] []]
    s.stats.streamedBytes + s.stats.cachedBytes = 10 ∧ s.map.files = [("a".toList, ⟨[⟨[1], 0⟩], 5⟩)] ∧
    markAt s.stats.marks "a".toList 0 = some (.streamed 7) ∧ markAt s'.stats.marks "a".toList 0 = some .cached := by decide +kernel

/-- C188, what goes wrong: of two files with the same content only one is shown as loaded. -/
theorem C188_same_content_violated :
    let evs : List Ev := [.change (.init "a".toList 5 [⟨[1], 0⟩]) [] [], .change (.init "b".toList 5 [⟨[1], 0⟩]) [] [],
      .change (.flush []) [] [], .streamed [1] 7]
    (Shown.run {} evs).stats.marks = [("a".toList, [.notLoaded]), ("b".toList, [.streamed 7])] := by decide +kernel

end Verif.ChunkMap
