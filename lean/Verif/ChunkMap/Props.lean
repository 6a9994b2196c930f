import Verif.ChunkMap.Model
import Mathlib.Data.List.Nodup

/-! # C24: chunk lookups reflect the flushed files -/
namespace Verif.ChunkMap

/-! ### Specification -/

/-- A set of files: for a path, the size and the chunks (id and absolute offset). -/
abbrev Files := Path → Option (UInt64 × List (Id × UInt64))

/-- What one operation means for the files. -/
def specStep (f : Files) : Op → Files
  | .init p n cs => fun q => if q = p then some (n, cs.map fun c => (c.id, c.offset)) else f q
  | .append p l o => fun q =>
    if q = p then
      match f p with
      | none => some (0, l.map fun c => (c.1, c.2 + o))
      | some (n, cs) => some (n, cs ++ l.map fun c => (c.1, c.2 + o))
    else f q
  | .remove p => fun q => if q = p then none else f q
  | .clear => fun _ => none
  | .flush _ => f

def noFiles : Files := fun _ => none

/-- The operations up to and including the last flush. -/
def upToLastFlush : List Op → List Op
  | [] => []
  | op :: ops =>
    match upToLastFlush ops with
    | [] => match op with
      | .flush o => [.flush o]
      | _ => []
    | l => op :: l

/-- The files as of the last flush. -/
def flushedFiles (ops : List Op) : Files := (upToLastFlush ops).foldl specStep noFiles

/-- Chunk `id` is in file `p` at `off` and reaches to `next`: the following chunk or the end of the file. -/
def ChunkAt (f : Files) (id : Id) (p : Path) (off next : UInt64) : Prop :=
  ∃ n cs pre post, f p = some (n, cs) ∧ cs = pre ++ (id, off) :: post ∧
    next = match post with | [] => n | c :: _ => c.2

/-! ### Abstraction -/

def abs (files : List (Path × File)) : Files := fun p =>
  (files.find? fun e => e.1 = p).map fun e => (e.2.size, e.2.chunks.map fun c => (c.id, c.offset))

def specUpdate (f : Files) : Update → Files
  | .init p n cs => specStep f (.init p n cs)
  | .append p cs => fun q =>
    if q = p then
      match f p with
      | none => some (0, cs.map fun c => (c.id, c.offset))
      | some (n, l) => some (n, l ++ cs.map fun c => (c.id, c.offset))
    else f q
  | .remove p => specStep f (.remove p)
  | .clear => specStep f .clear

def Distinct (files : List (Path × File)) : Prop := (files.map Prod.fst).Nodup

theorem map_eq_self {α : Type _} {l : List α} {f : α → α} (h : ∀ x ∈ l, f x = x) : l.map f = l := by
  conv_rhs => rw [← List.map_id l]
  exact List.map_congr_left h

theorem find_setEntry (files : List (Path × File)) (p : Path) (f : File) (q : Path) :
    ((setEntry files p f).find? fun e => e.1 = q) = if q = p then some (p, f) else files.find? fun e => e.1 = q := by
  unfold setEntry
  split
  · rename_i h
    induction files with
    | nil => simp at h
    | cons e es ih =>
      rw [List.map_cons, List.find?_cons, List.find?_cons]
      by_cases e1 : e.1 = p
      · rw [if_pos e1]
        by_cases e2 : q = p
        · simp [e2]
        · have : p ≠ q := fun e => e2 e.symm
          have h3 : e.1 ≠ q := by rw [e1]; exact this
          simp only [this, decide_false, h3]
          rw [if_neg e2]
          by_cases hh : es.any (fun e => decide (e.1 = p)) = true
          · rw [ih hh, if_neg e2]
          · congr 1
            have : ∀ x ∈ es, x.1 ≠ p := by
              intro x hx he; exact hh (List.any_eq_true.mpr ⟨x, hx, by simpa using he⟩)
            exact map_eq_self fun x hx => by rw [if_neg (this x hx)]
      · rw [if_neg e1]
        have h' : es.any (fun e => decide (e.1 = p)) = true := by
          simpa [e1] using h
        by_cases e2 : e.1 = q
        · have : q ≠ p := by rw [← e2]; exact e1
          simp [e2, this]
        · simp only [e2, decide_false]
          exact ih h'
  · rename_i h
    have hn : ∀ x ∈ files, x.1 ≠ p := by
      intro x hx he; exact h (List.any_eq_true.mpr ⟨x, hx, by simpa using he⟩)
    rw [List.find?_append]
    by_cases e2 : q = p
    · have : files.find? (fun e => e.1 = q) = none := by
        rw [List.find?_eq_none]; intro x hx; simp [e2, hn x hx]
      rw [this, if_pos e2]; simp [e2]
    · rw [if_neg e2]
      have : p ≠ q := fun e => e2 e.symm
      simp [this]

theorem distinct_setEntry {files : List (Path × File)} (h : Distinct files) (p : Path) (f : File) :
    Distinct (setEntry files p f) := by
  unfold setEntry
  split
  · unfold Distinct
    rw [List.map_map]
    have : (Prod.fst ∘ fun e : Path × File => if e.1 = p then (p, f) else e) = Prod.fst := by
      funext e
      simp only [Function.comp]
      split
      · rename_i h; exact h.symm
      · rfl
    rw [this]; exact h
  · rename_i hn
    unfold Distinct
    rw [List.map_append, List.nodup_append]
    refine ⟨h, by simp, ?_⟩
    intro a ha b hb
    simp only [List.map_cons, List.map_nil, List.mem_singleton] at hb
    rintro rfl
    obtain ⟨x, hx, e⟩ := List.mem_map.mp ha
    exact hn (List.any_eq_true.mpr ⟨x, hx, by simpa using e.trans hb⟩)

theorem find_filter_ne (files : List (Path × File)) (p q : Path) :
    ((files.filter fun e => e.1 ≠ p).find? fun e => e.1 = q) = if q = p then none else files.find? fun e => e.1 = q := by
  induction files with
  | nil => simp
  | cons e es ih =>
    rw [List.filter_cons]
    by_cases e1 : e.1 = p
    · rw [if_neg (by simpa using e1), ih]
      by_cases e2 : q = p
      · simp [e2]
      · rw [if_neg e2, if_neg e2, List.find?_cons]
        have : e.1 ≠ q := by rw [e1]; exact fun e => e2 e.symm
        simp [this]
    · rw [if_pos (by simpa using e1), List.find?_cons, List.find?_cons, ih]
      by_cases e2 : e.1 = q
      · have : q ≠ p := by rw [← e2]; exact e1
        simp [e2, this]
      · simp [e2]

theorem abs_applyUpdate (s : List (Path × File) × Nat) (u : Update) :
    abs (applyUpdate s u).1 = specUpdate (abs s.1) u := by
  funext q
  cases u with
  | init p n cs =>
    simp only [abs, applyUpdate, find_setEntry, specUpdate, specStep]
    split <;> rfl
  | append p cs =>
    show Option.map _ ((setEntry s.1 p _).find? fun e => e.1 = q) = _
    rw [find_setEntry]
    unfold specUpdate
    dsimp only
    by_cases e : q = p
    · rw [if_pos e, if_pos e]
      unfold abs entry
      rcases hf : s.1.find? fun e => e.1 = p with _ | ⟨x, f⟩
      · rw [hf]; simp
      · rw [hf]
        obtain ⟨fc, fs⟩ := f
        cases fc <;> simp
    · rw [if_neg e, if_neg e]; rfl
  | remove p =>
    unfold specUpdate specStep abs applyUpdate
    dsimp only
    rcases hf : s.1.find? fun e => e.1 = p with _ | x
    · rw [hf]
      dsimp only
      split
      · rename_i h; rw [h, hf]; rfl
      · rfl
    · rw [hf]
      dsimp only
      rw [find_filter_ne]
      split <;> rfl
  | clear => rfl

theorem distinct_applyUpdate {s : List (Path × File) × Nat} (h : Distinct s.1) (u : Update) :
    Distinct (applyUpdate s u).1 := by
  cases u with
  | init p n cs => exact distinct_setEntry h _ _
  | append p cs => exact distinct_setEntry h _ _
  | remove p =>
    unfold applyUpdate
    dsimp only
    split
    · exact h
    · exact (List.filter_sublist.map _).nodup h
  | clear => exact List.nodup_nil

theorem applyAll {s : List (Path × File) × Nat} (h : Distinct s.1) (us : List Update) :
    abs (us.foldl applyUpdate s).1 = us.foldl specUpdate (abs s.1) ∧ Distinct (us.foldl applyUpdate s).1 := by
  induction us generalizing s with
  | nil => exact ⟨rfl, h⟩
  | cons u us ih =>
    obtain ⟨h1, h2⟩ := ih (distinct_applyUpdate h u)
    refine ⟨?_, h2⟩
    rw [List.foldl_cons, List.foldl_cons, h1, abs_applyUpdate]

theorem find_of_mem {files : List (Path × File)} (h : Distinct files) {e : Path × File} (he : e ∈ files) :
    (files.find? fun x => x.1 = e.1) = some e := by
  cases hf : files.find? fun x => x.1 = e.1 with
  | none => have := List.find?_eq_none.mp hf e he; simp at this
  | some y =>
    have h1 := List.find?_some hf
    simp only [decide_eq_true_eq] at h1
    rw [List.inj_on_of_nodup_map h (List.mem_of_find?_eq_some hf) he h1]

theorem abs_perm {a b : List (Path × File)} (ha : Distinct a) (h : b.Perm a) : abs b = abs a ∧ Distinct b := by
  have hb : Distinct b := (h.map Prod.fst).nodup_iff.mpr ha
  refine ⟨?_, hb⟩
  funext p
  unfold abs
  cases hf : a.find? fun e => e.1 = p with
  | none =>
    have : b.find? (fun e => e.1 = p) = none := by
      rw [List.find?_eq_none]
      intro x hx
      exact List.find?_eq_none.mp hf x (h.mem_iff.mp hx)
    rw [this]
  | some e =>
    have h1 := List.find?_some hf
    simp only [decide_eq_true_eq] at h1
    have h2 := find_of_mem hb (h.mem_iff.mpr (List.mem_of_find?_eq_some hf))
    rw [h1] at h2
    rw [h2]

/-! ### The index -/

theorem find_setId (ids : List (Id × Path × Nat)) (id : Id) (loc : Path × Nat) (i : Id) :
    (setId ids id loc).find? (fun e => e.1 = i) = if i = id then some (id, loc) else ids.find? fun e => e.1 = i := by
  unfold setId
  split
  · rename_i h
    induction ids with
    | nil => simp at h
    | cons e es ih =>
      rw [List.map_cons, List.find?_cons, List.find?_cons]
      by_cases e1 : e.1 = id
      · rw [if_pos e1]
        by_cases e2 : i = id
        · simp [e2]
        · have : id ≠ i := fun e => e2 e.symm
          have h3 : e.1 ≠ i := by rw [e1]; exact this
          simp only [this, decide_false, h3]
          rw [if_neg e2]
          by_cases hh : es.any (fun e => decide (e.1 = id)) = true
          · rw [ih hh, if_neg e2]
          · congr 1
            have : ∀ x ∈ es, x.1 ≠ id := by
              intro x hx he; exact hh (List.any_eq_true.mpr ⟨x, hx, by simpa using he⟩)
            exact map_eq_self fun x hx => by rw [if_neg (this x hx)]
      · rw [if_neg e1]
        have h' : es.any (fun e => decide (e.1 = id)) = true := by simpa [e1] using h
        by_cases e2 : e.1 = i
        · have : i ≠ id := by rw [← e2]; exact e1
          simp [e2, this]
        · simp only [e2, decide_false]
          exact ih h'
  · rename_i h
    have hn : ∀ x ∈ ids, x.1 ≠ id := by
      intro x hx he; exact h (List.any_eq_true.mpr ⟨x, hx, by simpa using he⟩)
    rw [List.find?_append]
    by_cases e2 : i = id
    · have : ids.find? (fun e => e.1 = i) = none := by
        rw [List.find?_eq_none]; intro x hx; simp [e2, hn x hx]
      rw [this, if_pos e2]; simp [e2]
    · rw [if_neg e2]
      have : id ≠ i := fun e => e2 e.symm
      simp [this]

/-- Location `loc` holds chunk `id` in `files`. -/
def Holds (files : List (Path × File)) (id : Id) (loc : Path × Nat) : Prop :=
  ∃ f, (loc.1, f) ∈ files ∧ ∃ c, f.chunks[loc.2]? = some c ∧ c.id = id

/-- The index is right for the chunks listed in `files`. -/
def IndexOk (files : List (Path × File)) (ids : List (Id × Path × Nat)) : Prop :=
  ∀ id, match ids.find? fun e => e.1 = id with
    | none => ∀ e ∈ files, ∀ c ∈ e.2.chunks, c.id ≠ id
    | some e => Holds files id e.2

theorem indexFile_spec (done : List (Path × File)) (p : Path) (f : File) : ∀ (cs pre : List Chunk) (ids : List (Id × Path × Nat)),
    f.chunks = pre ++ cs →
    (∀ id, match ids.find? fun e => e.1 = id with
      | none => (∀ e ∈ done, ∀ c ∈ e.2.chunks, c.id ≠ id) ∧ ∀ c ∈ pre, c.id ≠ id
      | some e => Holds (done ++ [(p, f)]) id e.2) →
    IndexOk (done ++ [(p, f)]) (indexFile p pre.length cs ids) := by
  intro cs
  induction cs with
  | nil =>
    intro pre ids hf h id
    have := h id
    simp only [indexFile]
    split at this
    · rename_i heq
      intro e he c hc
      rcases List.mem_append.mp he with he | he
      · exact this.1 e he c hc
      · rw [List.mem_singleton.mp he] at hc
        exact this.2 c (by simpa [hf] using hc)
    · rename_i e heq; exact this
  | cons c cs ih =>
    intro pre ids hf h
    unfold indexFile
    have := ih (pre ++ [c]) (setId ids c.id (p, pre.length)) (by simp [hf]) ?_
    · simpa using this
    · intro id
      rw [find_setId]
      by_cases e : id = c.id
      · rw [if_pos e]
        exact ⟨f, by simp, c, by simp [hf], e.symm⟩
      · rw [if_neg e]
        have hid := h id
        split at hid
        · rename_i heq
          refine ⟨hid.1, ?_⟩
          intro x hx
          rcases List.mem_append.mp hx with hx | hx
          · exact hid.2 x hx
          · rw [List.mem_singleton.mp hx]; exact fun e' => e e'.symm
        · rename_i e' heq; exact hid

theorem indexAll_spec (files : List (Path × File)) : IndexOk files (indexAll files) := by
  unfold indexAll
  have key : ∀ (rest done : List (Path × File)) (ids : List (Id × Path × Nat)), IndexOk done ids →
      IndexOk (done ++ rest) (rest.foldl (fun ids e => indexFile e.1 0 e.2.chunks ids) ids) := by
    intro rest
    induction rest with
    | nil => intro done ids h; simpa using h
    | cons e rest ih =>
      intro done ids h
      rw [List.foldl_cons]
      have := ih (done ++ [e]) (indexFile e.1 0 e.2.chunks ids) ?_
      · simpa using this
      · have h1 := indexFile_spec done e.1 e.2 e.2.chunks [] ids rfl ?_
        · exact h1
        · intro id
          have := h id
          split at this
          · rename_i heq; exact ⟨this, by simp⟩
          · rename_i x heq
            obtain ⟨f, hf, hc⟩ := this
            exact ⟨f, List.mem_append_left _ hf, hc⟩
  have := key files [] [] (by intro id; simp)
  simpa using this

/-! ### The invariant -/

structure Inv (m : Map) (flushed pending : Files) : Prop where
  distinct : Distinct m.files
  files : abs m.files = flushed
  pend : m.updates.foldl specUpdate (abs m.files) = pending
  index : IndexOk m.files m.ids

theorem specUpdate_append (f : Files) (p : Path) (l : List (Id × UInt64)) (o : UInt64) :
    specUpdate f (.append p (l.map fun c => ⟨c.1, c.2 + o⟩)) = specStep f (.append p l o) := by
  funext q
  simp only [specUpdate, specStep, List.map_map, Function.comp_def]

/-- Is the operation a flush? -/
def Op.isFlush : Op → Bool
  | .flush _ => true
  | _ => false

theorem inv_step {m : Map} {fl pe : Files} (h : Inv m fl pe) (op : Op) :
    Inv (m.step op) (if op.isFlush then pe else fl) (specStep pe op) := by
  cases op with
  | init p n cs =>
    refine { distinct := h.distinct, files := h.files, index := h.index, pend := ?_ }
    show (m.updates ++ [_]).foldl specUpdate (abs m.files) = _
    rw [List.foldl_append, h.pend]; rfl
  | append p l o =>
    refine { distinct := h.distinct, files := h.files, index := h.index, pend := ?_ }
    show (m.updates ++ [_]).foldl specUpdate (abs m.files) = _
    rw [List.foldl_append, h.pend]
    exact specUpdate_append pe p l o
  | remove p =>
    refine { distinct := h.distinct, files := h.files, index := h.index, pend := ?_ }
    show (m.updates ++ [_]).foldl specUpdate (abs m.files) = _
    rw [List.foldl_append, h.pend]; rfl
  | clear =>
    refine { distinct := h.distinct, files := h.files, index := h.index, pend := ?_ }
    show (m.updates ++ [_]).foldl specUpdate (abs m.files) = _
    rw [List.foldl_append, h.pend]; rfl
  | flush order =>
    show Inv (m.flush order) pe pe
    unfold Map.flush
    split
    · rename_i he
      have hp := h.pend
      rw [he] at hp
      exact { distinct := h.distinct, files := hp, pend := h.pend, index := h.index }
    · obtain ⟨h1, h2⟩ := applyAll (s := (m.files, m.total)) h.distinct m.updates
      have hperm : (if order.isPerm (m.updates.foldl applyUpdate (m.files, m.total)).1 then order
          else (m.updates.foldl applyUpdate (m.files, m.total)).1).Perm
          (m.updates.foldl applyUpdate (m.files, m.total)).1 := by
        split
        · rename_i h; exact List.isPerm_iff.mp h
        · exact .refl _
      obtain ⟨h3, h4⟩ := abs_perm h2 hperm
      refine { distinct := h4, files := ?_, pend := ?_, index := indexAll_spec _ }
      · rw [h3, h1, h.pend]
      · show abs _ = _
        rw [h3, h1, h.pend]

/-- Flushed and pending files after a history, tracked step by step. -/
def track (s : Files × Files) (op : Op) : Files × Files :=
  (if op.isFlush then s.2 else s.1, specStep s.2 op)

theorem inv_run (ops : List Op) : ∀ (m : Map) (s : Files × Files), Inv m s.1 s.2 →
    Inv (m.run ops) (ops.foldl track s).1 (ops.foldl track s).2 := by
  induction ops with
  | nil => intro m s h; exact h
  | cons op ops ih => intro m s h; exact ih (m.step op) (track s op) (inv_step h op)

theorem track_eq (ops : List Op) : ∀ (s : Files × Files),
    (ops.foldl track s).1 = if upToLastFlush ops = [] then s.1 else (upToLastFlush ops).foldl specStep s.2 := by
  induction ops with
  | nil => intro s; rfl
  | cons op ops ih =>
    intro s
    rw [List.foldl_cons, ih]
    have e : upToLastFlush (op :: ops) = match upToLastFlush ops with
      | [] => match op with
        | .flush o => [.flush o]
        | _ => []
      | l => op :: l := rfl
    rw [e]
    rcases hu : upToLastFlush ops with _ | ⟨x, l⟩
    · cases op <;> simp [track, Op.isFlush, specStep]
    · simp [track]

theorem inv_empty : Inv {} noFiles noFiles where
  distinct := List.nodup_nil
  files := rfl
  pend := rfl
  index := by intro id; simp

theorem inv_history (ops : List Op) : ∃ pe, Inv (Map.run {} ops) (flushedFiles ops) pe := by
  have h := inv_run ops {} (noFiles, noFiles) inv_empty
  refine ⟨(ops.foldl track (noFiles, noFiles)).2, ?_⟩
  · have e : (ops.foldl track (noFiles, noFiles)).1 = flushedFiles ops := by
      rw [track_eq]
      unfold flushedFiles
      split
      · rename_i h; rw [h]; rfl
      · rfl
    rw [← e]; exact h

/-! ### Results -/

theorem lookup_spec {m : Map} {fl pe : Files} (h : Inv m fl pe) (id : Id) :
    match m.lookup id with
    | none => ∀ p n cs, fl p = some (n, cs) → ∀ c ∈ cs, c.1 ≠ id
    | some (p, off, sz) => ∃ next, ChunkAt fl id p off next ∧ sz = (next - off).toUInt32 := by
  have hx := h.index id
  unfold Map.lookup
  cases hf : m.ids.find? fun e => e.1 = id with
  | none =>
    rw [hf] at hx
    dsimp only
    intro p n cs hp c hc
    rw [← h.files] at hp
    unfold abs at hp
    cases hff : m.files.find? fun e => e.1 = p with
    | none => rw [hff] at hp; cases hp
    | some e =>
      rw [hff] at hp
      simp only [Option.map_some, Option.some.injEq, Prod.mk.injEq] at hp
      rw [← hp.2] at hc
      obtain ⟨x, hxc, rfl⟩ := List.mem_map.mp hc
      exact hx e (List.mem_of_find?_eq_some hff) x hxc
  | some e =>
    obtain ⟨i, p, n⟩ := e
    rw [hf] at hx
    obtain ⟨f, hfm, c, hc, hid⟩ := hx
    have hfind := find_of_mem h.distinct hfm
    dsimp only at hfind hc ⊢
    rw [hfind]
    dsimp only
    rw [hc]
    dsimp only
    refine ⟨_, ?_, rfl⟩
    have hlt : n < f.chunks.length := by
      by_contra hn
      rw [List.getElem?_eq_none (by omega)] at hc; cases hc
    have hget : f.chunks[n] = c := by
      rw [List.getElem?_eq_getElem hlt] at hc; exact Option.some.inj hc
    have hsplit : f.chunks = f.chunks.take n ++ c :: f.chunks.drop (n + 1) := by
      rw [← hget, List.getElem_cons_drop, List.take_append_drop]
    refine ⟨f.size, f.chunks.map (fun c => (c.id, c.offset)), (f.chunks.take n).map (fun c => (c.id, c.offset)),
      (f.chunks.drop (n + 1)).map (fun c => (c.id, c.offset)), ?_, ?_, ?_⟩
    · rw [← h.files]
      unfold abs
      rw [hfind]; rfl
    · conv_lhs => rw [hsplit]
      rw [List.map_append, List.map_cons, hid]
    · by_cases hlast : n + 1 = f.chunks.length
      · rw [if_pos hlast, hlast, List.drop_length]; rfl
      · rw [if_neg hlast]
        have hlt' : n + 1 < f.chunks.length := by omega
        rw [List.drop_eq_getElem_cons hlt', List.map_cons]
        simp [List.getD_eq_getElem?_getD, List.getElem?_eq_getElem hlt']

/-- **C24.** For every history of initialisations, appends, removals, clears and flushes and every id: if
the lookup succeeds, the file it names has, as of the last flush, that chunk at that offset, and the
size is the distance to the next chunk or the end of the file; if it fails, no file had the chunk at
the last flush. Updates after the last flush have no effect. -/
theorem C24_lookup_reflects_flushed (ops : List Op) (id : Id) :
    match (Map.run {} ops).lookup id with
    | none => ∀ p n cs, flushedFiles ops p = some (n, cs) → ∀ c ∈ cs, c.1 ≠ id
    | some (p, off, sz) => ∃ next, ChunkAt (flushedFiles ops) id p off next ∧ sz = (next - off).toUInt32 := by
  obtain ⟨pe, h⟩ := inv_history ops
  exact lookup_spec h id

/-- `chunks` describes `content`: the chunks are consecutive parts, in order, up to the end, named by
`hash`, each smaller than 4 GiB. -/
def Describes (hash : List UInt8 → Id) : (pos : Nat) → (content : List UInt8) → List (Id × UInt64) → Prop
  | _, content, [] => content = []
  | pos, content, (id, off) :: cs =>
    ∃ a b, content = a ++ b ∧ hash a = id ∧ off.toNat = pos ∧ a.length < 2 ^ 32 ∧ Describes hash (pos + a.length) b cs

theorem describes_at {hash : List UInt8 → Id} : ∀ (pre : List (Id × UInt64)) (pos : Nat) (content : List UInt8)
    (id : Id) (off : UInt64) (post : List (Id × UInt64)), Describes hash pos content (pre ++ (id, off) :: post) →
    ∃ a b, content.drop (off.toNat - pos) = a ++ b ∧ pos ≤ off.toNat ∧ hash a = id ∧ a.length < 2 ^ 32 ∧
      Describes hash (off.toNat + a.length) b post ∧ (off.toNat - pos) + a.length + b.length = content.length := by
  intro pre
  induction pre with
  | nil =>
    rintro pos content id off post ⟨a, b, rfl, h1, h2, h3, h4⟩
    refine ⟨a, b, by simp [h2], by omega, h1, h3, by rw [h2]; exact h4, by simp [h2]⟩
  | cons c pre ih =>
    obtain ⟨i, o⟩ := c
    rintro pos content id off post ⟨a0, b0, rfl, h1, h2, h3, h4⟩
    obtain ⟨a, b, e1, e2, e3, e4, e5, e6⟩ := ih _ _ _ _ _ h4
    refine ⟨a, b, ?_, by omega, e3, e4, e5, by rw [List.length_append]; omega⟩
    rw [← e1, List.drop_append]
    have : a0.drop (off.toNat - pos) = [] := List.drop_eq_nil_of_le (by omega)
    rw [this, List.nil_append]
    congr 1
    omega

/-- **C24, bytes.** If, as of the last flush, the chunk list of every file describes its content, then the
range a lookup returns holds bytes with that content id. -/
theorem C24_lookup_finds_bytes (hash : List UInt8 → Id) (content : Path → List UInt8) (ops : List Op)
    (hd : ∀ p n cs, flushedFiles ops p = some (n, cs) →
      Describes hash 0 (content p) cs ∧ n.toNat = (content p).length)
    (id : Id) (p : Path) (off : UInt64) (sz : UInt32) (h : (Map.run {} ops).lookup id = some (p, off, sz)) :
    hash (((content p).drop off.toNat).take sz.toNat) = id ∧ off.toNat + sz.toNat ≤ (content p).length := by
  have hl := C24_lookup_reflects_flushed ops id
  rw [h] at hl
  obtain ⟨next, ⟨n, cs, pre, post, h1, h2, h3⟩, h4⟩ := hl
  obtain ⟨h5, h6⟩ := hd p n cs h1
  rw [h2] at h5
  obtain ⟨a, b, e1, _, e3, e4, e5, e6⟩ := describes_at pre 0 _ id off post h5
  simp only [Nat.sub_zero] at e1 e6
  have hnext : next.toNat = off.toNat + a.length := by
    cases post with
    | nil =>
      have : b = [] := e5
      rw [h3]
      dsimp only
      rw [h6, ← e6, this]; simp
    | cons c post =>
      obtain ⟨i, o⟩ := c
      obtain ⟨_, _, _, _, e, _⟩ := e5
      rw [h3]; exact e
  have hsub : (next - off).toNat = a.length := by
    rw [UInt64.toNat_sub_of_le _ _ (by rw [UInt64.le_iff_toNat_le]; omega)]; omega
  have hsz : sz.toNat = a.length := by
    rw [h4, UInt64.toNat_toUInt32, hsub]; omega
  refine ⟨?_, by omega⟩
  rw [e1, hsz, List.take_left', e3]
  rfl

/-! ### The number of chunks -/

/-- The number of chunks of the files. -/
def count (files : List (Path × File)) : Nat := (files.map fun e => e.2.chunks.length).sum

theorem count_setEntry (p : Path) (f : File) : ∀ files : List (Path × File), Distinct files →
    count (setEntry files p f) + (entry files p).chunks.length = count files + f.chunks.length := by
  intro files
  induction files with
  | nil => intro _; simp [setEntry, entry, count]
  | cons e l ih =>
    intro h
    unfold Distinct at h ih
    rw [List.map_cons, List.nodup_cons] at h
    by_cases he : e.1 = p
    · have hl : l.map (fun e => if e.1 = p then (p, f) else e) = l := map_eq_self fun x hx => by
        rw [if_neg]
        intro hxp
        exact h.1 (by rw [he, ← hxp]; exact List.mem_map_of_mem hx)
      have h1 : setEntry (e :: l) p f = (p, f) :: l := by
        unfold setEntry
        rw [if_pos (by simp [he]), List.map_cons, if_pos he, hl]
      have h2 : entry (e :: l) p = e.2 := by simp [entry, List.find?_cons, he]
      rw [h1, h2]
      simp only [count, List.map_cons, List.sum_cons]
      omega
    · have h1 : setEntry (e :: l) p f = e :: setEntry l p f := by
        unfold setEntry
        by_cases ha : l.any (fun e => decide (e.1 = p)) = true
        · rw [if_pos (by simp only [List.any_cons, ha, Bool.or_true]), if_pos ha, List.map_cons, if_neg he]
        · rw [if_neg (by simp only [List.any_cons, he, decide_false, Bool.false_or]; exact ha), if_neg ha]; rfl
      have h2 : entry (e :: l) p = entry l p := by simp [entry, List.find?_cons, he]
      have := ih h.2
      rw [h1, h2]
      simp only [count, List.map_cons, List.sum_cons] at this ⊢
      omega

theorem count_remove (p : Path) : ∀ files : List (Path × File), Distinct files → ∀ e, files.find? (fun e => decide (e.1 = p)) = some e →
    count (files.filter fun e => e.1 ≠ p) + e.2.chunks.length = count files := by
  intro files
  induction files with
  | nil => intro _ e h; simp at h
  | cons x l ih =>
    intro h e he
    unfold Distinct at h ih
    rw [List.map_cons, List.nodup_cons] at h
    rw [List.find?_cons] at he
    by_cases hx : x.1 = p
    · simp only [hx, decide_true, Option.some.injEq] at he
      subst he
      have : (x :: l).filter (fun e => decide (e.1 ≠ p)) = l := by
        rw [List.filter_cons, if_neg (by simp [hx])]
        rw [List.filter_eq_self]
        intro y hy
        simp only [ne_eq, decide_not, Bool.not_eq_eq_eq_not, Bool.not_true, decide_eq_false_iff_not]
        intro hyp
        exact h.1 (by rw [hx, ← hyp]; exact List.mem_map_of_mem hy)
      rw [this]
      simp only [count, List.map_cons, List.sum_cons]
      omega
    · simp only [hx, decide_false] at he
      have := ih h.2 e he
      rw [List.filter_cons, if_pos (by simp [hx])]
      simp only [count, List.map_cons, List.sum_cons] at this ⊢
      omega

theorem count_applyUpdate {s : List (Path × File) × Nat} (h : Distinct s.1) (hc : s.2 = count s.1) (u : Update) :
    (applyUpdate s u).2 = count (applyUpdate s u).1 := by
  cases u with
  | init p n cs =>
    have := count_setEntry p { chunks := cs, size := n } s.1 h
    simp only [applyUpdate]
    have hle : (entry s.1 p).chunks.length ≤ count s.1 := by
      have := count_setEntry p {} s.1 h
      simp only [List.length_nil] at this
      omega
    simp only at this
    omega
  | append p cs =>
    have := count_setEntry p { entry s.1 p with chunks := if (entry s.1 p).chunks.isEmpty then cs else (entry s.1 p).chunks ++ cs } s.1 h
    simp only [applyUpdate]
    have e : (if (entry s.1 p).chunks.isEmpty = true then cs else (entry s.1 p).chunks ++ cs).length = (entry s.1 p).chunks.length + cs.length := by
      split
      · rename_i he; rw [List.isEmpty_iff] at he; rw [he]; simp
      · simp
    simp only at this
    omega
  | remove p =>
    unfold applyUpdate
    dsimp only
    split
    · exact hc
    · rename_i e he
      have := count_remove p s.1 h e he
      simp only
      omega
  | clear => rfl

theorem count_applyAll (us : List Update) : ∀ {s : List (Path × File) × Nat}, Distinct s.1 → s.2 = count s.1 →
    (us.foldl applyUpdate s).2 = count (us.foldl applyUpdate s).1 := by
  induction us with
  | nil => intro s _ h; exact h
  | cons u us ih => intro s h hc; exact ih (distinct_applyUpdate h u) (count_applyUpdate h hc u)

theorem length_setId (ids : List (Id × Path × Nat)) (id : Id) (loc : Path × Nat) : (setId ids id loc).length ≤ ids.length + 1 := by
  unfold setId; split <;> simp

theorem length_indexFile (p : Path) : ∀ (cs : List Chunk) (n : Nat) (ids : List (Id × Path × Nat)),
    (indexFile p n cs ids).length ≤ ids.length + cs.length := by
  intro cs
  induction cs with
  | nil => intro n ids; simp [indexFile]
  | cons c cs ih =>
    intro n ids
    have h1 := ih (n + 1) (setId ids c.id (p, n))
    have h2 := length_setId ids c.id (p, n)
    simp only [indexFile, List.length_cons]
    omega

theorem length_indexAll (files : List (Path × File)) : (indexAll files).length ≤ count files := by
  have : ∀ (files : List (Path × File)) (ids : List (Id × Path × Nat)),
      (files.foldl (fun ids e => indexFile e.1 0 e.2.chunks ids) ids).length ≤ ids.length + count files := by
    intro files
    induction files with
    | nil => intro ids; simp [count]
    | cons e l ih =>
      intro ids
      have h1 := ih (indexFile e.1 0 e.2.chunks ids)
      have h2 := length_indexFile e.1 e.2.chunks 0 ids
      simp only [List.foldl_cons, count, List.map_cons, List.sum_cons] at h1 ⊢
      omega
  have := this files []
  rw [List.length_nil, Nat.zero_add] at this
  exact this

theorem count_perm {a b : List (Path × File)} (h : a.Perm b) : count a = count b := (h.map _).sum_nat

theorem count_step {m : Map} {fl pe : Files} (hi : Inv m fl pe) (h : m.total = count m.files ∧ m.ids.length ≤ count m.files) (op : Op) :
    (m.step op).total = count (m.step op).files ∧ (m.step op).ids.length ≤ count (m.step op).files := by
  cases op with
  | init p n cs => exact h
  | append p l o => exact h
  | remove p => exact h
  | clear => exact h
  | flush order =>
    show (m.flush order).total = count (m.flush order).files ∧ (m.flush order).ids.length ≤ count (m.flush order).files
    unfold Map.flush
    split
    · exact h
    · have h1 := count_applyAll m.updates (s := (m.files, m.total)) hi.distinct h.1
      have hperm : (if order.isPerm (m.updates.foldl applyUpdate (m.files, m.total)).1 then order
          else (m.updates.foldl applyUpdate (m.files, m.total)).1).Perm
          (m.updates.foldl applyUpdate (m.files, m.total)).1 := by
        split
        · rename_i h; exact List.isPerm_iff.mp h
        · exact .refl _
      refine ⟨?_, length_indexAll _⟩
      dsimp only
      rw [h1, count_perm hperm]

/-- C24: the count of chunks the map keeps, which debug builds assert to be large enough before every subtraction and against the
index, is the number of chunks of the flushed files after every history. -/
theorem C24_count (ops : List Op) :
    (Map.run {} ops).total = ((Map.run {} ops).files.map fun e => e.2.chunks.length).sum ∧
    (Map.run {} ops).ids.length ≤ (Map.run {} ops).total := by
  have : ∀ (ops : List Op) (m : Map) (s : Files × Files), Inv m s.1 s.2 → m.total = count m.files ∧ m.ids.length ≤ count m.files →
      (m.run ops).total = count (m.run ops).files ∧ (m.run ops).ids.length ≤ count (m.run ops).files := by
    intro ops
    induction ops with
    | nil => intro m s _ h; exact h
    | cons op ops ih => intro m s hi h; exact ih (m.step op) (track s op) (inv_step hi op) (count_step hi h op)
  obtain ⟨h1, h2⟩ := this ops {} (noFiles, noFiles) inv_empty ⟨rfl, by simp⟩
  exact ⟨h1, by rw [h1]; exact h2⟩

/-- Two files share a chunk; one is replaced without a flush; lookups still see the flushed state. -/
def demoOps : List Op :=
  [.init "a".toList 5 [⟨[1], 0⟩, ⟨[2], 3⟩], .init "b".toList 0 [], .append "b".toList [([3], 0), ([2], 4)] 0,
   .flush [], .remove "a".toList, .init "b".toList 6 []]

example : (Map.run {} demoOps).lookup [1] = some ("a".toList, 0, 3) ∧
    (Map.run {} demoOps).lookup [3] = some ("b".toList, 0, 4) ∧ (Map.run {} demoOps).lookup [9] = none ∧
    (Map.run {} (demoOps ++ [.flush []])).lookup [1] = none := by decide +kernel

example : ∀ p n cs, flushedFiles (demoOps.take 1 ++ [.flush []]) p = some (n, cs) →
    Describes (fun b => if b.length = 3 then [1] else [2]) 0 [7, 7, 7, 8, 8] cs ∧ n.toNat = 5 := by
  intro p n cs h
  simp only [flushedFiles, demoOps, upToLastFlush, List.take, List.cons_append, List.nil_append, List.foldl,
    specStep, noFiles] at h
  split at h
  · simp only [List.map_cons, List.map_nil, Option.some.injEq, Prod.mk.injEq] at h
    obtain ⟨rfl, rfl⟩ := h
    exact ⟨⟨[7, 7, 7], [8, 8], rfl, rfl, rfl, by decide, [8, 8], [], rfl, rfl, rfl, by decide, rfl⟩, rfl⟩
  · cases h

end Verif.ChunkMap
