import Verif.Asset.Model
import Verif.Provider.Props

/-! # C25: reading a streamed file returns its bytes -/
namespace Verif.Asset
open Verif.Manifest

/-! ### Specification -/

/-- The chunk references for consecutive chunks, the first one at `off`. -/
def refsAt (truth : Id → List UInt8) : Nat → List Id → List Ref
  | _, [] => []
  | off, id :: ids => ⟨off, id⟩ :: refsAt truth (off + (truth id).length) ids

/-- The bytes of a list of chunks. -/
def bytes (truth : Id → List UInt8) (ids : List Id) : List UInt8 := (ids.map truth).flatten

/-- The entries for consecutive indirect chunk lists (id of the list and ids of its chunks), the first one at `off`. -/
def indirectAt (truth : Id → List UInt8) : Nat → List (Id × List Id) → List Indirect
  | _, [] => []
  | off, (lid, ids) :: ls => ⟨off, lid⟩ :: indirectAt truth (off + (bytes truth ids).length) ls

/-- The manifest entry `proto` describes the file content `content`: it is cut into chunks, some of them
listed directly and the others in any number of indirect lists, which are in the store. -/
def Encodes (truth : Id → List UInt8) (S : Store) (proto : Manifest.Asset) (content : List UInt8) : Prop :=
  ∃ (direct : List Id) (lists : List (Id × List Id)),
    proto.info.kind = .file ∧
    proto.info.fileSize = content.length ∧
    proto.info.chunks = refsAt truth 0 direct ∧
    proto.info.indirect = indirectAt truth (bytes truth direct).length lists ∧
    (∀ l ∈ lists, S.chunkLists l.1 = some (refsAt truth 0 l.2)) ∧
    content = bytes truth direct ++ (lists.map fun l => bytes truth l.2).flatten

/-- What is assumed of the data store: it answers the requested tasks, and those it marks as done have the
right bytes in their buffer (see `Provider.C20_multi_chunk_read_right_bytes`). -/
def GoodReader (truth : Id → List UInt8) (G : Reader) : Prop :=
  ∀ ts ok ts', (∀ t ∈ ts, Provider.Fresh t) → G ts ok ts' →
    ts'.map Provider.Task.key = ts.map Provider.Task.key ∧
    ∀ t ∈ ts', t.done = true → t.size ≠ 0 → t.buf = ((truth t.id).drop t.offset).take t.size

/-! ### Programs -/

def Sat {α : Type} (P : State → Prop) (m : Prog α) (Q : α → State → Prop) : Prop :=
  ∀ s a s', P s → m s a s' → Q a s'

theorem sat_pure {α : Type} {P : State → Prop} {Q : α → State → Prop} (a : α) (h : ∀ s, P s → Q a s) :
    Sat P (pure a : Prog α) Q := by
  rintro s b s' hs ⟨rfl, rfl⟩; exact h _ hs

theorem sat_bind {α β : Type} {P : State → Prop} {m : Prog α} {f : α → Prog β} (R : α → State → Prop)
    {Q : β → State → Prop} (h1 : Sat P m R) (h2 : ∀ a, Sat (R a) (f a) Q) : Sat P (m >>= f) Q := by
  rintro s b s'' hs ⟨a, s', ha, hb⟩
  exact h2 a s' b s'' (h1 s a s' hs ha) hb

theorem Sat.pre {α : Type} {P P' : State → Prop} {m : Prog α} {Q : α → State → Prop} (h : Sat P m Q)
    (hp : ∀ s, P' s → P s) : Sat P' m Q := fun s a s' hs hm => h s a s' (hp s hs) hm

theorem Sat.post {α : Type} {P : State → Prop} {m : Prog α} {Q Q' : α → State → Prop} (h : Sat P m Q)
    (hq : ∀ a s, Q a s → Q' a s) : Sat P m Q' := fun s a s' hs hm => hq a s' (h s a s' hs hm)

theorem sat_fact {α : Type} {P : State → Prop} {A : Prop} {m : Prog α} {Q : α → State → Prop}
    (hf : ∀ s, P s → A) (h : A → Sat P m Q) : Sat P m Q := fun s a s' hs hm => h (hf s hs) s a s' hs hm

/-- The state only holds what the store has, in order. -/
structure StateOk (S : Store) (proto : Manifest.Asset) (s : State) : Prop where
  chunks : ∀ (i : Nat) (refs : List Ref), s.chunkLists[i]? = some (some refs) →
    (proto.info.indirect[i]?.bind fun ind => S.chunkLists ind.listId) = some refs
  dirs : s.dirLists.map some = (proto.indirect.take s.dirLists.length).map S.assetLists
  lookup : s.lookup = updateLookup [] (proto.children ++ s.dirLists.flatten)

theorem stateOk_initial (S : Store) (proto : Manifest.Asset) : StateOk S proto (initial proto) where
  chunks := by intro i refs h; simp [initial] at h
  dirs := rfl
  lookup := by simp [initial]

theorem getElem?_pad {α : Type _} (l : List (Option α)) (n i : Nat) (a : α) :
    (l ++ List.replicate n none)[i]? = some (some a) ↔ l[i]? = some (some a) := by
  rw [List.getElem?_append]
  split
  · rfl
  · rename_i h
    rw [List.getElem?_replicate, List.getElem?_eq_none (by omega)]
    split <;> simp

theorem stateOk_fetchChunkList {S : Store} {proto : Manifest.Asset} {i : Nat} {s s' : State} {r : Option (List Ref)}
    (h : StateOk S proto s) (hf : fetchChunkList S proto i s r s') :
    StateOk S proto s' ∧
    (∀ refs, r = some refs → (proto.info.indirect[i]?.bind fun ind => S.chunkLists ind.listId) = some refs) ∧
    (r = none → S.fails ∨ (proto.info.indirect[i]?.bind fun ind => S.chunkLists ind.listId) = none) := by
  unfold fetchChunkList at hf
  dsimp only at hf
  split at hf
  · rename_i refs heq
    obtain ⟨rfl, rfl⟩ := hf
    rw [getElem?_pad] at heq
    refine ⟨⟨fun j refs hj => h.chunks j refs ((getElem?_pad _ _ _ _).mp hj), h.dirs, h.lookup⟩, ?_, by simp⟩
    intro refs' e; cases e
    exact h.chunks i _ heq
  · rcases hf with ⟨hfail, rfl, rfl⟩ | ⟨ind, refs, h1, h2, rfl, rfl⟩
    · refine ⟨⟨fun j refs hj => h.chunks j refs ((getElem?_pad _ _ _ _).mp hj), h.dirs, h.lookup⟩, by simp, ?_⟩
      intro _; exact hfail
    · have hi : (proto.info.indirect[i]?.bind fun ind => S.chunkLists ind.listId) = some refs := by
        rw [h1]; exact h2
      refine ⟨⟨?_, h.dirs, h.lookup⟩, fun r' e => by cases e; exact hi, by simp⟩
      intro j refs' hj
      dsimp only at hj
      rw [List.getElem?_set] at hj
      split at hj
      · rename_i e
        subst e
        split at hj
        · simp only [Option.some.injEq] at hj; rw [← hj]; exact hi
        · cases hj
      · exact h.chunks j refs' ((getElem?_pad _ _ _ _).mp hj)

theorem stateOk_fetchDirList {S : Store} {proto : Manifest.Asset} {s s' : State} {r : Option Bool}
    (h : StateOk S proto s) (hf : fetchDirList S proto s r s') : StateOk S proto s' := by
  unfold fetchDirList at hf
  split at hf
  · rw [hf.2]; exact h
  · rename_i hlen
    rcases hf with ⟨_, _, rfl⟩ | ⟨id, as, h1, h2, _, rfl⟩
    · exact h
    · refine ⟨h.chunks, ?_, ?_⟩
      · dsimp only
        rw [List.map_append, h.dirs, List.length_append, List.length_singleton, List.take_add_one, h1]
        simp [h2]
      · dsimp only
        rw [h.lookup]
        simp [updateLookup, List.foldl_append]

theorem stateOk_other {S : Store} {proto : Manifest.Asset} {s s' : State} (h : StateOk S proto s)
    (ho : Other S proto s s') : StateOk S proto s' := by
  induction ho with
  | refl => exact h
  | chunks i r _ hf _ ih => exact ih (stateOk_fetchChunkList h hf).1
  | dirs r hf _ ih => exact ih (stateOk_fetchDirList h hf)

theorem sat_atomic {S : Store} {proto : Manifest.Asset} {α : Type} {step : State → α → State → Prop}
    {Q : α → State → Prop} (h : ∀ s a s', StateOk S proto s → step s a s' → Q a s') :
    Sat (StateOk S proto) (atomic S proto step) Q := by
  rintro s a s'' hs ⟨s', ho, hstep⟩
  refine h s' a s'' ?_ hstep
  rcases ho with rfl | ⟨_, ho⟩
  · exact hs
  · exact stateOk_other hs ho

/-! ### Chunk lists -/

/-- What a request for indirect list `i` may return. -/
def ListOk (S : Store) (proto : Manifest.Asset) (i : Nat) : ListRes → Prop
  | .error => S.fails ∨ (proto.info.indirect[i]?.bind fun ind => S.chunkLists ind.listId) = none
  | .eof => i = proto.info.indirect.length
  | .refs l => (proto.info.indirect[i]?.bind fun ind => S.chunkLists ind.listId) = some l

theorem sat_getIndirectList {S : Store} {proto : Manifest.Asset} (i : Nat) :
    Sat (StateOk S proto) (getIndirectList S proto i) (fun r s => StateOk S proto s ∧ ListOk S proto i r) := by
  unfold getIndirectList
  split
  · rename_i e
    exact sat_pure _ fun s hs => ⟨hs, e⟩
  · refine sat_bind (fun (r : Option (List Ref)) s => StateOk S proto s ∧ ∀ l, r = some l →
      (proto.info.indirect[i]?.bind fun ind => S.chunkLists ind.listId) = some l) ?_ ?_
    · apply sat_atomic
      rintro s r s' hs ⟨rfl, rfl⟩
      refine ⟨hs, ?_⟩
      intro l hl
      refine hs.chunks i l ?_
      cases h : s'.chunkLists[i]? with
      | none => rw [h] at hl; cases hl
      | some x => rw [h] at hl; simp only [Option.join_some] at hl; rw [hl]
    · intro r
      cases r with
      | some refs => exact sat_pure _ fun s hs => ⟨hs.1, hs.2 refs rfl⟩
      | none =>
        refine sat_bind (fun (r : Option (List Ref)) s => StateOk S proto s ∧ ListOk S proto i (toListRes r)) ?_ ?_
        · refine Sat.pre (P := StateOk S proto) ?_ fun s hs => hs.1
          apply sat_atomic
          intro s r s' hs hf
          obtain ⟨h1, h2, h3⟩ := stateOk_fetchChunkList hs hf
          refine ⟨h1, ?_⟩
          cases r with
          | none => exact h3 rfl
          | some l => exact h2 l rfl
        · intro r
          exact sat_pure _ fun s hs => hs

/-! ### Positions -/

section
variable {truth : Id → List UInt8}

theorem bytes_cons (id : Id) (ids : List Id) : bytes truth (id :: ids) = truth id ++ bytes truth ids := rfl

/-- Absolute start of list `n` of `lists`. -/
def startOf (truth : Id → List UInt8) (lists : List (List Id)) (n : Nat) : Nat :=
  (bytes truth (lists.take n).flatten).length

theorem bytes_append (a b : List Id) : bytes truth (a ++ b) = bytes truth a ++ bytes truth b := by
  simp [bytes]

theorem bytes_flatten (lists : List (List Id)) :
    bytes truth lists.flatten = (lists.map (bytes truth)).flatten := by
  induction lists with
  | nil => rfl
  | cons l ls ih => rw [List.flatten_cons, bytes_append, ih]; rfl

theorem indirectAt_getElem? : ∀ (ls : List (Id × List Id)) (off i : Nat),
    (indirectAt truth off ls)[i]? = ls[i]?.map fun l =>
      ⟨off + (bytes truth ((ls.take i).map Prod.snd).flatten).length, l.1⟩ := by
  intro ls
  induction ls with
  | nil => intro off i; simp [indirectAt]
  | cons l ls ih =>
    intro off i
    obtain ⟨lid, ids⟩ := l
    cases i with
    | zero => simp [indirectAt, bytes]
    | succ i =>
      simp only [indirectAt, List.getElem?_cons_succ, ih, List.take_succ_cons, List.map_cons, List.flatten_cons,
        bytes_append, List.length_append, Nat.add_assoc]

theorem indirectAt_length : ∀ (ls : List (Id × List Id)) (off : Nat), (indirectAt truth off ls).length = ls.length := by
  intro ls
  induction ls with
  | nil => intro off; rfl
  | cons l ls ih => intro off; obtain ⟨lid, ids⟩ := l; simp [indirectAt, ih]

theorem indirectAt_ge : ∀ (ls : List (Id × List Id)) (off : Nat), ∀ x ∈ indirectAt truth off ls, off ≤ x.offset := by
  intro ls
  induction ls with
  | nil => intro off x hx; simp [indirectAt] at hx
  | cons l ls ih =>
    intro off x hx
    obtain ⟨lid, ids⟩ := l
    simp only [indirectAt, List.mem_cons] at hx
    rcases hx with rfl | hx
    · exact Nat.le_refl _
    · have := ih _ x hx; omega

end

/-- The facts about a described file, with the lists numbered from the direct one. -/
structure Layout (truth : Id → List UInt8) (S : Store) (proto : Manifest.Asset) (content : List UInt8)
    (lists : List (List Id)) : Prop where
  size : proto.info.fileSize = content.length
  content : content = bytes truth lists.flatten
  direct : ∀ l, lists[0]? = some l → proto.info.chunks = refsAt truth 0 l
  len : lists.length = proto.info.indirect.length + 1
  start : ∀ n, n ≤ lists.length → listOffset proto n = startOf truth lists n
  store : ∀ i l, lists[i + 1]? = some l →
    (proto.info.indirect[i]?.bind fun ind => S.chunkLists ind.listId) = some (refsAt truth 0 l)

theorem layout_of_encodes {truth : Id → List UInt8} {S : Store} {proto : Manifest.Asset} {content : List UInt8}
    (h : Encodes truth S proto content) : proto.info.kind = .file ∧ ∃ lists, Layout truth S proto content lists := by
  obtain ⟨direct, ls, h1, h2, h3, h4, h5, h6⟩ := h
  refine ⟨h1, direct :: ls.map Prod.snd, ?_⟩
  have hc : content = bytes truth (direct :: ls.map Prod.snd).flatten := by
    rw [h6, bytes_flatten, List.map_cons, List.flatten_cons, List.map_map]; rfl
  refine ⟨h2, hc, ?_, ?_, ?_, ?_⟩
  · intro l hl; simp only [List.getElem?_cons_zero, Option.some.injEq] at hl; rw [← hl]; exact h3
  · rw [h4, indirectAt_length]; simp
  · intro n hn
    unfold listOffset
    cases n with
    | zero => rfl
    | succ i =>
      dsimp only
      rw [h4, indirectAt_getElem?]
      unfold startOf
      rw [List.take_succ_cons, List.flatten_cons, bytes_append, List.length_append, ← List.map_take]
      cases hi : ls[i]? with
      | some l => rfl
      | none =>
        have : ls.length ≤ i := List.getElem?_eq_none_iff.mp hi
        rw [List.take_of_length_le this]
        dsimp only [Option.map]
        rw [h2, hc, List.flatten_cons, bytes_append, List.length_append]
  · intro i l hl
    rw [List.getElem?_cons_succ, List.getElem?_map] at hl
    rw [h4, indirectAt_getElem?]
    cases hi : ls[i]? with
    | none => rw [hi] at hl; cases hl
    | some x =>
      rw [hi] at hl
      simp only [Option.map_some, Option.some.injEq] at hl
      have := h5 x (List.mem_of_getElem? hi)
      rw [hl] at this
      exact this

section
variable {truth : Id → List UInt8} {S : Store} {proto : Manifest.Asset} {content : List UInt8} {lists : List (List Id)}

theorem startOf_succ {n : Nat} {l : List Id} (h : lists[n]? = some l) :
    startOf truth lists (n + 1) = startOf truth lists n + (bytes truth l).length := by
  unfold startOf
  rw [List.take_add_one, h]
  simp [bytes_append]

theorem content_drop (hl : Layout truth S proto content lists) (n : Nat) :
    content.drop (startOf truth lists n) = bytes truth (lists.drop n).flatten := by
  rw [hl.content]
  conv_lhs => rw [← List.take_append_drop n lists, List.flatten_append, bytes_append]
  rw [List.drop_append_of_le_length (by unfold startOf; rw [List.take_append_drop]; exact Nat.le_refl _)]
  unfold startOf
  rw [List.take_append_drop, List.drop_length, List.nil_append]

/-- The bytes a list of transfer tasks asks for. -/
def asked (truth : Id → List UInt8) (ts : List Provider.Task) : List UInt8 :=
  (ts.map fun t => ((truth t.id).drop t.offset).take t.size).flatten

/-- The loop has asked for the right bytes so far. -/
structure LoopOk (truth : Id → List UInt8) (content : List UInt8) (off size prefetch : Nat) (l : Loop) : Prop where
  ge : off ≤ l.offset
  le : l.offset ≤ content.length
  data : l.dataLeft = size - (l.offset - off)
  pre : l.prefetchLeft = prefetch - (l.offset - off)
  moved : l.offset - off ≤ prefetch
  fresh : ∀ t ∈ l.tasks, Provider.Fresh t ∧ t.offset + t.size ≤ (truth t.id).length
  asked : asked truth l.tasks = (content.drop off).take (size - l.dataLeft)

theorem asked_append (a b : List Provider.Task) : asked truth (a ++ b) = asked truth a ++ asked truth b := by
  simp [asked]

/-- Adding a chunk that covers the current position. -/
theorem loopOk_addChunk {off size prefetch : Nat} {l : Loop} (hp : size ≤ prefetch)
    (h : LoopOk truth content off size prefetch l) (id : Id) (absOff : Nat) (rest : List UInt8)
    (hc : content.drop absOff = truth id ++ rest) (hle : absOff ≤ l.offset)
    (hin : l.offset ≤ absOff + (truth id).length) (habs : absOff ≤ content.length) :
    LoopOk truth content off size prefetch (l.addChunk id absOff (truth id).length) ∧
    ((l.addChunk id absOff (truth id).length).prefetchLeft ≠ 0 →
      (l.addChunk id absOff (truth id).length).offset = absOff + (truth id).length) := by
  have hlen : absOff + (truth id).length ≤ content.length := by
    have := congrArg List.length hc
    rw [List.length_drop, List.length_append] at this
    omega
  have hco : (if l.offset > absOff then l.offset - absOff else 0) = l.offset - absOff := by
    split <;> omega
  obtain ⟨h1, h2, h3, h4, h5, h6, h7⟩ := h
  unfold Loop.addChunk
  simp only [hco]
  generalize hR : min ((truth id).length - (l.offset - absOff)) l.dataLeft = R
  generalize hF : min ((truth id).length - (l.offset - absOff)) l.prefetchLeft = F
  have hd : (if l.dataLeft > R then l.dataLeft - R else 0) = l.dataLeft - R := by split <;> omega
  rw [hd]
  refine ⟨⟨?_, ?_, ?_, ?_, ?_, ?_, ?_⟩, ?_⟩
  · dsimp only; omega
  · dsimp only; omega
  · dsimp only; omega
  · dsimp only; omega
  · dsimp only; omega
  · intro t ht
    rcases List.mem_append.mp ht with ht | ht
    · exact h6 t ht
    · rw [List.mem_singleton.mp ht]
      refine ⟨⟨rfl, rfl, by simp⟩, ?_⟩
      dsimp only; omega
  · rw [asked_append, h7]
    have e1 : asked truth [⟨id, l.offset - absOff, R, List.replicate R 0, [], false⟩] =
        (content.drop l.offset).take R := by
      have : l.offset = absOff + (l.offset - absOff) := by omega
      rw [this, ← List.drop_drop, hc]
      simp only [asked, List.map_cons, List.map_nil, List.flatten_cons, List.flatten_nil, List.append_nil]
      rw [List.drop_append_of_le_length (by omega), List.take_append_of_le_length (by rw [List.length_drop]; omega)]
      congr 1
      congr 1
      omega
    rw [e1]
    by_cases hz : l.dataLeft = 0
    · have : R = 0 := by omega
      rw [this]; simp
    · have e2 : size - (l.dataLeft - R) = (l.offset - off) + R := by omega
      have e3 : size - l.dataLeft = l.offset - off := by omega
      have e4 : content.drop l.offset = (content.drop off).drop (l.offset - off) := by
        rw [List.drop_drop]; congr 1; omega
      rw [e2, e3, e4, List.take_add]
  · omega

/-- What the loop of `Read` ends with. -/
def Done (truth : Id → List UInt8) (S : Store) (proto : Manifest.Asset) (content : List UInt8)
    (off size prefetch : Nat) (r : Option Loop) (s : State) : Prop :=
  StateOk S proto s ∧
  match r with
  | none => S.fails
  | some l => LoopOk truth content off size prefetch l ∧ (l.prefetchLeft = 0 ∨ l.offset = content.length)

theorem refsAt_cons (off : Nat) (id : Id) (ids : List Id) :
    refsAt truth off (id :: ids) = ⟨off, id⟩ :: refsAt truth (off + (truth id).length) ids := rfl

theorem sat_chunkLoop (hl : Layout truth S proto content lists) {off size prefetch : Nat} (hp : size ≤ prefetch)
    (n : Nat) (list : List Id) (hn : lists[n]? = some list) (next : Loop → Prog (Option Loop))
    (hnext : ∀ l, LoopOk truth content off size prefetch l → l.offset = startOf truth lists (n + 1) →
      Sat (StateOk S proto) (next l) (Done truth S proto content off size prefetch)) :
    ∀ (ids pre : List Id) (first : Bool) (l : Loop), list = pre ++ ids →
      LoopOk truth content off size prefetch l →
      (first = false → l.offset = startOf truth lists n + (bytes truth pre).length) →
      (first = true → ∃ id tl, ids = id :: tl ∧ startOf truth lists n + (bytes truth pre).length ≤ l.offset ∧
        l.offset ≤ startOf truth lists n + (bytes truth pre).length + (truth id).length) →
      Sat (StateOk S proto) (chunkLoop proto n next first (refsAt truth (bytes truth pre).length ids) l)
        (Done truth S proto content off size prefetch) := by
  have hnl : n < lists.length := by
    by_contra hc
    rw [List.getElem?_eq_none (by omega)] at hn; cases hn
  intro ids
  induction ids with
  | nil =>
    intro pre first l hlist hok hf ht
    rw [refsAt]
    unfold chunkLoop
    refine hnext l hok ?_
    cases first with
    | true => obtain ⟨id, tl, h, _⟩ := ht rfl; cases h
    | false => rw [hf rfl, startOf_succ hn, hlist, List.append_nil]
  | cons id ids ih =>
    intro pre first l hlist hok hf ht
    rw [refsAt_cons]
    unfold chunkLoop
    rw [hl.start n (by omega)]
    have hpos : startOf truth lists n + (bytes truth pre).length ≤ l.offset ∧
        l.offset ≤ startOf truth lists n + (bytes truth pre).length + (truth id).length := by
      cases first with
      | true => obtain ⟨id', tl, h, h1, h2⟩ := ht rfl; cases h; exact ⟨h1, h2⟩
      | false => have := hf rfl; omega
    rw [if_neg (by rintro ⟨h1, h2⟩; exact h2 (hf h1))]
    have hsize : chunkSize proto n ⟨(bytes truth pre).length, id⟩
        (refsAt truth ((bytes truth pre).length + (truth id).length) ids) = (truth id).length := by
      unfold chunkSize
      cases ids with
      | nil =>
        simp only [refsAt]
        have e : (bytes truth (pre ++ [id])).length = (bytes truth pre).length + (truth id).length := by
          simp [bytes]
        rw [hl.start (n + 1) (by omega), hl.start n (by omega), startOf_succ hn, hlist, e]
        omega
      | cons id2 ids =>
        simp only [refsAt]; omega
    dsimp only
    rw [hsize]
    have hdrop : content.drop (startOf truth lists n + (bytes truth pre).length) =
        truth id ++ (bytes truth ids ++ bytes truth (lists.drop (n + 1)).flatten) := by
      rw [← List.drop_drop, content_drop hl]
      have : lists.drop n = list :: lists.drop (n + 1) := by
        rw [List.drop_eq_getElem_cons hnl]
        rw [List.getElem?_eq_getElem hnl] at hn
        rw [Option.some.inj hn]
      rw [this, List.flatten_cons, bytes_append, hlist, bytes_append, List.append_assoc,
        List.drop_left, bytes_cons, List.append_assoc]
    have habs : startOf truth lists n + (bytes truth pre).length ≤ content.length := Nat.le_trans hpos.1 hok.le
    obtain ⟨hok', hend⟩ := loopOk_addChunk hp hok id _ _ hdrop hpos.1 hpos.2 habs
    split
    · rename_i hz
      exact sat_pure _ fun s hs => ⟨hs, hok', .inl hz⟩
    · rename_i hz
      have e : (bytes truth pre).length + (truth id).length = (bytes truth (pre ++ [id])).length := by
        simp [bytes]
      rw [e]
      refine ih (pre ++ [id]) false _ (by simp [hlist]) hok' ?_ (by simp)
      intro _
      rw [hend hz, ← e]; omega

theorem sat_listLoop (hl : Layout truth S proto content lists) {off size prefetch : Nat} (hp : size ≤ prefetch) :
    ∀ (k n : Nat) (l : Loop), lists.length = n + k → 0 < n →
      LoopOk truth content off size prefetch l → l.offset = startOf truth lists n →
      Sat (StateOk S proto) (listLoop S proto k n l) (Done truth S proto content off size prefetch) := by
  have hend : startOf truth lists lists.length = content.length := by
    unfold startOf
    rw [List.take_length, ← hl.content]
  intro k
  induction k with
  | zero =>
    intro n l hn hpos hok ho
    unfold listLoop
    have : l.offset = content.length := by rw [ho, ← hend, hn]; rfl
    rw [if_neg (by rw [this, hl.size]; simp)]
    exact sat_pure _ fun s hs => ⟨hs, hok, .inr this⟩
  | succ k ih =>
    intro n l hn hpos hok ho
    unfold listLoop
    refine sat_bind _ (sat_getIndirectList (n - 1)) fun r => ?_
    have hn' : n < lists.length := by omega
    have hget : lists[n]? = some lists[n] := List.getElem?_eq_getElem hn'
    have hst := hl.store (n - 1) lists[n] (by rw [Nat.sub_add_cancel hpos]; exact hget)
    cases r with
    | error =>
      refine sat_pure _ fun s hs => ⟨hs.1, ?_⟩
      rcases hs.2 with h | h
      · exact h
      · rw [hst] at h; cases h
    | eof =>
      refine sat_fact (A := False) ?_ (fun h => h.elim)
      intro s hs
      have : n - 1 = proto.info.indirect.length := hs.2
      have := hl.len
      omega
    | refs refs =>
      refine sat_fact (A := refs = refsAt truth 0 lists[n]) ?_ ?_
      · intro s hs
        have h : _ = some refs := hs.2
        rw [hst] at h
        exact (Option.some.inj h).symm
      · rintro rfl
        refine Sat.pre (P := StateOk S proto) ?_ (fun s hs => hs.1)
        refine sat_chunkLoop hl hp n lists[n] hget _ ?_ lists[n] [] false l rfl hok (fun _ => by simp [ho, bytes]) (by simp)
        intro l' hok' ho'
        exact ih (n + 1) l' (by omega) (by omega) hok' ho'

theorem upperBound_spec (x : Nat) (l : List Nat) :
    (∀ i y, i < upperBound x l → l[i]? = some y → y ≤ x) ∧ (∀ y, l[upperBound x l]? = some y → x < y) ∧
    upperBound x l ≤ l.length := by
  induction l with
  | nil => simp [upperBound]
  | cons a l ih =>
    unfold upperBound at ih ⊢
    rw [List.takeWhile_cons]
    by_cases h : a ≤ x
    · simp only [h, decide_true, if_true, List.length_cons]
      refine ⟨?_, ?_, by omega⟩
      · intro i y hi hy
        cases i with
        | zero => simp only [List.getElem?_cons_zero, Option.some.injEq] at hy; omega
        | succ i => exact ih.1 i y (by omega) (by simpa using hy)
      · intro y hy; exact ih.2.1 y (by simpa using hy)
    · simp only [h, decide_false]
      refine ⟨by simp, ?_, by simp⟩
      intro y hy
      simp at hy; omega

/-- Where the search for a chunk ends. -/
theorem findChunk_split (x : Nat) : ∀ (l : List Id) (r : Nat), r ≤ x → x < r + (bytes truth l).length →
    ∃ pre id ids, l = pre ++ id :: ids ∧ upperBound x ((refsAt truth r l).map Ref.offset) = pre.length + 1 ∧
      (refsAt truth r l).drop pre.length = refsAt truth (r + (bytes truth pre).length) (id :: ids) ∧
      r + (bytes truth pre).length ≤ x ∧ x ≤ r + (bytes truth pre).length + (truth id).length := by
  intro l
  induction l with
  | nil => intro r h1 h2; simp [bytes] at h2; omega
  | cons id ids ih =>
    intro r h1 h2
    rw [bytes_cons, List.length_append] at h2
    by_cases hc : r + (truth id).length ≤ x ∧ ids ≠ []
    · obtain ⟨pre, id', ids', e1, e2, e3, e4, e5⟩ := ih (r + (truth id).length) hc.1 (by omega)
      refine ⟨id :: pre, id', ids', by rw [e1]; rfl, ?_, ?_, ?_, ?_⟩
      · rw [refsAt_cons, List.map_cons]
        unfold upperBound at e2 ⊢
        rw [List.takeWhile_cons, if_pos (by simpa using h1), List.length_cons, e2]; rfl
      · rw [refsAt_cons, List.length_cons, List.drop_succ_cons, e3, bytes_cons, List.length_append]
        congr 1; omega
      · rw [bytes_cons, List.length_append]; omega
      · rw [bytes_cons, List.length_append]; omega
    · refine ⟨[], id, ids, rfl, ?_, by simp [bytes], by simp [bytes]; exact h1, ?_⟩
      · rw [refsAt_cons, List.map_cons]
        unfold upperBound
        rw [List.takeWhile_cons, if_pos (by simpa using h1)]
        cases ids with
        | nil => rfl
        | cons id2 ids =>
          have : ¬ r + (truth id).length ≤ x := fun h => hc ⟨h, by simp⟩
          rw [refsAt_cons, List.map_cons, List.takeWhile_cons, if_neg (by simpa using this)]; rfl
      · by_cases hi : ids = []
        · subst hi; simp [bytes] at h2 ⊢; omega
        · have : ¬ r + (truth id).length ≤ x := fun h => hc ⟨h, hi⟩
          simp [bytes]; omega

theorem findChunkList_spec (hl : Layout truth S proto content lists) {off : Nat} (ho : off < content.length) :
    findChunkList proto off < lists.length ∧ startOf truth lists (findChunkList proto off) ≤ off ∧
      off < startOf truth lists (findChunkList proto off + 1) := by
  unfold findChunkList
  rw [if_neg (by rw [hl.size]; omega)]
  obtain ⟨h1, h2, h3⟩ := upperBound_spec off (proto.info.indirect.map Indirect.offset)
  rw [List.length_map] at h3
  generalize upperBound off (proto.info.indirect.map Indirect.offset) = n at *
  have hlen := hl.len
  refine ⟨by omega, ?_, ?_⟩
  · rw [← hl.start n (by omega)]
    unfold listOffset
    cases n with
    | zero => exact Nat.zero_le _
    | succ i =>
      dsimp only
      have : i < proto.info.indirect.length := by omega
      rw [List.getElem?_eq_getElem this]
      exact h1 i _ (Nat.lt_succ_self i) (by rw [List.getElem?_map, List.getElem?_eq_getElem this]; rfl)
  · rw [← hl.start (n + 1) (by omega)]
    unfold listOffset
    dsimp only
    cases hi : proto.info.indirect[n]? with
    | none => dsimp only; rw [hl.size]; exact ho
    | some ind => exact h2 _ (by rw [List.getElem?_map, hi]; rfl)

theorem asked_key {a b : List Provider.Task} (h : a.map Provider.Task.key = b.map Provider.Task.key) :
    asked truth a = asked truth b := by
  have e : ∀ l : List Provider.Task, asked truth l = ((l.map Provider.Task.key).map
      fun k => ((truth k.1).drop k.2.1).take k.2.2).flatten := by
    intro l; rw [List.map_map]; rfl
  rw [e, e, h]

theorem buffer_eq (ts : List Provider.Task) (h : ∀ t ∈ ts, t.size ≠ 0 → t.buf = ((truth t.id).drop t.offset).take t.size) :
    buffer ts = asked truth ts := by
  unfold buffer asked
  induction ts with
  | nil => rfl
  | cons t ts ih =>
    have ih := ih fun x hx => h x (List.mem_cons_of_mem _ hx)
    rw [List.filter_cons]
    by_cases hz : t.size = 0
    · rw [if_neg (by simpa using hz), ih]; simp [hz]
    · rw [if_pos (by simpa using hz), List.map_cons, List.flatten_cons, ih, h t List.mem_cons_self hz]; rfl

/-- The specification of the result of a read. -/
def ReadOk (S : Store) (G : Reader) (content : List UInt8) (off size : Nat) (r : Option (Nat × List UInt8)) : Prop :=
  match r with
  | some (n, data) => data = (content.drop off).take size ∧ n = data.length
  | none => S.fails ∨ ∃ ts ok ts', G ts ok ts' ∧ (ok = false ∨ Provider.readDone ts' = false)

theorem sat_transferOf {G : Reader} (hG : GoodReader truth G) {off size prefetch : Nat} (hp : size ≤ prefetch)
    (r : Option Loop) :
    Sat (Done truth S proto content off size prefetch r) (transferOf G size r) fun r _ => ReadOk S G content off size r := by
  cases r with
  | none => exact sat_pure _ fun s hs => .inl hs.2
  | some l =>
    rintro s r s' ⟨_, hok, hend⟩ ⟨rfl, ok, ts, hg, rfl⟩
    split
    · rename_i h; exact .inr ⟨_, _, _, hg, h⟩
    · rename_i h
      have hok2 : ok = true := by cases ok <;> simp_all
      have hrd : Provider.readDone ts = true := by
        cases hr : Provider.readDone ts with
        | true => rfl
        | false => exact absurd (.inr hr) h
      obtain ⟨hk, hb⟩ := hG _ _ _ (fun t ht => (hok.fresh t ht).1) hg
      have hbuf : buffer ts = (content.drop off).take (size - l.dataLeft) := by
        rw [buffer_eq (truth := truth) ts, asked_key hk, hok.asked]
        intro t ht hz
        refine hb t ht ?_ hz
        have := List.all_eq_true.mp hrd t ht
        simp only [Bool.or_eq_true, beq_iff_eq] at this
        exact this.resolve_left hz
      obtain ⟨h1, h2, h3, h4, h5, h6, h7⟩ := hok
      have e : buffer ts = (content.drop off).take size ∧ size - l.dataLeft = min size (content.length - off) := by
        rcases hend with hz | hz
        · have : l.dataLeft = 0 := by omega
          rw [hbuf, this]
          refine ⟨rfl, by omega⟩
        · refine ⟨?_, by omega⟩
          rw [hbuf]
          by_cases hc : size ≤ content.length - off
          · congr 1; omega
          · rw [List.take_of_length_le (by rw [List.length_drop]; omega),
              List.take_of_length_le (by rw [List.length_drop]; omega)]
      refine ⟨e.1, ?_⟩
      rw [e.1, e.2]; simp

theorem sat_read {G : Reader} (henc : Encodes truth S proto content) (hG : GoodReader truth G) {off size prefetch : Nat}
    (hp : size ≤ prefetch) :
    Sat (StateOk S proto) (read S proto G prefetch off size) fun r _ => ReadOk S G content off size r := by
  obtain ⟨hk, lists, hl⟩ := layout_of_encodes henc
  unfold read
  rw [if_neg (by simp [hk])]
  by_cases hz : size = 0
  · rw [if_pos hz]
    exact sat_pure _ fun s _ => by subst hz; exact ⟨by simp, rfl⟩
  · rw [if_neg hz]
    by_cases ho : off < content.length
    · obtain ⟨h1, h2, h3⟩ := findChunkList_spec hl ho
      generalize findChunkList proto off = n at *
      have hget : lists[n]? = some lists[n] := List.getElem?_eq_getElem h1
      have hlen := hl.len
      -- the list found
      have hstart : Sat (StateOk S proto) (startList S proto n) (fun r s => StateOk S proto s ∧
          (r = .refs (refsAt truth 0 lists[n]) ∨ r = .error ∧ S.fails)) := by
        cases n with
        | zero =>
          refine sat_pure _ fun s hs => ⟨hs, .inl ?_⟩
          unfold directList
          rw [hl.direct _ hget]
        | succ i =>
          refine Sat.post (sat_getIndirectList i) ?_
          rintro r s ⟨hs, hr⟩
          refine ⟨hs, ?_⟩
          have hst := hl.store i _ hget
          cases r with
          | error =>
            rcases hr with h | h
            · exact .inr ⟨rfl, h⟩
            · rw [hst] at h; cases h
          | eof => have : i = proto.info.indirect.length := hr; omega
          | refs l =>
            have h : _ = some l := hr
            rw [hst] at h
            rw [Option.some.inj h]
            exact .inl rfl
      refine sat_bind _ hstart fun r => ?_
      refine sat_fact (A := r = .refs (refsAt truth 0 lists[n]) ∨ r = .error ∧ S.fails) (fun s hs => hs.2) ?_
      rintro (rfl | ⟨rfl, hf⟩)
      · unfold readFrom
        dsimp only
        have hsucc := startOf_succ (truth := truth) hget
        obtain ⟨pre, id, ids, e1, e2, e3, e4, e5⟩ := findChunk_split (truth := truth) (off - startOf truth lists n) lists[n] 0
          (Nat.zero_le _) (by omega)
        have hfc : findChunk (refsAt truth 0 lists[n]) (listOffset proto n) off = pre.length + 1 := by
          unfold findChunk
          rw [hl.start n (by omega)]; exact e2
        rw [hfc, if_neg (by omega), Nat.add_sub_cancel, e3, Nat.zero_add]
        refine sat_bind (Done truth S proto content off size prefetch) ?_ (fun r => sat_transferOf hG hp r)
        refine Sat.pre (P := StateOk S proto) ?_ (fun s hs => hs.1)
        have hok : LoopOk truth content off size prefetch ⟨off, size, prefetch, []⟩ := by
          refine ⟨Nat.le_refl _, by dsimp only; omega, by simp, by simp, by simp, by simp, by simp [asked]⟩
        refine sat_chunkLoop hl hp n lists[n] hget _ ?_ (id :: ids) pre true _ e1 hok (by simp) ?_
        · intro l' hok' ho'
          exact sat_listLoop hl hp _ _ l' (by omega) (by omega) hok' ho'
        · intro _
          refine ⟨id, ids, rfl, ?_, ?_⟩
          · dsimp only; omega
          · dsimp only; omega
      · exact sat_pure _ fun s _ => .inl hf
    · -- past the end
      have hn : findChunkList proto off = proto.info.indirect.length + 1 := by
        unfold findChunkList
        rw [if_pos (by rw [hl.size]; omega)]
      rw [hn]
      have : startList S proto (proto.info.indirect.length + 1) = pure .eof := by
        show getIndirectList S proto proto.info.indirect.length = _
        unfold getIndirectList
        rw [if_pos rfl]
      rw [this]
      refine sat_bind (fun r _ => r = .eof) (sat_pure _ fun _ _ => rfl) fun r => ?_
      refine sat_fact (A := r = .eof) (fun _ h => h) ?_
      rintro rfl
      refine sat_pure _ fun s _ => ?_
      refine ⟨?_, rfl⟩
      rw [List.drop_eq_nil_of_le (by omega), List.take_nil]

end

/-! ### Results -/

/-- **C25.** For every file content, every way it is cut into chunks and indirect lists, every state the asset
can be in after any history of calls by any number of threads, and with other threads running at the same
time: a read at any offset and of any size either fails or returns exactly the bytes of the file in that
range (clipped at the end), and it only fails if a request to the data store failed or did not deliver. -/
theorem C25_read_right_bytes (truth : Id → List UInt8) (S : Store) (proto : Manifest.Asset) (content : List UInt8)
    (henc : Encodes truth S proto content) (G : Reader) (hG : GoodReader truth G)
    (offset size prefetch : Nat) (hp : size ≤ prefetch)
    (s s' : State) (hs : Other S proto (initial proto) s) (r : Option (Nat × List UInt8))
    (h : read S proto G prefetch offset size s r s') :
    (∀ n data, r = some (n, data) → data = (content.drop offset).take size ∧ n = data.length) ∧
    (r = none → S.fails ∨ ∃ ts ok ts', G ts ok ts' ∧ (ok = false ∨ Provider.readDone ts' = false)) := by
  have := sat_read henc hG hp s r s' (stateOk_other (stateOk_initial S proto) hs) h
  exact ⟨fun n data e => by subst e; exact this, fun e => by subst e; exact this⟩

/-- The chunk provider as a reader: with a cache holding prefixes of chunks (torn writes) it may be called at any
time. -/
def providerReader (E : Provider.Env) (truth : Id → List UInt8) (hasWriter : Bool) (readers : List Provider.Kind) : Reader :=
  fun ts ok ts' => ∃ s s' a, (∀ id d, s.cache id = some d → d <+: truth id) ∧
    Provider.getChunks E hasWriter readers ts s (.ret a) s' ∧ a.ok = ok ∧ a.tasks = ts'

/-- **C25, end to end.** The same with the chunk provider of this repository as data store: any readers, any cache
content left by earlier crashes, other threads and the cleanup thread at work, failing I/O. -/
theorem C25_read_through_provider (truth : Id → List UInt8) (S : Store) (proto : Manifest.Asset) (content : List UInt8)
    (henc : Encodes truth S proto content) (E : Provider.Env) (hsrc : ∀ id d, E.src id d → d = truth id) (ht : E.torn)
    (hasWriter : Bool) (readers : List Provider.Kind)
    (offset size prefetch : Nat) (hp : size ≤ prefetch)
    (s s' : State) (hs : Other S proto (initial proto) s) (n : Nat) (data : List UInt8)
    (h : read S proto (providerReader E truth hasWriter readers) prefetch offset size s (some (n, data)) s') :
    data = (content.drop offset).take size ∧ n = data.length := by
  refine (C25_read_right_bytes truth S proto content henc (providerReader E truth hasWriter readers) ?_
    offset size prefetch hp s s' hs (some (n, data)) h).1 n data rfl
  rintro ts ok ts' hf ⟨c, c', a, hc, hg, rfl, rfl⟩
  obtain ⟨_, hspec⟩ := Provider.C20_multi_chunk_read_right_bytes E truth hsrc hasWriter readers ts hf c c' (.ret a) hc ht hg
  have hspec := hspec a rfl
  exact ⟨hspec.requests, fun t h1 h2 h3 => (hspec.bytes t h1 h2 h3).2⟩

/-! ### A run -/

def demoTruth (id : Id) : List UInt8 :=
  if id = [1] then [10, 11, 12] else if id = [2] then [20, 21] else if id = [3] then [30] else [40, 41]

def demoProto : Manifest.Asset :=
  .mk { kind := .file, fileSize := 8, chunks := [⟨0, [1]⟩], indirect := [⟨3, [101]⟩, ⟨6, [102]⟩] } [] []

def demoStore : Store where
  chunkLists := fun id => if id = [101] then some [⟨0, [2]⟩, ⟨2, [3]⟩] else if id = [102] then some [⟨0, [4]⟩] else none
  assetLists := fun _ => none
  fails := False
  conc := True

/-- A file of 8 bytes in four chunks, one listed directly, the others in two indirect lists. -/
example : Encodes demoTruth demoStore demoProto [10, 11, 12, 20, 21, 30, 40, 41] :=
  ⟨[[1]], [([101], [[2], [3]]), ([102], [[4]])], rfl, rfl, by decide, by decide, by decide, by decide⟩

/-- A reader that delivers everything. -/
def demoReader : Reader := fun ts ok ts' => ok = true ∧
  ts' = ts.map fun t => { t with buf := ((demoTruth t.id).drop t.offset).take t.size, done := true }

example : GoodReader demoTruth demoReader := by
  rintro ts ok ts' _ ⟨_, rfl⟩
  refine ⟨by simp [Provider.Task.key, Function.comp_def], ?_⟩
  intro t ht _ _
  obtain ⟨x, _, rfl⟩ := List.mem_map.mp ht
  rfl

/-- Reading 4 bytes at offset 4 goes through two indirect lists, with 5 bytes of prefetch. -/
example : ∃ s', read demoStore demoProto demoReader 5 4 4 (initial demoProto) (some (4, [21, 30, 40, 41])) s' := by
  let s0 := initial demoProto
  let l1 : List Ref := [⟨0, [2]⟩, ⟨2, [3]⟩]
  let l2 : List Ref := [⟨0, [4]⟩]
  let s1 : State := { s0 with chunkLists := [some l1] }
  let s2 : State := { s0 with chunkLists := [some l1, some l2] }
  refine ⟨s2, .refs l1, s1, ?_, ?_⟩
  · exact ⟨none, s0, ⟨s0, .inl rfl, rfl, rfl⟩, some l1, s1,
      ⟨s0, .inl rfl, .inr ⟨⟨3, [101]⟩, l1, rfl, rfl, rfl, rfl⟩⟩, rfl, rfl⟩
  · refine ⟨some ⟨8, 0, 1, [⟨[2], 1, 1, [0], [], false⟩, ⟨[3], 0, 1, [0], [], false⟩, ⟨[4], 0, 2, [0, 0], [], false⟩]⟩, s2, ?_, ?_⟩
    · refine ⟨.refs l2, s2, ?_, rfl, rfl⟩
      exact ⟨none, s1, ⟨s1, .inl rfl, rfl, rfl⟩, some l2, s2,
        ⟨s1, .inl rfl, .inr ⟨⟨6, [102]⟩, l2, rfl, rfl, rfl, rfl⟩⟩, rfl, rfl⟩
    · exact ⟨rfl, true, _, ⟨rfl, rfl⟩, by decide⟩

end Verif.Asset
