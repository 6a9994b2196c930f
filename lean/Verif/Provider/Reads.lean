import Verif.Provider.Props

/-! # Reads succeed whatever the state of the cache (C184) -/
namespace Verif.Provider

section
variable {E : Env} {truth : Id → Bytes}

/-- Nothing is asserted about crashes. -/
abbrev Any : State → Prop := fun _ => True

/-- A request that a good remote store can answer: the range is part of the chunk. -/
def Answerable (truth : Id → Bytes) (key : Id × Nat × Nat) : Prop := key.2.1 + key.2.2 ≤ (truth key.1).length

/-- No reader of the list fails for the requested chunks, and the remote reader has them. -/
structure Reachable (E : Env) (readers : List Kind) (id : Id) : Prop where
  noFailure : ∀ k ∈ readers, ¬E.fails k id
  remote : ¬E.missing .grpc id

theorem sat_fetch_good {k : Kind} {id : Id} (hf : ¬E.fails k id) :
    Sat Any (fetch E k id) (fun r _ => (∃ d, r = .ok d ∧ E.src id d) ∨ (r = .notFound ∧ E.missing k id)) Any := by
  rintro s o s' - ⟨rfl, hm⟩
  cases o with
  | crashed => trivial
  | ret r =>
    cases r with
    | ok d => exact .inl ⟨d, rfl, hm⟩
    | notFound => exact .inr ⟨rfl, hm⟩
    | error => exact absurd hm hf

theorem sat_rest {m : Prog (Bool × List Task)} {ts : List Task} (t t' : Task) (he : t'.key = t.key)
    (h : Sat Any m (fun r _ => r.1 = true ∧ r.2.map Task.key = ts.map Task.key) Any) :
    Sat Any (do let r ← m; pure (r.1, t' :: r.2)) (fun r _ => r.1 = true ∧ r.2.map Task.key = (t :: ts).map Task.key) Any :=
  sat_bind _ h fun r => sat_pure _ fun s hs => ⟨hs.1, by simp [hs.2, he]⟩

theorem sat_batch_good (hsrc : ∀ id d, E.src id d → d = truth id) (k : Kind) (ts : List Task)
    (hf : ∀ t ∈ ts, ¬E.fails k t.id) (hm : ∀ t ∈ ts, ¬E.missing .grpc t.id) (ha : ∀ t ∈ ts, Answerable truth t.key) :
    Sat Any (batch E k ts) (fun r _ => r.1 = true ∧ r.2.map Task.key = ts.map Task.key) Any := by
  induction ts with
  | nil => cases k <;> exact sat_pure _ fun s _ => ⟨rfl, rfl⟩
  | cons t ts ih =>
    have ih := ih (fun t h => hf t (List.mem_cons_of_mem _ h)) (fun t h => hm t (List.mem_cons_of_mem _ h)) (fun t h => ha t (List.mem_cons_of_mem _ h))
    have hf := hf t (List.mem_cons_self ..)
    have hm := hm t (List.mem_cons_self ..)
    have ha : t.offset + t.size ≤ (truth t.id).length := ha t (List.mem_cons_self ..)
    cases k with
    | grpc =>
      simp only [batch] at ih ⊢
      unfold grpcBatch
      split
      · exact sat_rest t t rfl ih
      · refine sat_bind _ (sat_fetch_good hf) fun r => ?_
        refine sat_fact (fun s hs => hs) fun h => ?_
        rcases h with ⟨d, rfl, hd⟩ | ⟨-, h⟩
        · have := hsrc _ _ hd
          dsimp only
          rw [if_neg (by rw [this]; omega)]
          refine Sat.pre (P := Any) (sat_rest t _ ?_ ih) fun _ _ => trivial
          rfl
        · exact absurd h hm
    | mem =>
      simp only [batch] at ih ⊢
      unfold memBatch
      split
      · exact sat_rest t t rfl ih
      · refine sat_bind _ (sat_fetch_good hf) fun r => ?_
        refine sat_fact (fun s hs => hs) fun h => ?_
        rcases h with ⟨d, rfl, hd⟩ | ⟨rfl, h⟩
        · have := hsrc _ _ hd
          dsimp only
          split
          · refine Sat.pre (P := Any) (sat_rest t _ ?_ ih) fun _ _ => trivial
            rfl
          · rename_i h0
            rw [if_neg (by rw [this]; omega), if_neg (by rw [this]; omega)]
            refine Sat.pre (P := Any) (sat_rest t _ ?_ ih) fun _ _ => trivial
            rfl
        · exact (sat_rest t t rfl ih).pre fun _ _ => trivial
    | dflt =>
      simp only [batch] at ih ⊢
      unfold dfltBatch
      split
      · exact sat_rest t t rfl ih
      · refine sat_bind _ (sat_fetch_good hf) fun r => ?_
        refine sat_fact (fun s hs => hs) fun h => ?_
        rcases h with ⟨d, rfl, hd⟩ | ⟨rfl, h⟩
        · have := hsrc _ _ hd
          dsimp only
          rw [if_neg (by simp [this]; omega)]
          refine Sat.pre (P := Any) (sat_rest t _ ?_ ih) fun _ _ => trivial
          rfl
        · exact (sat_rest t t rfl ih).pre fun _ _ => trivial

theorem keys_all {p : Id × Nat × Nat → Prop} {ts ts' : List Task} (h : ts'.map Task.key = ts.map Task.key) (ha : ∀ t ∈ ts, p t.key) :
    ∀ t ∈ ts', p t.key := by
  intro t ht
  have : t.key ∈ ts.map Task.key := by rw [← h]; exact List.mem_map_of_mem ht
  obtain ⟨t0, h0, e⟩ := List.mem_map.1 this
  exact e ▸ ha t0 h0

theorem sat_readersLoop_good (hsrc : ∀ id d, E.src id d → d = truth id) (ks : List Kind) : ∀ (ts : List Task),
    (∀ t ∈ ts, Reachable E ks t.id) → (∀ t ∈ ts, Answerable truth t.key) → Sat Any (readersLoop E ks ts) (fun r _ => r.1 = true) Any := by
  induction ks with
  | nil => intro ts _ _; exact sat_pure _ fun s _ => rfl
  | cons k ks ih =>
    intro ts hr ha
    unfold readersLoop
    refine sat_bind _ (sat_batch_good hsrc k ts (fun t ht => (hr t ht).noFailure k (List.mem_cons_self ..)) (fun t ht => (hr t ht).remote) ha) fun r => ?_
    refine sat_fact (fun s hs => hs) fun ⟨h1, h2⟩ => ?_
    rw [if_neg (by simp [h1])]
    split
    · exact sat_pure _ fun s _ => h1
    · refine (ih r.2 ?_ ?_).pre fun _ _ => trivial
      · exact keys_all (p := fun key => Reachable E ks key.1) h2 fun t ht => ⟨fun k hk => (hr t ht).noFailure k (List.mem_cons_of_mem _ hk), (hr t ht).remote⟩
      · exact keys_all h2 ha

theorem sat_any {α : Type} (m : Prog α) : Sat Any m (fun _ => Any) Any := fun s o s' _ _ => by cases o <;> trivial

/-- **C184, several chunks.** However the cache was damaged, whichever of its operations fail and whatever other threads do: if no reader fails and the
remote reader has the chunks, every multi-chunk read that returns has succeeded, and has read the right bytes for every request. -/
theorem C184_batch (E : Env) (truth : Id → Bytes) (hsrc : ∀ id d, E.src id d → d = truth id) (hasWriter : Bool) (readers : List Kind)
    (ts : List Task) (hts : ∀ t ∈ ts, Fresh t) (hg : Kind.grpc ∈ readers) (hr : ∀ t ∈ ts, Reachable E readers t.id)
    (ha : ∀ t ∈ ts, t.offset + t.size ≤ (truth t.id).length) (s s' : State) (a : Answer) (hs : ∀ id d, s.cache id = some d → d <+: truth id)
    (ht : E.torn) (h : getChunks E hasWriter readers ts s (.ret a) s') :
    a.ok = true ∧ a.tasks.map Task.key = ts.map Task.key ∧
      ∀ t ∈ a.tasks, t.size ≠ 0 → t.done = true ∧ t.buf = ((truth t.id).drop t.offset).take t.size := by
  have hspec := (C20_multi_chunk_read_right_bytes E truth hsrc hasWriter readers ts hts s s' _ hs ht h).2 a rfl
  suffices hok : a.ok = true by
    refine ⟨hok, hspec.requests, fun t hm h0 => ?_⟩
    have hd := hspec.complete hok hg t hm h0
    exact ⟨hd, (hspec.bytes t hm hd h0).2⟩
  have h0 : TasksOk truth ts := fun t ht => taskOk_fresh (hts t ht)
  have key : Sat (Run E truth s.held) (getChunks E hasWriter readers ts) (fun a _ => a.ok = true) Any := by
    unfold getChunks
    refine sat_bind _ (Sat.imp (sat_getFromWriter hsrc s.held hasWriter true ts h0) (fun _ h => h) (fun _ _ h => h) (fun _ _ => trivial)) fun ts1 => ?_
    split
    · exact sat_pure _ fun _ _ => rfl
    · refine sat_fact (fun s hs => hs.2) fun h1 => ?_
      refine sat_bind (fun _ => Run E truth _) (sat_setHeld (P := Run E truth s.held) (stable_run hsrc s.held) _
        (fun s hs => ⟨hs.1, rfl⟩) |>.pre fun s hs => hs.1) fun _ => ?_
      refine sat_bind _ (Sat.imp (sat_getFromWriter hsrc _ hasWriter false ts1 h1.1.1) (fun _ h => h) (fun _ _ h => h) (fun _ _ => trivial)) fun ts2 => ?_
      split
      · exact sat_pure _ fun _ _ => rfl
      · refine sat_fact (fun s hs => hs.2) fun h2 => ?_
        have hk : ts2.map Task.key = ts.map Task.key := h2.1.2.1.trans h1.1.2.1
        refine sat_bind (fun r _ => r.1 = true) ((sat_readersLoop_good hsrc readers ts2
          (keys_all (p := fun key => Reachable E readers key.1) hk hr) (keys_all hk ha)).pre fun _ _ => trivial) fun r => ?_
        refine sat_fact (fun s hs => hs) fun hr1 => ?_
        rw [if_neg (by simp [hr1])]
        dsimp only
        split
        · exact sat_bind (fun _ => Any) ((sat_any _).pre fun _ _ => trivial) fun _ => sat_pure _ fun _ _ => rfl
        · exact sat_pure _ fun _ _ => rfl
  exact key s _ s' ⟨fun id d hd => ⟨hs id d hd, fun e => absurd ht e⟩, rfl⟩ h

theorem sat_firstReader_good (hw : Bool) (id : Id) (ks : List Kind) (hg : Kind.grpc ∈ ks) (hr : Reachable E ks id) :
    Sat Any (firstReader E hw id ks) (fun r _ => ∃ d, r = .ok d) Any := by
  induction ks with
  | nil => cases hg
  | cons k ks ih =>
    unfold firstReader
    refine sat_bind _ (sat_fetch_good (hr.noFailure k (List.mem_cons_self ..))) fun r => ?_
    refine sat_fact (fun s hs => hs) fun h => ?_
    rcases h with ⟨d, rfl, -⟩ | ⟨rfl, h⟩
    · dsimp only
      split
      · exact sat_bind (fun _ => Any) ((sat_any _).pre fun _ _ => trivial) fun _ => sat_pure _ fun _ _ => ⟨d, rfl⟩
      · exact sat_pure _ fun _ _ => ⟨d, rfl⟩
    · rcases List.mem_cons.1 hg with e | hg
      · exact absurd (e ▸ h) hr.remote
      · exact (ih hg ⟨fun k hk => hr.noFailure k (List.mem_cons_of_mem _ hk), hr.remote⟩).pre fun _ _ => trivial

theorem sat_lookup {b : Bool} {f : Prog Res} {g : Prog Res} (hg : Sat Any g (fun r _ => ∃ d, r = .ok d) Any) :
    Sat Any (do
      let r ← (if b then f else pure .notFound)
      match r with
      | .ok d => pure (.ok d)
      | _ => g) (fun r _ => ∃ d, r = Res.ok d) Any := by
  refine sat_bind (fun _ => Any) (sat_any _) fun r => ?_
  cases r with
  | ok d => exact sat_pure _ fun _ _ => ⟨d, rfl⟩
  | notFound => exact hg
  | error => exact hg

/-- **C184, one chunk.** Under the same conditions, reads of a whole chunk and of a part of it succeed, whatever the state of the cache. -/
theorem C184_single (E : Env) (hasWriter : Bool) (readers : List Kind) (id : Id) (hg : Kind.grpc ∈ readers) (hr : Reachable E readers id)
    (s s' : State) (r : Res) :
    (getWhole E hasWriter readers id s (.ret r) s' → ∃ d, r = .ok d) ∧
    ∀ offset size, getRange E hasWriter readers id offset size s (.ret r) s' → ∃ d, r = .ok d := by
  have hfr := sat_firstReader_good hasWriter id readers hg hr
  constructor
  · intro h
    have : Sat Any (getWhole E hasWriter readers id) (fun r _ => ∃ d, r = .ok d) Any := by
      unfold getWhole
      refine sat_bind (fun _ => Any) (sat_any _) fun r => ?_
      have hx : ∀ b : Bool, Sat Any (do
          setHeld E (fun m => m == mutexOf id)
          let r2 ← cacheGetIf E b id
          match r2 with
          | .ok d => pure (.ok d)
          | _ => firstReader E hasWriter id readers) (fun r _ => ∃ d, r = Res.ok d) Any := fun b =>
        sat_bind (fun _ => Any) (sat_any _) fun _ => by unfold cacheGetIf; exact sat_lookup hfr
      cases r with
      | ok d => exact sat_pure _ fun _ _ => ⟨d, rfl⟩
      | notFound => exact hx _
      | error => exact hx _
    exact this s _ s' trivial h
  · intro offset size h
    have : Sat Any (getRange E hasWriter readers id offset size) (fun r _ => ∃ d, r = .ok d) Any := by
      unfold getRange
      refine sat_bind (fun _ => Any) (sat_any _) fun r => ?_
      have hl : Sat Any (do
          match ← firstReader E hasWriter id readers with
          | .ok b =>
            if b.length ≤ offset then pure (.ok [])
            else pure (.ok ((b.drop offset).take (min (b.length - offset) size)))
          | r => pure r) (fun r _ => ∃ d, r = Res.ok d) Any := by
        refine sat_bind _ hfr fun r => sat_fact (fun s hs => hs) fun ⟨d, e⟩ => ?_
        subst e
        dsimp only
        split <;> exact sat_pure _ fun _ _ => ⟨_, rfl⟩
      have hx : ∀ b : Bool, Sat Any (do
          setHeld E (fun m => m == mutexOf id)
          let r2 ← cacheGetRangeIf E b id offset size
          match r2 with
          | .ok d => pure (.ok d)
          | _ =>
            match ← firstReader E hasWriter id readers with
            | .ok b =>
              if b.length ≤ offset then pure (.ok [])
              else pure (.ok ((b.drop offset).take (min (b.length - offset) size)))
            | r => pure r) (fun r _ => ∃ d, r = Res.ok d) Any := fun b =>
        sat_bind (fun _ => Any) (sat_any _) fun _ => by unfold cacheGetRangeIf; exact sat_lookup hl
      cases r with
      | ok d => exact sat_pure _ fun _ _ => ⟨d, rfl⟩
      | notFound => exact hx _
      | error => exact hx _
    exact this s _ s' trivial h

end

/-- The conditions are met by the world of the examples, with a remote store that works: `tornState` has a damaged chunk. -/
theorem C184_example : Reachable { demoEnv with missing := fun k _ => k ≠ .grpc, fails := fun _ _ => False } [.mem, .grpc] [7] ∧
    (∀ id d, tornState.cache id = some d → d <+: demoTruth id) ∧ ∃ id d, tornState.cache id = some d ∧ d ≠ demoTruth id := by
  refine ⟨⟨fun k _ h => h, fun h => h rfl⟩, ?_, [7], [10, 11], rfl, by decide⟩
  intro id d hd
  simp only [tornState] at hd
  split at hd
  · cases hd; exact ⟨[12, 13], rfl⟩
  · cases hd

end Verif.Provider
