import Verif.Provider.Lemmas

/-!
# C20, C22: what the chunk provider returns

`truth id` is the right content of a chunk.
-/
namespace Verif.Provider

variable {E : Env} {truth : Id → Bytes}

/-- A task as the caller of the provider creates it. -/
def Fresh (t : Task) : Prop := t.done = false ∧ t.chunkData = [] ∧ t.buf.length = t.size

theorem taskOk_fresh {t : Task} (h : Fresh t) : TaskOk truth t where
  len := h.2.2
  data := fun e => absurd h.2.1 e
  done := fun e => absurd (h.1.symm.trans e) (by simp)

/-- Every chunk delivered by a reader of this call and stored has its right content in the cache. -/
def Repaired (truth : Id → Bytes) (ts : List Task) (s : State) : Prop :=
  s.ioFailed = false → ∀ t ∈ ts, t.done = true → t.chunkData ≠ [] → s.cache t.id = some (truth t.id)

theorem stable_repaired (ts : List Task) (f : Nat → Bool)
    (hf : ∀ t ∈ ts, t.done = true → t.chunkData ≠ [] → f (mutexOf t.id) = true) :
    Stable E (fun s => s.held = f ∧ Repaired truth ts s) := by
  rintro s s' ⟨hh, h⟩ ⟨_, h1, h2, h3⟩
  refine ⟨h1.trans hh, ?_⟩
  intro hio t ht hd hc
  rw [(h3 t.id).1 (by rw [hh]; exact hf t ht hd hc)]
  exact h (h2 ▸ hio) t ht hd hc

theorem sat_putLoop (hsrc : ∀ id d, E.src id d → d = truth id) (f : Nat → Bool) (ts : List Task) :
    ∀ (acc : List Task), TasksOk truth ts →
    (∀ t ∈ acc ++ ts, t.done = true → t.chunkData ≠ [] → f (mutexOf t.id) = true) →
    Sat (fun s => CacheOk E truth s ∧ s.held = f ∧ Repaired truth acc s) (putLoop E ts)
      (fun _ s => CacheOk E truth s ∧ s.held = f ∧ Repaired truth (acc ++ ts) s) (CacheOk E truth) := by
  induction ts with
  | nil => intro acc _ _; exact sat_pure _ fun s hs => by simpa using hs
  | cons t ts ih =>
    intro acc hts hf
    rw [tasksOk_cons] at hts
    have hstep := ih (acc ++ [t]) hts.2 (by simpa using hf)
    simp only [List.append_assoc, List.singleton_append] at hstep
    unfold putLoop
    by_cases hd : (!t.done || t.chunkData.isEmpty) = true
    · rw [if_pos hd]
      refine Sat.pre hstep ?_
      rintro s ⟨h1, h2, h3⟩
      refine ⟨h1, h2, fun hio x hx hxd hxc => ?_⟩
      rcases List.mem_append.mp hx with hx | hx
      · exact h3 hio x hx hxd hxc
      · rw [List.mem_singleton.mp hx] at hxd hxc
        simp [hxd, hxc] at hd
    · rw [if_neg hd]
      have hcd : t.chunkData = truth t.id := hts.1.data (by
        intro e; rw [e] at hd; simp at hd)
      have hst : Stable E (fun s => CacheOk E truth s ∧ s.held = f ∧ Repaired truth acc s) :=
        (stable_cacheOk hsrc).and (stable_repaired acc f fun t ht => hf t (List.mem_append_left _ ht))
      refine sat_bind (fun _ s => CacheOk E truth s ∧ s.held = f ∧ Repaired truth (acc ++ [t]) s)
        (sat_cachePut hst t.id t.chunkData ?_ ?_ ?_ ?_ ?_) fun _ => hstep
      · rintro s ⟨h1, h2, h3⟩
        refine ⟨?_, h2, ?_⟩
        · have := cacheOk_set h1 t.id (p := t.chunkData) ⟨by rw [hcd]; exact List.prefix_refl _, fun _ => hcd⟩
            s.ioFailed s.held
          exact this
        · intro hio x hx hxd hxc
          dsimp only
          by_cases e : x.id = t.id
          · rw [if_pos e, e, hcd]
          · rw [if_neg e]
            rcases List.mem_append.mp hx with hx | hx
            · exact h3 hio x hx hxd hxc
            · exact absurd (by rw [List.mem_singleton.mp hx]) e
      · rintro s ⟨h1, h2, _⟩; exact ⟨h1, h2, fun h => by cases h⟩
      · rintro s p ⟨h1, h2, _⟩ hp
        exact ⟨cacheOk_set h1 t.id (hcd ▸ hp) true s.held, h2, fun h => by cases h⟩
      · intro s hs; exact hs.1
      · rintro s p ⟨h1, h2, _⟩ hp
        exact cacheOk_set h1 t.id (hcd ▸ hp) s.ioFailed s.held

/-- The specification of a multi-chunk read. -/
structure ChunksSpec (E : Env) (truth : Id → Bytes) (hw : Bool) (readers : List Kind) (ts : List Task)
    (a : Answer) (s : State) : Prop where
  requests : a.tasks.map Task.key = ts.map Task.key
  bytes : ∀ t ∈ a.tasks, t.done = true → t.size ≠ 0 →
    t.offset + t.size ≤ (truth t.id).length ∧ t.buf = ((truth t.id).drop t.offset).take t.size
  repaired : a.ok = true → hw = true → Repaired truth a.tasks s
  complete : a.ok = true → Kind.grpc ∈ readers → ∀ t ∈ a.tasks, t.size ≠ 0 → t.done = true

theorem sat_grpcBatch_done (ts : List Task) :
    Sat (fun _ => True) (grpcBatch E ts) (fun r _ => r.1 = true → ∀ t ∈ r.2, t.done = true) (fun _ => True) := by
  induction ts with
  | nil => exact sat_pure _ fun s _ _ t ht => by cases ht
  | cons t ts ih =>
    have key : ∀ (t' : Task), t'.done = true → Sat (fun _ => True) (do
        let r ← grpcBatch E ts
        pure (r.1, t' :: r.2)) (fun r _ => r.1 = true → ∀ t ∈ r.2, t.done = true) (fun _ => True) := by
      intro t' hd
      refine sat_bind _ ih fun r => sat_pure _ fun s hs hok x hx => ?_
      rcases List.mem_cons.mp hx with rfl | hx
      · exact hd
      · exact hs hok x hx
    unfold grpcBatch
    split
    · rename_i hd; exact key t hd
    · refine sat_bind (fun _ _ => True) (fun s o s' _ _ => by cases o <;> trivial) fun r => ?_
      cases r with
      | ok d =>
        dsimp only
        split
        · exact sat_pure _ fun s _ h => by cases h
        · exact key _ rfl
      | notFound => exact sat_pure _ fun s _ h => by cases h
      | error => exact sat_pure _ fun s _ h => by cases h

theorem forall₂_done {a b : List Task} (h : List.Forall₂ (fun b a : Task => b.done = true → a = b) a b)
    (hd : ∀ t ∈ a, t.done = true) : ∀ t ∈ b, t.done = true := by
  induction h with
  | nil => exact hd
  | @cons x y _ _ h1 _ ih =>
    intro t ht
    have hx := hd x (List.mem_cons_self ..)
    rcases List.mem_cons.mp ht with rfl | ht
    · rw [h1 hx]; exact hx
    · exact ih (fun t ht => hd t (List.mem_cons_of_mem _ ht)) t ht

theorem Sat.both {α : Type} {P : State → Prop} {m : Prog α} {Q Q' : α → State → Prop} {C : State → Prop}
    (h : Sat P m Q C) (h' : Sat (fun _ => True) m Q' (fun _ => True)) : Sat P m (fun a s => Q a s ∧ Q' a s) C := by
  intro s o s' hp hm
  have h1 := h s o s' hp hm
  have h2 := h' s o s' trivial hm
  cases o with
  | ret a => exact ⟨h1, h2⟩
  | crashed => exact h1

theorem sat_readersLoop_done (hsrc : ∀ id d, E.src id d → d = truth id) (ks : List Kind) :
    ∀ (ts : List Task), TasksOk truth ts → (Kind.grpc ∈ ks ∨ ∀ t ∈ ts, t.done = true) →
      Sat (fun _ => True) (readersLoop E ks ts) (fun r _ => r.1 = true → ∀ t ∈ r.2, t.done = true)
        (fun _ => True) := by
  induction ks with
  | nil =>
    intro ts _ h
    refine sat_pure _ fun s _ _ => ?_
    rcases h with h | h
    · cases h
    · exact h
  | cons k ks ih =>
    intro ts hts h
    unfold readersLoop
    have hb := Sat.both (sat_batch (P := fun _ => True) hsrc k ts hts)
      (show Sat (fun _ => True) (batch E k ts)
        (fun r _ => r.1 = true → k = .grpc → ∀ t ∈ r.2, t.done = true) (fun _ => True) by
        cases k with
        | grpc => exact (sat_grpcBatch_done ts).imp (fun _ h => h) (fun a s h h1 _ => h h1) (fun _ h => h)
        | mem => intro s o s' _ _; cases o with | ret a => intro _ h; cases h | crashed => trivial
        | dflt => intro s o s' _ _; cases o with | ret a => intro _ h; cases h | crashed => trivial)
    refine sat_bind _ hb fun r => ?_
    split
    · rename_i hr
      exact sat_pure _ fun s _ h => by simp [h] at hr
    · rename_i hr
      split
      · rename_i hp
        exact sat_pure _ fun s _ _ => by simpa [prefetchDone] using hp
      · refine sat_fact (fun s hs => hs) fun hs => ?_
        refine Sat.pre (ih r.2 hs.1.2.1 ?_) fun s _ => trivial
        rcases h with h | h
        · rcases List.mem_cons.mp h with h | h
          · right; exact hs.2 (by simpa using hr) h.symm
          · exact .inl h
        · right; exact forall₂_done hs.1.2.2.2 h

theorem chunkData_nil_of_map {a b : List Task} (h : b.map Task.chunkData = a.map Task.chunkData)
    (ha : ∀ t ∈ a, t.chunkData = []) : ∀ t ∈ b, t.chunkData = [] := by
  intro t ht
  have : t.chunkData ∈ a.map Task.chunkData := h ▸ List.mem_map_of_mem ht
  obtain ⟨x, hx, e⟩ := List.mem_map.mp this
  rw [← e]; exact ha x hx

/-- A task of the final list was either already done at locking time, or its mutex is held. -/
theorem held_of_forall₂ {a b : List Task} (h : List.Forall₂ (fun b a : Task => b.done = true → a = b) a b)
    (hk : b.map Task.key = a.map Task.key) (ha : ∀ t ∈ a, t.chunkData = []) :
    ∀ t ∈ b, t.chunkData ≠ [] →
      ((((a.filter fun t => !t.done).map Task.id).map mutexOf).contains (mutexOf t.id)) = true := by
  induction h with
  | nil => intro t ht; cases ht
  | @cons x y l l' h1 _ ih =>
    intro t ht hc
    simp only [List.map_cons, List.cons.injEq] at hk
    rcases List.mem_cons.mp ht with rfl | ht
    · by_cases hd : x.done = true
      · exact absurd (by rw [h1 hd]; exact ha x (List.mem_cons_self ..)) hc
      · have : t.id = x.id := congrArg Prod.fst hk.1
        rw [this]
        simp [hd]
    · have := ih hk.2 (fun t ht => ha t (List.mem_cons_of_mem _ ht)) t ht hc
      rw [List.filter_cons]
      split
      · simp only [List.map_cons, List.contains_cons, this, Bool.or_true]
      · exact this

theorem readDone_complete {ts : List Task} (h : readDone ts = true) : ∀ t ∈ ts, t.size ≠ 0 → t.done = true := by
  intro t ht hz
  have := List.all_eq_true.mp h t ht
  simpa [hz] using this

theorem repaired_of_nil {ts : List Task} {s : State} (h : ∀ t ∈ ts, t.chunkData = []) : Repaired truth ts s :=
  fun _ t ht _ hc => absurd (h t ht) hc

theorem sat_getChunks (hsrc : ∀ id d, E.src id d → d = truth id) (hw : Bool) (readers : List Kind)
    (ts : List Task) (hts : ∀ t ∈ ts, Fresh t) (f : Nat → Bool) :
    Sat (Run E truth f) (getChunks E hw readers ts)
      (fun a s => CacheOk E truth s ∧ ChunksSpec E truth hw readers ts a s) (CacheOk E truth) := by
  have h0 : TasksOk truth ts := fun t ht => taskOk_fresh (hts t ht)
  have hn0 : ∀ t ∈ ts, t.chunkData = [] := fun t ht => (hts t ht).2.1
  unfold getChunks
  refine sat_bind _ (Sat.imp (sat_getFromWriter hsrc f hw true ts h0) (fun _ h => h) (fun _ _ h => h)
    (fun _ h => h.1)) fun ts1 => ?_
  split
  · rename_i hr
    refine sat_pure _ fun s hs => ⟨hs.1.1, ?_⟩
    exact { requests := hs.2.1.2.1
            bytes := fun t ht => (hs.2.1.1 t ht).done
            repaired := fun _ _ => repaired_of_nil (chunkData_nil_of_map hs.2.2 hn0)
            complete := fun _ _ => readDone_complete hr }
  · refine sat_fact (fun s hs => hs.2) fun h1 => ?_
    have hn1 := chunkData_nil_of_map h1.2 hn0
    refine sat_bind (fun _ => Run E truth _) (sat_setHeld (P := Run E truth f) (stable_run hsrc f) _
      (fun s hs => ⟨hs.1, rfl⟩) |>.pre fun s hs => hs.1) fun _ => ?_
    refine sat_bind _ (Sat.imp (sat_getFromWriter hsrc _ hw false ts1 h1.1.1) (fun _ h => h) (fun _ _ h => h)
      (fun _ h => h.1)) fun ts2 => ?_
    split
    · rename_i hr
      refine sat_pure _ fun s hs => ⟨hs.1.1, ?_⟩
      exact { requests := hs.2.1.2.1.trans h1.1.2.1
              bytes := fun t ht => (hs.2.1.1 t ht).done
              repaired := fun _ _ => repaired_of_nil (chunkData_nil_of_map hs.2.2 hn1)
              complete := fun _ _ => readDone_complete hr }
    · refine sat_fact (fun s hs => hs.2) fun h2 => ?_
      have hloop : ∀ g : Nat → Bool, Sat (Run E truth g) (readersLoop E readers ts2)
          (fun r s => (Run E truth g s ∧ BatchOk truth ts2 r.2) ∧
            (r.1 = true → Kind.grpc ∈ readers → ∀ t ∈ r.2, t.done = true)) (Run E truth g) := by
        intro g
        refine Sat.both (sat_readersLoop hsrc readers ts2 h2.1.1) ?_
        by_cases hg : Kind.grpc ∈ readers
        · exact (sat_readersLoop_done hsrc readers ts2 h2.1.1 (.inl hg)).imp (fun _ h => h)
            (fun _ _ h h1 _ => h h1) (fun _ h => h)
        · intro s o s' _ _
          cases o with
          | ret a => intro _ h; exact absurd h hg
          | crashed => trivial
      refine sat_bind _ (Sat.imp (hloop _) (fun _ h => h.1) (fun _ _ h => h) (fun _ h => h.1)) fun r => ?_
      refine sat_fact (fun s hs => And.intro hs.1.2 hs.2) fun hr => ?_
      have hb : BatchOk truth ts r.2 := h1.1.trans (h2.1.trans hr.1)
      split
      · rename_i hno
        refine sat_pure _ fun s hs => ⟨hs.1.1.1, ?_⟩
        exact { requests := hb.2.1, bytes := fun t ht => (hb.1 t ht).done
                repaired := fun h => by cases h
                complete := fun h => by cases h }
      · rename_i hyes
        have hyes' : r.1 = true := by simpa using hyes
        split
        · rename_i hwt
          have hheld := held_of_forall₂ (h2.1.trans hr.1).2.2 (h2.1.trans hr.1).2.1 hn1
          have hput := sat_putLoop hsrc _ r.2 [] hb.1 (fun t ht _ hc => hheld t (by simpa using ht) hc)
          refine sat_bind _ (Sat.pre hput fun s hs => ⟨hs.1.1.1, hs.1.1.2, fun _ t ht => by cases ht⟩) fun _ => ?_
          refine sat_pure _ fun s hs => ⟨hs.1, ?_⟩
          exact { requests := hb.2.1, bytes := fun t ht => (hb.1 t ht).done
                  repaired := fun _ _ => hs.2.2
                  complete := fun _ hg t ht _ => hr.2 hyes' hg t ht }
        · rename_i hwf
          refine sat_pure _ fun s hs => ⟨hs.1.1.1, ?_⟩
          exact { requests := hb.2.1, bytes := fun t ht => (hb.1 t ht).done
                  repaired := fun _ h => absurd h hwf
                  complete := fun _ hg t ht _ => hr.2 hyes' hg t ht }

/-- **C20, multi-chunk reads.** If readers deliver right chunks and every cached file is a prefix of the
right chunk, then whatever the cache does (I/O errors, torn writes), whatever other threads do in
between, and wherever the process is killed:
* the cached files remain prefixes of the right chunks;
* every task reported done has exactly the requested bytes of the right chunk in its buffer, and the
  tasks still ask for the same ranges;
* if the call succeeds and no cache write failed, every chunk a reader delivered is whole in the cache;
* if the call succeeds and a gRPC reader is in the chain, every requested range was read. -/
theorem C20_multi_chunk_read_right_bytes (E : Env) (truth : Id → Bytes)
    (hsrc : ∀ id d, E.src id d → d = truth id) (hasWriter : Bool) (readers : List Kind)
    (ts : List Task) (hts : ∀ t ∈ ts, Fresh t) (s s' : State) (o : Out Answer)
    (hs : ∀ id d, s.cache id = some d → d <+: truth id) (ht : E.torn)
    (h : getChunks E hasWriter readers ts s o s') :
    (∀ id d, s'.cache id = some d → d <+: truth id) ∧
    ∀ a, o = .ret a → ChunksSpec E truth hasWriter readers ts a s' := by
  have := sat_getChunks hsrc hasWriter readers ts hts s.held s o s' ⟨fun id d hd => ⟨hs id d hd, fun e => absurd ht e⟩, rfl⟩ h
  cases o with
  | crashed => exact ⟨fun id d hd => (this id d hd).1, fun a e => by cases e⟩
  | ret a => exact ⟨fun id d hd => (this.1 id d hd).1, fun b e => by cases e; exact this.2⟩

theorem sat_firstReader (hsrc : ∀ id d, E.src id d → d = truth id) (hw : Bool) (id : Id) (ks : List Kind) :
    Sat (CacheOk E truth) (firstReader E hw id ks)
      (fun r s => CacheOk E truth s ∧ ∀ d, r = .ok d → d = truth id) (CacheOk E truth) := by
  induction ks with
  | nil => exact sat_pure _ fun s hs => ⟨hs, fun d e => by cases e⟩
  | cons k ks ih =>
    unfold firstReader
    refine sat_bind _ (sat_fetch id) fun r => ?_
    cases r with
    | notFound => exact ih.pre fun s hs => hs.1
    | error => exact sat_pure _ fun s hs => ⟨hs.1, fun d e => by cases e⟩
    | ok d =>
      dsimp only
      refine sat_fact (fun s hs => hsrc _ _ (hs.2 d rfl)) fun e => ?_
      split
      · refine sat_bind (fun _ => CacheOk E truth) (Sat.pre (P := CacheOk E truth) ?_ fun s hs => hs.1)
          fun _ => sat_pure _ fun s hs => ⟨hs, fun d' e' => by cases e'; exact e⟩
        refine sat_cachePut (stable_cacheOk hsrc) id d ?_ ?_ ?_ (fun s hs => hs) ?_
        · intro s hs
          exact cacheOk_set hs id ⟨e ▸ List.prefix_refl d, fun _ => e⟩ s.ioFailed s.held
        · intro s hs; exact hs
        · intro s p hs hp; exact cacheOk_set hs id (e ▸ hp) true s.held
        · intro s p hs hp; exact cacheOk_set hs id (e ▸ hp) s.ioFailed s.held
      · exact sat_pure _ fun s hs => ⟨hs.1, fun d' e' => by cases e'; exact e⟩

theorem sat_getWhole (hsrc : ∀ id d, E.src id d → d = truth id) (hw : Bool) (id : Id) (ks : List Kind) :
    Sat (CacheOk E truth) (getWhole E hw ks id)
      (fun r s => CacheOk E truth s ∧ ∀ d, r = .ok d → Written E d (truth id)) (CacheOk E truth) := by
  have hget : Sat (CacheOk E truth) (cacheGet E id)
      (fun r s => CacheOk E truth s ∧ ∀ d, r = .ok d → Written E d (truth id)) (CacheOk E truth) := by
    refine (sat_cacheGet (stable_cacheOk hsrc) id).imp (fun _ h => h) ?_ (fun _ h => h)
    rintro r s ⟨hP, hm⟩
    refine ⟨hP, ?_⟩
    rintro d rfl
    cases hc : s.cache id with
    | none => rw [hc] at hm; simp at hm
    | some d' =>
      rw [hc] at hm
      simp only [reduceCtorEq, false_or, Res.ok.injEq] at hm
      subst hm
      exact hP id d hc
  have hone : ∀ b : Bool, Sat (CacheOk E truth) (cacheGetIf E b id)
      (fun r s => CacheOk E truth s ∧ ∀ d, r = .ok d → Written E d (truth id)) (CacheOk E truth) := by
    intro b
    cases b with
    | true => exact hget
    | false => exact sat_pure _ fun s hs => ⟨hs, fun d e => by cases e⟩
  have hrest : ∀ b : Bool, Sat (CacheOk E truth) (do
      setHeld E (fun m => m == mutexOf id)
      let r2 ← cacheGetIf E b id
      match r2 with
      | .ok d => pure (.ok d)
      | _ => firstReader E hw id ks)
      (fun r s => CacheOk E truth s ∧ ∀ d, r = .ok d → Written E d (truth id)) (CacheOk E truth) := by
    intro b
    refine sat_bind (fun _ => CacheOk E truth) (sat_setHeld (stable_cacheOk hsrc) _ fun s hs => hs) fun _ => ?_
    refine sat_bind _ (hone b) fun r2 => ?_
    have hfr := (sat_firstReader hsrc hw id ks).imp (P' := fun s => CacheOk E truth s) (fun s hs => hs)
      (Q' := fun r s => CacheOk E truth s ∧ ∀ d, r = .ok d → Written E d (truth id))
      (fun r s h => ⟨h.1, fun d e => ⟨h.2 d e ▸ List.prefix_refl d, fun _ => h.2 d e⟩⟩) (C' := CacheOk E truth) (fun _ h => h)
    cases r2 with
    | ok d => exact sat_pure _ fun s hs => ⟨hs.1, fun d' e => by cases e; exact hs.2 d rfl⟩
    | notFound => exact hfr.pre fun s hs => hs.1
    | error => exact hfr.pre fun s hs => hs.1
  unfold getWhole
  refine sat_bind _ (hone hw) fun r1 => ?_
  cases r1 with
  | ok d => exact sat_pure _ fun s hs => ⟨hs.1, fun d' e => by cases e; exact hs.2 d rfl⟩
  | notFound => exact (hrest _).pre fun s hs => hs.1
  | error => exact (hrest _).pre fun s hs => hs.1

/-- **C85, whole-chunk reads: what holds.** A whole-chunk read returns a prefix of the right chunk in
every run, and the right chunk in every run in which no cache write was ever torn. Missing: the right
chunk when an earlier write was torn (see `C85_whole_chunk_read_violated`). -/
theorem C85_whole_chunk_read_partial (E : Env) (truth : Id → Bytes)
    (hsrc : ∀ id d, E.src id d → d = truth id) (hasWriter : Bool) (readers : List Kind) (id : Id)
    (s s' : State) (d : Bytes)
    (hs : ∀ id d, s.cache id = some d → d <+: truth id ∧ (¬ E.torn → d = truth id))
    (h : getWhole E hasWriter readers id s (.ret (.ok d)) s') :
    d <+: truth id ∧ (¬ E.torn → d = truth id) :=
  (sat_getWhole hsrc hasWriter id readers s _ s' hs h).2 d rfl

/-! ## Runs, to show that the statements are about something -/

theorem pure_run {α : Type} (a : α) (s : State) : (pure a : Prog α) s (.ret a) s := ⟨rfl, rfl⟩

theorem bind_run {α β : Type} {m : Prog α} {f : α → Prog β} {s s' s'' : State} {a : α} {o : Out β}
    (h1 : m s (.ret a) s') (h2 : f a s' o s'') : (m >>= f) s o s'' := .inl ⟨a, s', h1, h2⟩

theorem interfere_run (s : State) : interfere E s (.ret ()) s :=
  ⟨rfl, rfl, rfl, fun _ => ⟨fun _ => rfl, .inl rfl⟩⟩

theorem cacheGet_run {id : Id} {d : Bytes} {s : State} (h : s.cache id = some d) :
    cacheGet E id s (.ret (.ok d)) s :=
  bind_run (interfere_run s) (bind_run (a := ()) ⟨rfl, .inl rfl⟩ (by
    refine ⟨rfl, ?_⟩; rw [h]; exact .inr rfl))

/-- The world of the examples: one chunk, a reader that has it, writes can be torn. -/
def demoTruth : Id → Bytes := fun _ => [10, 11, 12, 13]
def demoEnv : Env := { src := fun _ d => d = [10, 11, 12, 13], torn := True }

/-- A cache in which a crash cut the chunk after two bytes. -/
def tornState : State := { cache := fun i => if i = [7] then some [10, 11] else none, held := fun _ => false }

/-- **C85, violated for whole-chunk reads.** With a cached file cut short by a crash, a whole-chunk
read succeeds and returns the short data although the reader has the chunk. -/
theorem C85_whole_chunk_read_violated :
    ∃ (E : Env) (truth : Id → Bytes) (s s' : State) (id : Id) (d : Bytes),
      (∀ id d, E.src id d → d = truth id) ∧ (∀ id d, s.cache id = some d → d <+: truth id) ∧
      getWhole E true [.grpc] id s (.ret (.ok d)) s' ∧ d ≠ truth id := by
  refine ⟨demoEnv, demoTruth, tornState, tornState, [7], [10, 11], fun _ _ h => h, ?_, ?_, by decide⟩
  · intro id d hd
    simp only [tornState] at hd
    split at hd
    · cases hd; exact ⟨[12, 13], rfl⟩
    · cases hd
  · exact bind_run (m := cacheGetIf _ true _) (cacheGet_run rfl) (pure_run _ _)

/-- **C85**, violated for every cached file that was cut short, whatever the readers have: a whole-chunk read can return it. -/
theorem C85_every_torn_file_violated (E : Env) (readers : List Kind) (id : Id) (s : State) (d : Bytes) (h : s.cache id = some d) :
    getWhole E true readers id s (.ret (.ok d)) s :=
  bind_run (m := cacheGetIf E true id) (cacheGet_run h) (pure_run _ _)

/-- The same cache, read as a list of chunks: the short copy is detected, replaced and the right bytes
are returned. -/
example : ∃ a s', getChunks demoEnv true [.grpc] [⟨[7], 1, 3, [0, 0, 0], [], false⟩] tornState (.ret a) s' ∧
    a.ok = true ∧ a.tasks.map Task.buf = [[11, 12, 13]] ∧ s'.cache [7] = some [10, 11, 12, 13] := by
  let t0 : Task := ⟨[7], 1, 3, [0, 0, 0], [], false⟩
  let t1 : Task := ⟨[7], 1, 3, [11, 0, 0], [], false⟩
  let t3 : Task := ⟨[7], 1, 3, [11, 12, 13], [10, 11, 12, 13], true⟩
  let h1 : Nat → Bool := fun m => [7].contains m
  let s1 : State := { tornState with held := h1 }
  let s2 : State := { s1 with cache := fun i => if i = [7] then none else s1.cache i }
  let s3 : State := { s2 with cache := fun i => if i = [7] then some [10, 11, 12, 13] else s2.cache i }
  refine ⟨⟨true, [t3], true⟩, s3, ?_, rfl, rfl, rfl⟩
  have hr : ∀ s : State, s.cache [7] = some [10, 11] →
      cacheGetRange demoEnv [7] 1 3 s (.ret (.ok [11])) s := fun s h =>
    bind_run (interfere_run s) (bind_run (a := ()) ⟨rfl, .inl rfl⟩ (by refine ⟨rfl, ?_⟩; rw [h]; exact .inr rfl))
  refine bind_run (a := [t1]) (s' := tornState) (bind_run (hr tornState rfl) (pure_run _ _)) ?_
  refine bind_run (a := ()) (s' := s1) (bind_run (interfere_run _) rfl) ?_
  refine bind_run (a := [t1]) (s' := s2) (bind_run (hr s1 rfl) (bind_run (a := true) (s' := s2) ?_ (pure_run _ _))) ?_
  · exact bind_run (interfere_run s1) (bind_run (a := ()) ⟨rfl, .inl rfl⟩ rfl)
  refine bind_run (a := (true, [t3])) (s' := s2) ?_ ?_
  · refine bind_run (a := (true, [t3])) (s' := s2) ?_ (pure_run _ _)
    exact bind_run (a := .ok [10, 11, 12, 13]) ⟨rfl, rfl⟩ (bind_run (a := (true, ([] : List Task)))
      (f := fun r => pure (r.1, t3 :: r.2)) (pure_run _ _) (pure_run _ _))
  · exact bind_run (a := ()) (s' := s3) (bind_run (a := true) ⟨s2, interfere_run s2, rfl⟩ (pure_run _ _)) (pure_run _ _)

/-! ## C22 -/

/-- The specification of a range read. -/
def clip (chunk : Bytes) (offset size : Nat) : Bytes :=
  ((List.range chunk.length).filter fun i => decide (offset ≤ i) && decide (i < offset + size)).map fun i => chunk.getD i 0

theorem clip_eq (chunk : Bytes) (offset size : Nat) : clip chunk offset size = (chunk.drop offset).take size := by
  unfold clip
  induction chunk generalizing offset size with
  | nil => simp
  | cons c cs ih =>
    rw [List.length_cons, List.range_succ_eq_map, List.filter_cons, List.filter_map]
    cases offset with
    | zero =>
      cases size with
      | zero => simp
      | succ n =>
        have := ih 0 n
        simp only [Nat.zero_le, decide_true, Bool.true_and, Nat.zero_add, List.drop_zero] at this
        simp only [Nat.zero_le, decide_true, Nat.zero_add, Nat.zero_lt_succ, Bool.true_and, if_true,
          List.map_cons, List.map_map, List.getD_cons_zero, List.drop_zero, List.take_succ_cons, List.cons.injEq, true_and]
        rw [← this]
        congr 1
        apply List.filter_congr
        intro i _
        simp
    | succ o =>
      have := ih o size
      rw [List.drop_succ_cons, ← this]
      rw [if_neg (by simp), List.map_map]
      congr 1
      apply List.filter_congr
      intro i _
      simp [Nat.succ_add]

/-- **C22.** Range reads of the disk store and the in-memory store return the requested part of the
chunk, clipped to its end; so does the provider when it reads from its readers; the gRPC reader does
when it is called directly with its own parameter order. Missing: the gRPC reader called through the
common interface (see `C22_grpc_range_violated`). -/
theorem C22_range_reads_partial (chunk : Bytes) (offset size : Nat) :
    diskGet chunk offset size = clip chunk offset size ∧
    memGet chunk offset size = clip chunk offset size ∧
    grpcGetImpl chunk size offset = clip chunk offset size := by
  have hm : memGet chunk offset size = clip chunk offset size := by
    rw [clip_eq]
    unfold memGet
    split
    · rename_i h; rw [List.drop_eq_nil_of_le h, List.take_nil]
    · rw [← List.length_drop, List.take_eq_take_iff]; omega
  refine ⟨?_, hm, hm⟩
  rw [clip_eq]
  unfold diskGet
  split
  · rename_i h; rw [h, List.take_zero]
  · rfl

/-- **C22, provider.** Whatever other threads and the cache do, a range read through the provider
returns bytes of the right chunk from the requested offset on, never more than asked for, and, if no
cache write was ever torn, exactly the requested part clipped to the end of the chunk. -/
theorem C22_provider_range (E : Env) (truth : Id → Bytes)
    (hsrc : ∀ id d, E.src id d → d = truth id) (hasWriter : Bool) (readers : List Kind) (id : Id)
    (offset size : Nat) (s s' : State) (d : Bytes)
    (hs : ∀ id d, s.cache id = some d → d <+: truth id ∧ (¬ E.torn → d = truth id))
    (h : getRange E hasWriter readers id offset size s (.ret (.ok d)) s') :
    d <+: clip (truth id) offset size ∧ (¬ E.torn → d = clip (truth id) offset size) := by
  rw [clip_eq]
  let Q : Res → State → Prop := fun r s => CacheOk E truth s ∧
    ∀ d, r = .ok d → d <+: ((truth id).drop offset).take size ∧ (¬ E.torn → d = ((truth id).drop offset).take size)
  have hpre : ∀ a, Written E a (truth id) → (a.drop offset).take size <+: ((truth id).drop offset).take size ∧
      (¬ E.torn → (a.drop offset).take size = ((truth id).drop offset).take size) := by
    rintro a ⟨⟨c, hc⟩, h2⟩
    refine ⟨?_, fun ht => by rw [h2 ht]⟩
    rw [← hc]
    by_cases ho : offset ≤ a.length
    · rw [List.drop_append_of_le_length ho]
      rw [List.take_append]
      exact List.prefix_append _ _
    · rw [List.drop_eq_nil_of_le (by omega), List.take_nil]; exact List.nil_prefix
  have hget : Sat (CacheOk E truth) (cacheGetRange E id offset size) Q (CacheOk E truth) := by
    refine (sat_cacheGetRange (stable_cacheOk hsrc) id offset size).imp (fun _ h => h) ?_ (fun _ h => h)
    rintro r s ⟨hP, hm⟩
    refine ⟨hP, ?_⟩
    rintro d rfl
    cases hc : s.cache id with
    | none =>
      rw [hc] at hm
      simp only [reduceCtorEq, false_or, Res.ok.injEq] at hm
      rw [hm.1, hm.2, List.take_zero]
      exact ⟨List.nil_prefix, fun _ => rfl⟩
    | some d' =>
      rw [hc] at hm
      simp only [reduceCtorEq, false_or, Res.ok.injEq] at hm
      rw [hm]
      exact hpre d' (hP id d' hc)
  have hone : ∀ b : Bool, Sat (CacheOk E truth) (cacheGetRangeIf E b id offset size)
      Q (CacheOk E truth) := by
    intro b
    cases b with
    | true => exact hget
    | false => exact sat_pure _ fun s hs => ⟨hs, fun d e => by cases e⟩
  have hlast : Sat (CacheOk E truth) (do
      match ← firstReader E hasWriter id readers with
      | .ok b =>
        if b.length ≤ offset then pure (.ok [])
        else pure (.ok ((b.drop offset).take (min (b.length - offset) size)))
      | r => pure r) Q (CacheOk E truth) := by
    refine sat_bind _ (sat_firstReader hsrc hasWriter id readers) fun r => ?_
    cases r with
    | notFound => exact sat_pure _ fun s hs => ⟨hs.1, fun d e => by cases e⟩
    | error => exact sat_pure _ fun s hs => ⟨hs.1, fun d e => by cases e⟩
    | ok b =>
      dsimp only
      refine sat_fact (fun s hs => hs.2 b rfl) fun e => ?_
      have heq : (if b.length ≤ offset then (pure (.ok []) : Prog Res)
          else pure (.ok ((b.drop offset).take (min (b.length - offset) size)))) =
          pure (.ok (((truth id).drop offset).take size)) := by
        rw [e]
        have hm := (C22_range_reads_partial (truth id) offset size).2.1
        rw [clip_eq] at hm
        unfold memGet at hm
        rw [← hm]
        split <;> rfl
      rw [heq]
      exact sat_pure _ fun s hs => ⟨hs.1, fun d e => by cases e; exact ⟨List.prefix_refl _, fun _ => rfl⟩⟩
  have hrest : ∀ b : Bool, Sat (CacheOk E truth) (do
      setHeld E (fun m => m == mutexOf id)
      let r2 ← cacheGetRangeIf E b id offset size
      match r2 with
      | .ok d => pure (.ok d)
      | _ =>
        match ← firstReader E hasWriter id readers with
        | .ok b =>
          if b.length ≤ offset then pure (.ok [])
          else pure (.ok ((b.drop offset).take (min (b.length - offset) size)))
        | r => pure r) Q (CacheOk E truth) := by
    intro b
    refine sat_bind (fun _ => CacheOk E truth) (sat_setHeld (stable_cacheOk hsrc) _ fun s hs => hs) fun _ => ?_
    refine sat_bind _ (hone b) fun r2 => ?_
    cases r2 with
    | ok d => exact sat_pure _ fun s hs => ⟨hs.1, fun d' e => by cases e; exact hs.2 d rfl⟩
    | notFound => exact hlast.pre fun s hs => hs.1
    | error => exact hlast.pre fun s hs => hs.1
  have hall : Sat (CacheOk E truth) (getRange E hasWriter readers id offset size) Q (CacheOk E truth) := by
    unfold getRange
    refine sat_bind _ (hone hasWriter) fun r1 => ?_
    cases r1 with
    | ok d => exact sat_pure _ fun s hs => ⟨hs.1, fun d' e => by cases e; exact hs.2 d rfl⟩
    | notFound => exact (hrest _).pre fun s hs => hs.1
    | error => exact (hrest _).pre fun s hs => hs.1
  exact (hall s _ s' hs h).2 d rfl

/-- **C22, violated by the gRPC reader.** Called through the interface every reader shares, it reads
from offset `size` up to `offset` bytes. -/
theorem C22_grpc_range_violated :
    ∃ (chunk : Bytes) (offset size : Nat), grpcGet chunk offset size ≠ clip chunk offset size :=
  ⟨[1, 2, 3, 4], 1, 3, by decide⟩

example : clip [1, 2, 3, 4] 1 2 = [2, 3] ∧ clip [1, 2, 3, 4] 3 9 = [4] ∧ clip [1, 2] 5 1 = [] := by decide

end Verif.Provider
