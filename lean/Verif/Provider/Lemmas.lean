import Verif.Provider.Model
import Mathlib.Data.List.Forall2

namespace Verif.Provider

/-- Every outcome of `m` from a state in `P` satisfies `Q` (value) or `C` (crash). -/
def Sat {α : Type} (P : State → Prop) (m : Prog α) (Q : α → State → Prop) (C : State → Prop) : Prop :=
  ∀ s o s', P s → m s o s' → match o with | .ret a => Q a s' | .crashed => C s'

theorem sat_pure {α : Type} {P : State → Prop} {Q : α → State → Prop} {C : State → Prop} (a : α)
    (h : ∀ s, P s → Q a s) : Sat P (pure a) Q C := by
  intro s o s' hP hm
  cases o with
  | crashed => exact hm.elim
  | ret b => obtain ⟨rfl, rfl⟩ := hm; exact h _ hP

theorem sat_bind {α β : Type} {P : State → Prop} {m : Prog α} {f : α → Prog β} {Q : β → State → Prop}
    {C : State → Prop} (R : α → State → Prop) (hm : Sat P m R C) (hf : ∀ a, Sat (R a) (f a) Q C) :
    Sat P (m >>= f) Q C := by
  intro s o s'' hP h
  rcases h with ⟨a, s', h1, h2⟩ | h
  · exact hf a s' o s'' (hm s (.ret a) s' hP h1) h2
  · cases o with
    | ret b => exact h.elim
    | crashed => exact hm s .crashed s'' hP h

theorem Sat.imp {α : Type} {P P' : State → Prop} {m : Prog α} {Q Q' : α → State → Prop} {C C' : State → Prop}
    (h : Sat P m Q C) (hP : ∀ s, P' s → P s) (hQ : ∀ a s, Q a s → Q' a s) (hC : ∀ s, C s → C' s) :
    Sat P' m Q' C' := by
  intro s o s' hp hm
  have := h s o s' (hP s hp) hm
  cases o with
  | ret a => exact hQ _ _ this
  | crashed => exact hC _ this

theorem sat_fact {α : Type} {P : State → Prop} {m : Prog α} {Q : α → State → Prop} {C : State → Prop} {φ : Prop}
    (h : ∀ s, P s → φ) (h' : φ → Sat P m Q C) : Sat P m Q C :=
  fun s o s' hp hm => h' (h s hp) s o s' hp hm

theorem Sat.pre {α : Type} {P P' : State → Prop} {m : Prog α} {Q : α → State → Prop} {C : State → Prop}
    (h : Sat P m Q C) (hP : ∀ s, P' s → P s) : Sat P' m Q C :=
  h.imp hP (fun _ _ h => h) (fun _ h => h)

theorem sat_access {α : Type} {P : State → Prop} {r : State → α → State → Prop} {Q : α → State → Prop}
    {C : State → Prop} (h : ∀ s a s', P s → r s a s' → Q a s') : Sat P (access r) Q C := by
  intro s o s' hP hm
  cases o with
  | ret a => exact h s a s' hP hm
  | crashed => exact hm.elim

theorem sat_mayCrash {P : State → Prop} : Sat P mayCrash (fun _ => P) P := by
  rintro s o s' hP ⟨rfl, rfl | rfl⟩ <;> exact hP

section
variable {E : Env}

/-- `P` survives what other threads do. -/
def Stable (E : Env) (P : State → Prop) : Prop :=
  ∀ s s', P s → interfere E s (.ret ()) s' → P s'

theorem sat_interfere {P : State → Prop} {C : State → Prop} (h : Stable E P) :
    Sat P (interfere E) (fun _ => P) C := by
  intro s o s' hP hm
  have : o = .ret () := hm.1
  subst this
  exact h s s' hP hm

theorem sat_cacheGetRange {P : State → Prop} (h : Stable E P) (id : Id) (o n : Nat) :
    Sat P (cacheGetRange E id o n) (fun r s => P s ∧ match s.cache id with
      | some d => r = .error ∨ r = .ok ((d.drop o).take n)
      | none => r = .error ∨ r = .notFound ∨ (n = 0 ∧ r = .ok [])) P :=
  sat_bind (fun _ => P) (sat_interfere h) fun _ => sat_bind (fun _ => P) sat_mayCrash fun _ =>
    sat_access (by rintro s a s' hP ⟨rfl, hr⟩; exact ⟨hP, hr⟩)

theorem sat_cacheGet {P : State → Prop} (h : Stable E P) (id : Id) :
    Sat P (cacheGet E id) (fun r s => P s ∧ match s.cache id with
      | some d => r = .error ∨ r = .ok d
      | none => r = .error ∨ r = .notFound) P :=
  sat_bind (fun _ => P) (sat_interfere h) fun _ => sat_bind (fun _ => P) sat_mayCrash fun _ =>
    sat_access (by rintro s a s' hP ⟨rfl, hr⟩; exact ⟨hP, hr⟩)

theorem sat_cacheContains {P : State → Prop} (h : Stable E P) (id : Id) :
    Sat P (cacheContains E id) (fun _ => P) P :=
  sat_bind (fun _ => P) (sat_interfere h) fun _ => sat_bind (fun _ => P) sat_mayCrash fun _ =>
    sat_access (by rintro s a s' hP ⟨rfl, _⟩; exact hP)

theorem sat_cacheRemove {P Q : State → Prop} (h : Stable E P) (id : Id)
    (h1 : ∀ s, P s → Q { s with cache := fun i => if i = id then none else s.cache i })
    (h2 : ∀ s, P s → Q { s with ioFailed := true }) :
    Sat P (cacheRemove E id) (fun _ => Q) P :=
  sat_bind (fun _ => P) (sat_interfere h) fun _ => sat_bind (fun _ => P) sat_mayCrash fun _ =>
    sat_access (by
      intro s a s' hP hr
      cases a with
      | true => rw [hr]; exact h1 s hP
      | false => rw [hr]; exact h2 s hP)

theorem sat_cachePut {P C : State → Prop} {Q : Bool → State → Prop} (h : Stable E P) (id : Id) (d : Bytes)
    (h1 : ∀ s, P s → Q true { s with cache := fun i => if i = id then some d else s.cache i })
    (h2 : ∀ s, P s → Q false { s with ioFailed := true })
    (h3 : ∀ s p, P s → Written E p d →
      Q false { s with cache := fun i => if i = id then some p else s.cache i, ioFailed := true })
    (h4 : ∀ s, P s → C s)
    (h5 : ∀ s p, P s → Written E p d → C { s with cache := fun i => if i = id then some p else s.cache i }) :
    Sat P (cachePut E id d) Q C := by
  rintro s o s'' hP ⟨s', hi, hm⟩
  have hP' := h s s' hP hi
  cases o with
  | ret b =>
    cases b with
    | true => dsimp only at hm; subst hm; exact h1 s' hP'
    | false =>
      rcases hm with rfl | ⟨p, hp, rfl⟩
      · exact h2 s' hP'
      · exact h3 s' p hP' hp
  | crashed =>
    rcases hm with rfl | ⟨p, hp, rfl⟩
    · exact h4 _ hP'
    · exact h5 s' p hP' hp

theorem sat_fetch {P : State → Prop} {k : Kind} (id : Id) :
    Sat P (fetch E k id) (fun r s => P s ∧ ∀ d, r = .ok d → E.src id d) P := by
  rintro s o s' hP ⟨rfl, hm⟩
  cases o with
  | crashed => exact hP
  | ret r =>
    refine ⟨hP, ?_⟩
    rintro d rfl
    exact hm

theorem sat_setHeld {P Q : State → Prop} {C : State → Prop} (h : Stable E P) (f : Nat → Bool)
    (hq : ∀ s, P s → Q { s with held := f }) :
    Sat P (setHeld E f) (fun _ => Q) C :=
  sat_bind (fun _ => P) (sat_interfere h) fun _ => sat_access (by rintro s a s' hP rfl; exact hq s hP)

/-! ### Invariants -/

/-- Every cached file is a prefix of the right chunk, and all of it if no write can be torn. -/
def CacheOk (E : Env) (truth : Id → Bytes) (s : State) : Prop := ∀ id d, s.cache id = some d → Written E d (truth id)

variable {truth : Id → Bytes}

theorem stable_cacheOk (hsrc : ∀ id d, E.src id d → d = truth id) : Stable E (CacheOk E truth) := by
  rintro s s' h ⟨_, _, _, hi⟩ id d hd
  rcases (hi id).2 with e | e | ⟨d', p, h1, h2, e⟩
  · exact h id d (e ▸ hd)
  · rw [e] at hd; cases hd
  · rw [e] at hd; cases hd
    rw [← hsrc id d' h1]; exact h2

theorem stable_held (f : Nat → Bool) : Stable E (fun s => s.held = f) := by
  rintro s s' h ⟨_, h1, _⟩
  show s'.held = f
  rw [h1]; exact h

theorem Stable.and {P Q : State → Prop} (hp : Stable E P) (hq : Stable E Q) : Stable E (fun s => P s ∧ Q s) :=
  fun s s' h hi => ⟨hp s s' h.1 hi, hq s s' h.2 hi⟩

/-- The invariant of a running call: the cache is fine and these mutexes are held. -/
def Run (E : Env) (truth : Id → Bytes) (f : Nat → Bool) (s : State) : Prop := CacheOk E truth s ∧ s.held = f

theorem stable_run (hsrc : ∀ id d, E.src id d → d = truth id) (f : Nat → Bool) : Stable E (Run E truth f) :=
  (stable_cacheOk hsrc).and (stable_held f)

theorem cacheOk_set {s : State} (h : CacheOk E truth s) (id : Id) {p : Bytes} (hp : Written E p (truth id)) (b : Bool) (f : Nat → Bool) :
    CacheOk E truth { s with cache := fun i => if i = id then some p else s.cache i, ioFailed := b, held := f } := by
  intro i d hd
  dsimp only at hd
  by_cases e : i = id
  · rw [if_pos e] at hd; cases hd; rw [e]; exact hp
  · rw [if_neg e] at hd; exact h i d hd

theorem cacheOk_remove {s : State} (h : CacheOk E truth s) (id : Id) :
    CacheOk E truth { s with cache := fun i => if i = id then none else s.cache i } := by
  intro i d hd
  dsimp only at hd
  by_cases e : i = id
  · rw [if_pos e] at hd; cases hd
  · rw [if_neg e] at hd; exact h i d hd

/-! ### Tasks -/

/-- The requested part of a chunk. -/
def part (truth : Id → Bytes) (t : Task) : Bytes := ((truth t.id).drop t.offset).take t.size

/-- What holds of every task at all times. -/
structure TaskOk (truth : Id → Bytes) (t : Task) : Prop where
  len : t.buf.length = t.size
  data : t.chunkData ≠ [] → t.chunkData = truth t.id
  done : t.done = true → t.size ≠ 0 → t.offset + t.size ≤ (truth t.id).length ∧ t.buf = part truth t

/-- The request part of a task, which never changes. -/
def Task.key (t : Task) : Id × Nat × Nat := (t.id, t.offset, t.size)

def TasksOk (truth : Id → Bytes) (ts : List Task) : Prop := ∀ t ∈ ts, TaskOk truth t

theorem overwrite_length (buf d : Bytes) (h : d.length ≤ buf.length) : (overwrite buf d).length = buf.length := by
  simp only [overwrite, List.length_append, List.length_drop]; omega

theorem overwrite_eq (buf d : Bytes) (h : d.length = buf.length) : overwrite buf d = d := by
  simp only [overwrite, h, List.drop_length, List.append_nil]

theorem part_of_prefix {a b : Bytes} (h : a <+: b) (o n : Nat) (hl : ((a.drop o).take n).length = n) (hn : n ≠ 0) :
    o + n ≤ b.length ∧ (a.drop o).take n = (b.drop o).take n := by
  obtain ⟨c, rfl⟩ := h
  simp only [List.length_take, List.length_drop] at hl
  have h1 : o + n ≤ a.length := by omega
  refine ⟨by rw [List.length_append]; omega, ?_⟩
  rw [List.drop_append_of_le_length (by omega), List.take_append_of_le_length (by rw [List.length_drop]; omega)]

theorem taskOk_short {t : Task} (h : TaskOk truth t) (hd : t.done = false) (d : Bytes) (hl : d.length ≤ t.size) :
    TaskOk truth { t with buf := overwrite t.buf d } where
  len := by
    show (overwrite t.buf d).length = t.size
    rw [overwrite_length _ _ (by rw [h.len]; exact hl), h.len]
  data := h.data
  done := by intro e; exact absurd (hd.symm.trans e) (by simp)

theorem taskOk_full {t : Task} (h : TaskOk truth t) (a : Bytes) (ha : a <+: truth t.id)
    (hl : ((a.drop t.offset).take t.size).length = t.size) (cd : Bytes) (hcd : cd ≠ [] → cd = truth t.id) (b : Bool) :
    TaskOk truth { t with buf := overwrite t.buf ((a.drop t.offset).take t.size), chunkData := cd, done := b } where
  len := by
    show (overwrite t.buf _).length = t.size
    rw [overwrite_length _ _ (by rw [h.len, hl]; exact Nat.le_refl _), h.len]
  data := hcd
  done := by
    intro _ hn
    obtain ⟨h1, h2⟩ := part_of_prefix ha t.offset t.size hl hn
    refine ⟨h1, ?_⟩
    show overwrite t.buf _ = _
    rw [overwrite_eq _ _ (by rw [h.len, hl]), h2]; rfl

/-! ### Readers -/

/-- What a batch read guarantees about the list it returns. -/
def BatchOk (truth : Id → Bytes) (before after : List Task) : Prop :=
  TasksOk truth after ∧ after.map Task.key = before.map Task.key ∧
    List.Forall₂ (fun b a => b.done = true → a = b) before after

theorem batchOk_nil : BatchOk truth [] [] := ⟨by simp [TasksOk], rfl, .nil⟩

theorem batchOk_cons {t t' : Task} {ts ts' : List Task} (h : BatchOk truth ts ts') (ht : TaskOk truth t')
    (hk : t'.key = t.key) (hd : t.done = true → t' = t) : BatchOk truth (t :: ts) (t' :: ts') := by
  refine ⟨?_, by simp [hk, h.2.1], .cons hd h.2.2⟩
  intro x hx
  rcases List.mem_cons.mp hx with rfl | hx
  · exact ht
  · exact h.1 x hx

theorem batchOk_refl {ts : List Task} (h : TasksOk truth ts) : BatchOk truth ts ts := by
  refine ⟨h, rfl, ?_⟩
  clear h
  induction ts with
  | nil => exact .nil
  | cons t ts ih => exact .cons (fun _ => rfl) ih

theorem BatchOk.append {a b c d : List Task} (h : BatchOk truth a b) (h' : BatchOk truth c d) :
    BatchOk truth (a ++ c) (b ++ d) := by
  refine ⟨?_, by rw [List.map_append, List.map_append, h.2.1, h'.2.1], ?_⟩
  · intro x hx
    rcases List.mem_append.mp hx with hx | hx
    · exact h.1 x hx
    · exact h'.1 x hx
  · exact List.rel_append (R := fun (b a : Task) => b.done = true → a = b) h.2.2 h'.2.2

theorem tasksOk_cons {t : Task} {ts : List Task} : TasksOk truth (t :: ts) ↔ TaskOk truth t ∧ TasksOk truth ts := by
  simp [TasksOk]

theorem take_drop_length (d : Bytes) (o n : Nat) (h : ¬ d.length < o + n) : ((d.drop o).take n).length = n := by
  simp only [List.length_take, List.length_drop]; omega

theorem sat_grpcBatch {P : State → Prop} (hsrc : ∀ id d, E.src id d → d = truth id) (ts : List Task)
    (h : TasksOk truth ts) : Sat P (grpcBatch E ts) (fun r s => P s ∧ BatchOk truth ts r.2) P := by
  induction ts with
  | nil => exact sat_pure _ fun s hs => ⟨hs, batchOk_nil⟩
  | cons t ts ih =>
    rw [tasksOk_cons] at h
    unfold grpcBatch
    by_cases hd : t.done = true
    · rw [if_pos hd]
      exact sat_bind _ (ih h.2) fun r => sat_pure _ fun s hs => ⟨hs.1, batchOk_cons hs.2 h.1 rfl (fun _ => rfl)⟩
    · rw [if_neg hd]
      refine sat_bind _ (sat_fetch t.id) fun r => ?_
      cases r with
      | ok d =>
        dsimp only
        by_cases hs : d.length < t.offset + t.size
        · rw [if_pos hs]
          refine sat_pure _ fun s hp => ⟨hp.1, ?_⟩
          have e := hsrc _ _ (hp.2 d rfl)
          refine batchOk_cons (batchOk_refl h.2) ?_ rfl (fun e => absurd e hd)
          exact { len := h.1.len, data := fun _ => e, done := fun e => absurd e hd }
        · rw [if_neg hs]
          refine sat_fact (fun s hp => hsrc _ _ (hp.2 d rfl)) fun e => ?_
          refine sat_bind _ (Sat.pre (ih h.2) fun s hs => hs.1) fun r => sat_pure _ fun s hs' => ⟨hs'.1, ?_⟩
          exact batchOk_cons hs'.2 (taskOk_full h.1 d (e ▸ List.prefix_refl d) (take_drop_length d _ _ hs) d (fun _ => e) true)
            rfl (fun e => absurd e hd)
      | notFound => exact sat_pure _ fun s hp => ⟨hp.1, batchOk_refl (tasksOk_cons.mpr h)⟩
      | error => exact sat_pure _ fun s hp => ⟨hp.1, batchOk_refl (tasksOk_cons.mpr h)⟩

theorem sat_memBatch {P : State → Prop} (hsrc : ∀ id d, E.src id d → d = truth id) (ts : List Task)
    (h : TasksOk truth ts) : Sat P (memBatch E ts) (fun r s => P s ∧ BatchOk truth ts r.2) P := by
  induction ts with
  | nil => exact sat_pure _ fun s hs => ⟨hs, batchOk_nil⟩
  | cons t ts ih =>
    rw [tasksOk_cons] at h
    unfold memBatch
    by_cases hd : t.done = true
    · rw [if_pos hd]
      exact sat_bind _ (ih h.2) fun r => sat_pure _ fun s hs => ⟨hs.1, batchOk_cons hs.2 h.1 rfl (fun _ => rfl)⟩
    · rw [if_neg hd]
      refine sat_bind _ (sat_fetch t.id) fun r => ?_
      cases r with
      | ok d =>
        dsimp only
        refine sat_fact (fun s hp => hsrc _ _ (hp.2 d rfl)) fun e => ?_
        have hcd : TaskOk truth { t with chunkData := d } :=
          { len := h.1.len, data := fun _ => e, done := fun e => absurd e hd }
        by_cases hz : t.size = 0
        · rw [if_pos hz]
          refine sat_bind _ (Sat.pre (ih h.2) fun s hs => hs.1) fun r => sat_pure _ fun s hs' => ⟨hs'.1, ?_⟩
          exact batchOk_cons hs'.2 { len := h.1.len, data := fun _ => e, done := fun _ h => absurd hz h } rfl
            (fun e => absurd e hd)
        · rw [if_neg hz]
          by_cases ho : t.offset ≥ d.length
          · rw [if_pos ho]
            exact sat_pure _ fun s hp => ⟨hp.1, batchOk_cons (batchOk_refl h.2) hcd rfl (fun e => absurd e hd)⟩
          · rw [if_neg ho]
            by_cases hm : min (d.length - t.offset) t.size < t.size
            · rw [if_pos hm]
              exact sat_pure _ fun s hp => ⟨hp.1, batchOk_cons (batchOk_refl h.2) hcd rfl (fun e => absurd e hd)⟩
            · rw [if_neg hm]
              refine sat_bind _ (Sat.pre (ih h.2) fun s hs => hs.1) fun r => sat_pure _ fun s hs' => ⟨hs'.1, ?_⟩
              exact batchOk_cons hs'.2 (taskOk_full h.1 d (e ▸ List.prefix_refl d) (take_drop_length d _ _ (by omega)) d (fun _ => e) true)
                rfl (fun e => absurd e hd)
      | notFound =>
        exact sat_bind _ (Sat.imp (ih h.2) (fun s hs => hs.1) (fun _ _ h => h) (fun _ h => h)) fun r =>
          sat_pure _ fun s hs => ⟨hs.1, batchOk_cons hs.2 h.1 rfl (fun _ => rfl)⟩
      | error =>
        exact sat_bind _ (Sat.imp (ih h.2) (fun s hs => hs.1) (fun _ _ h => h) (fun _ h => h)) fun r =>
          sat_pure _ fun s hs => ⟨hs.1, batchOk_cons hs.2 h.1 rfl (fun _ => rfl)⟩

theorem sat_dfltBatch {P : State → Prop} (hsrc : ∀ id d, E.src id d → d = truth id) (ts : List Task)
    (h : TasksOk truth ts) : Sat P (dfltBatch E ts) (fun r s => P s ∧ BatchOk truth ts r.2) P := by
  induction ts with
  | nil => exact sat_pure _ fun s hs => ⟨hs, batchOk_nil⟩
  | cons t ts ih =>
    rw [tasksOk_cons] at h
    unfold dfltBatch
    by_cases hd : (t.done || t.size == 0) = true
    · rw [if_pos hd]
      exact sat_bind _ (ih h.2) fun r => sat_pure _ fun s hs => ⟨hs.1, batchOk_cons hs.2 h.1 rfl (fun _ => rfl)⟩
    · rw [if_neg hd]
      have hd' : t.done = false := by cases e : t.done <;> simp_all
      refine sat_bind _ (sat_fetch t.id) fun r => ?_
      cases r with
      | ok d =>
        dsimp only
        by_cases hs : ((d.drop t.offset).take t.size).length ≠ t.size
        · rw [if_pos hs]
          refine sat_pure _ fun s hp => ⟨hp.1, ?_⟩
          refine batchOk_cons (batchOk_refl h.2) ?_ rfl (fun e => absurd (hd'.symm.trans e) (by simp))
          exact taskOk_short h.1 hd' _ (by simp only [List.length_take]; omega)
        · rw [if_neg hs]
          refine sat_fact (fun s hp => hsrc _ _ (hp.2 d rfl)) fun e => ?_
          refine sat_bind _ (Sat.pre (ih h.2) fun s hs => hs.1) fun r => sat_pure _ fun s hs' => ⟨hs'.1, ?_⟩
          exact batchOk_cons hs'.2 (taskOk_full h.1 d (e ▸ List.prefix_refl d) (Decidable.not_not.mp hs) _ h.1.data true)
            rfl (fun e => absurd (hd'.symm.trans e) (by simp))
      | notFound =>
        exact sat_bind _ (Sat.imp (ih h.2) (fun s hs => hs.1) (fun _ _ h => h) (fun _ h => h)) fun r =>
          sat_pure _ fun s hs => ⟨hs.1, batchOk_cons hs.2 h.1 rfl (fun _ => rfl)⟩
      | error => exact sat_pure _ fun s hp => ⟨hp.1, batchOk_refl (tasksOk_cons.mpr h)⟩

theorem sat_batch {P : State → Prop} (hsrc : ∀ id d, E.src id d → d = truth id) (k : Kind) (ts : List Task)
    (h : TasksOk truth ts) : Sat P (batch E k ts) (fun r s => P s ∧ BatchOk truth ts r.2) P := by
  cases k with
  | grpc => exact sat_grpcBatch hsrc ts h
  | mem => exact sat_memBatch hsrc ts h
  | dflt => exact sat_dfltBatch hsrc ts h

theorem forall₂_trans {r : Task → Task → Prop} (ht : ∀ a b c, r a b → r b c → r a c) {l₁ l₂ l₃ : List Task}
    (h : List.Forall₂ r l₁ l₂) (h' : List.Forall₂ r l₂ l₃) : List.Forall₂ r l₁ l₃ := by
  induction h generalizing l₃ with
  | nil => cases h'; exact .nil
  | cons h1 _ ih => cases h' with | cons h2 h3 => exact .cons (ht _ _ _ h1 h2) (ih h3)

theorem BatchOk.trans {a b c : List Task} (h : BatchOk truth a b) (h' : BatchOk truth b c) : BatchOk truth a c := by
  refine ⟨h'.1, h'.2.1.trans h.2.1, forall₂_trans ?_ h.2.2 h'.2.2⟩
  intro x y z h1 h2 hd
  have := h1 hd
  subst this
  exact h2 hd

theorem sat_readersLoop {P : State → Prop} (hsrc : ∀ id d, E.src id d → d = truth id) (ks : List Kind) :
    ∀ (ts : List Task), TasksOk truth ts →
      Sat P (readersLoop E ks ts) (fun r s => P s ∧ BatchOk truth ts r.2) P := by
  induction ks with
  | nil => intro ts h; exact sat_pure _ fun s hs => ⟨hs, batchOk_refl h⟩
  | cons k ks ih =>
    intro ts h
    unfold readersLoop
    refine sat_bind _ (sat_batch hsrc k ts h) fun r => ?_
    split
    · exact sat_pure _ fun s hs => hs
    · split
      · exact sat_pure _ fun s hs => hs
      · refine sat_fact (fun s hp => hp.2) fun hb => ?_
        exact Sat.imp (ih r.2 hb.1) (fun s h => h.1) (fun a s h => ⟨h.1, hb.trans h.2⟩) (fun s h => h)

/-! ### Reading from the cache -/

/-- What reading from the cache guarantees: also, it never sets `chunkData`. -/
def CacheBatchOk (truth : Id → Bytes) (before after : List Task) : Prop :=
  BatchOk truth before after ∧ after.map Task.chunkData = before.map Task.chunkData

theorem CacheBatchOk.append {a b c d : List Task} (h : CacheBatchOk truth a b) (h' : CacheBatchOk truth c d) :
    CacheBatchOk truth (a ++ c) (b ++ d) :=
  ⟨h.1.append h'.1, by rw [List.map_append, List.map_append, h.2, h'.2]⟩

theorem cacheBatchOk_one {t t' : Task} (ht : TaskOk truth t') (hk : t'.key = t.key) (hd : t.done = true → t' = t)
    (hc : t'.chunkData = t.chunkData) : CacheBatchOk truth [t] [t'] :=
  ⟨batchOk_cons batchOk_nil ht hk hd, by simp [hc]⟩

theorem cacheBatchOk_refl {ts : List Task} (h : TasksOk truth ts) : CacheBatchOk truth ts ts := ⟨batchOk_refl h, rfl⟩

theorem sat_fromWriterLoop {P : State → Prop}
    (hst : Stable E P) (hok : ∀ s, P s → CacheOk E truth s)
    (hrm : ∀ s id, P s → P { s with cache := fun i => if i = id then none else s.cache i })
    (hio : ∀ s, P s → P { s with ioFailed := true })
    (lr : Bool) (ts : List Task) : ∀ (acc acc0 : List Task), CacheBatchOk truth acc0 acc → TasksOk truth ts →
      Sat P (fromWriterLoop E lr acc ts) (fun r s => P s ∧ CacheBatchOk truth (acc0 ++ ts) r) P := by
  induction ts with
  | nil => intro acc acc0 h _; exact sat_pure _ fun s hs => ⟨hs, by simpa using h⟩
  | cons t ts ih =>
    intro acc acc0 h hts
    rw [tasksOk_cons] at hts
    have hnext : ∀ (t' : Task), CacheBatchOk truth [t] [t'] →
        Sat P (fromWriterLoop E lr (acc ++ [t']) ts) (fun r s => P s ∧ CacheBatchOk truth (acc0 ++ t :: ts) r) P := by
      intro t' h1
      have := ih (acc ++ [t']) (acc0 ++ [t]) (h.append h1) hts.2
      simpa using this
    unfold fromWriterLoop
    by_cases hd : t.done = true
    · rw [if_pos hd]; exact hnext t (cacheBatchOk_one hts.1 rfl (fun _ => rfl) rfl)
    · rw [if_neg hd]
      have hd' : t.done = false := by simpa using hd
      by_cases hz : t.size = 0
      · rw [if_pos hz]
        refine sat_bind _ (sat_cacheContains hst t.id) fun c => ?_
        exact hnext _ (cacheBatchOk_one { len := hts.1.len, data := hts.1.data, done := fun _ h => absurd hz h } rfl
          (fun e => absurd e hd) rfl)
      · rw [if_neg hz]
        refine sat_bind _ (sat_cacheGetRange hst t.id t.offset t.size) fun r => ?_
        cases r with
        | ok d =>
          dsimp only
          -- where the bytes come from
          have hfrom : ∀ s, (P s ∧ match s.cache t.id with
              | some d' => Res.ok d = .error ∨ Res.ok d = .ok ((d'.drop t.offset).take t.size)
              | none => Res.ok d = .error ∨ Res.ok d = .notFound ∨ (t.size = 0 ∧ Res.ok d = .ok [])) →
              ∃ a, a <+: truth t.id ∧ d = (a.drop t.offset).take t.size := by
            rintro s ⟨hP, hm⟩
            cases hc : s.cache t.id with
            | none => rw [hc] at hm; simp [hz] at hm
            | some a =>
              rw [hc] at hm
              simp only [reduceCtorEq, false_or, Res.ok.injEq] at hm
              exact ⟨a, (hok s hP t.id a hc).1, hm⟩
          refine sat_fact hfrom fun hf => ?_
          obtain ⟨a, ha, rfl⟩ := hf
          by_cases hl : ((a.drop t.offset).take t.size).length = t.size
          · rw [if_pos hl]
            have hok' := cacheBatchOk_one (t := t) (taskOk_full hts.1 a ha hl t.chunkData hts.1.data true) rfl
              (fun e => absurd e hd) rfl
            split
            · refine sat_pure _ fun s hs => ⟨hs.1, ?_⟩
              have := (h.append hok').append (cacheBatchOk_refl hts.2)
              simpa using this
            · exact Sat.pre (hnext _ hok') fun s hs => hs.1
          · rw [if_neg hl]
            have hok' := cacheBatchOk_one (t := t) (taskOk_short hts.1 hd' ((a.drop t.offset).take t.size)
              (by simp only [List.length_take]; omega)) rfl (fun e => absurd e hd) rfl
            refine Sat.pre (P := P) ?_ fun s hs => hs.1
            split
            · exact hnext _ hok'
            · exact sat_bind (fun _ => P) (sat_cacheRemove hst t.id (fun s => hrm s t.id) hio) fun _ => hnext _ hok'
        | notFound => exact Sat.pre (hnext t (cacheBatchOk_one hts.1 rfl (fun _ => rfl) rfl)) fun s hs => hs.1
        | error => exact Sat.pre (hnext t (cacheBatchOk_one hts.1 rfl (fun _ => rfl) rfl)) fun s hs => hs.1

theorem sat_getFromWriter (hsrc : ∀ id d, E.src id d → d = truth id) (f : Nat → Bool)
    (hw lr : Bool) (ts : List Task) (h : TasksOk truth ts) :
    Sat (Run E truth f) (getFromWriter E hw lr ts) (fun r s => Run E truth f s ∧ CacheBatchOk truth ts r)
      (Run E truth f) := by
  unfold getFromWriter
  split
  · exact sat_pure _ fun s hs => ⟨hs, cacheBatchOk_refl h⟩
  · have := sat_fromWriterLoop (truth := truth) (stable_run hsrc f) (fun (s : State) (hs : Run E truth f s) => hs.1)
      (fun (s : State) id (hs : Run E truth f s) => ⟨cacheOk_remove hs.1 id, hs.2⟩)
      (fun (s : State) (hs : Run E truth f s) => ⟨hs.1, hs.2⟩) lr ts [] [] (cacheBatchOk_refl (by simp [TasksOk])) h
    simpa using this

end
end Verif.Provider
