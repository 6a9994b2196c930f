import Verif.Sync.Protocol

/-!
# Proofs about the conversation (C39)

The three threads are deterministic and, in the states that occur, their steps commute: only one of
the server's threads receives at a time.  So if one interleaving finishes in `n` steps, every
interleaving can be continued to the same end and none is longer than `n`.  The rest is to exhibit
one interleaving that finishes.
-/

namespace Verif.Protocol

/-- While patch tasks are open, the server's main thread only sends or waits for them. -/
def J (a : State) : Prop :=
  a.pend ≠ 0 → (∃ l, a.s.pc = .header l) ∨ (∃ c l, a.s.pc = .sigs c l) ∨ (∃ l, a.s.pc = .spawn l)
    ∨ a.s.pc = .join

theorem sAct_spawn {I s s'} (h : sAct I s = .spawn s') : ∃ l, s.pc = .spawn l := by
  simp only [sAct] at h
  split at h <;> first | exact ⟨_, by assumption⟩ | cases h | (split at h <;> cases h)

theorem server_pend {R I a b} (e : next R I .server a = some b) :
    b.pend = a.pend ∨ ∃ l, a.s.pc = .spawn l := by
  simp only [next] at e
  split at e
  · split at e
    · cases e; exact .inl rfl
    · cases e
  · split at e
    · cases e
    · cases e; exact .inl rfl
  · cases e; exact .inl rfl
  · rename_i h
    exact .inr (sAct_spawn h)
  · split at e
    · cases e; exact .inl rfl
    · cases e
  · cases e

/-- The server's main thread does not receive while patch tasks are open. -/
theorem J_recv {I a f} (h : J a) (e : sAct I a.s = .recv f) : a.pend = 0 := by
  apply Classical.byContradiction
  intro hne
  rcases h hne with ⟨l, h⟩ | ⟨c, l, h⟩ | ⟨_, h⟩ | h
  · cases l <;> simp [sAct, h] at e
  · cases c <;> simp [sAct, h] at e
  · simp [sAct, h] at e
  · simp [sAct, h] at e

theorem J_next {R I p a b} (h : J a) (e : next R I p a = some b) : J b := by
  cases p with
  | client =>
    simp only [next] at e
    split at e <;> try contradiction
    · split at e <;> simp_all [J]; subst e; simpa [J] using h
    · split at e <;> simp_all [J]; subst e; simpa [J] using h
    · simp_all [J]; subst e; simpa [J] using h
  | patcher =>
    simp only [next] at e
    split at e; · contradiction
    rename_i hp
    have hp0 : a.pend ≠ 0 := fun x => hp (.inl x)
    split at e <;> try contradiction
    all_goals
      simp only [Option.some.injEq] at e
      subst e
      intro _
      exact h hp0
  | server =>
    have hJ := h
    unfold J at hJ ⊢
    rcases a with ⟨c, ⟨o, pc⟩, pend, pfail, cs, sc⟩
    simp only at hJ
    cases pc with
    | header l =>
      cases l <;> simp only [next, sAct] at e
      · simp only [Option.some.injEq] at e; subst e; intro _; exact .inr (.inr (.inr rfl))
      · split at e <;> simp at e
        subst e; intro _; exact .inr (.inl ⟨_, _, rfl⟩)
    | sigs c l =>
      cases c <;> simp only [next, sAct] at e <;> split at e <;> simp at e
      · subst e; intro _; exact .inr (.inr (.inl ⟨_, rfl⟩))
      · subst e; intro _; exact .inr (.inl ⟨_, _, rfl⟩)
    | spawn l =>
      simp only [next, sAct, Option.some.injEq] at e
      subst e; intro _; exact .inl ⟨_, rfl⟩
    | join =>
      simp only [next, sAct] at e
      split at e <;> simp at e
      subst e; intro hc; contradiction
    | _ =>
      have hp : pend = 0 := by
        apply Classical.byContradiction
        intro hne
        rcases hJ hne with ⟨_, h⟩ | ⟨_, _, h⟩ | ⟨_, h⟩ | h <;> cases h
      subst hp
      intro hb
      rcases server_pend e with h | ⟨_, h⟩
      · exact absurd h hb
      · cases h

/-! What a step of each thread does, as seen by the others. -/

/-- Client steps. -/
theorem client_cases {R I a b} (e : next R I .client a = some b) :
    (∃ m c, cAct I a.c = .send m c ∧ R.cs a.cs = true ∧ b = { a with c := c, cs := a.cs ++ [m] }) ∨
    (∃ f m q, cAct I a.c = .recv f ∧ a.sc = m :: q ∧ b = { a with c := f m, sc := q }) ∨
    (∃ c, cAct I a.c = .tau c ∧ b = { a with c := c }) := by
  simp only [next] at e
  split at e
  · rename_i h
    split at e
    · rename_i hr; cases e; exact .inl ⟨_, _, h, hr, rfl⟩
    · cases e
  · rename_i h
    split at e
    · cases e
    · rename_i hq; cases e; exact .inr (.inl ⟨_, _, _, h, hq, rfl⟩)
  · rename_i h; cases e; exact .inr (.inr ⟨_, h, rfl⟩)
  all_goals cases e

/-- Server steps. -/
theorem server_cases {R I a b} (e : next R I .server a = some b) :
    (∃ m s, sAct I a.s = .send m s ∧ R.sc a.sc = true ∧ b = { a with s := s, sc := a.sc ++ [m] }) ∨
    (∃ f m q, sAct I a.s = .recv f ∧ a.cs = m :: q ∧ b = { a with s := f m, cs := q }) ∨
    (∃ s, sAct I a.s = .tau s ∧ b = { a with s := s }) ∨
    (∃ s, sAct I a.s = .spawn s ∧ b = { a with s := s, pend := a.pend + 1 }) ∨
    (∃ s, sAct I a.s = .join s ∧ a.pend = 0 ∧ b = { a with s := s }) := by
  simp only [next] at e
  split at e
  · rename_i h
    split at e
    · rename_i hr; cases e; exact .inl ⟨_, _, h, hr, rfl⟩
    · cases e
  · rename_i h
    split at e
    · cases e
    · rename_i hq; cases e; exact .inr (.inl ⟨_, _, _, h, hq, rfl⟩)
  · rename_i h; cases e; exact .inr (.inr (.inl ⟨_, h, rfl⟩))
  · rename_i h; cases e; exact .inr (.inr (.inr (.inl ⟨_, h, rfl⟩)))
  · rename_i h
    split at e
    · rename_i hp; cases e; exact .inr (.inr (.inr (.inr ⟨_, h, hp, rfl⟩)))
    · cases e
  · cases e

/-- What the patcher does with a message. -/
def patchEff (a : State) (q : List Msg) : Msg → State
  | .patch 0 => { a with pend := a.pend - 1, cs := q }
  | .patch (_ + 1) => { a with cs := q }
  | _ => { a with pfail := true, cs := q }

theorem patcher_eq {R I} (a : State) : next R I .patcher a =
    if a.pend = 0 ∨ a.pfail = true then none
    else match a.cs with
      | [] => none
      | m :: q => some (patchEff a q m) := by
  simp only [next]
  split
  · rfl
  · cases a.cs with
    | nil => rfl
    | cons m q =>
      cases m <;> try rfl
      rename_i n
      cases n <;> rfl

theorem patcher_cases {R I a b} (e : next R I .patcher a = some b) :
    ∃ m q, a.pend ≠ 0 ∧ a.pfail = false ∧ a.cs = m :: q ∧ b = patchEff a q m := by
  rw [patcher_eq] at e
  split at e
  · cases e
  · rename_i h
    cases hq : a.cs with
    | nil => simp [hq] at e
    | cons m q =>
      simp only [hq, Option.some.injEq] at e
      refine ⟨m, q, fun x => h (.inl x), ?_, rfl, e.symm⟩
      cases hp : a.pfail
      · rfl
      · exact absurd (.inr hp) h

theorem patcher_of {R I} {a : State} {m q} (h1 : a.pend ≠ 0) (h2 : a.pfail = false)
    (h3 : a.cs = m :: q) : next R I .patcher a = some (patchEff a q m) := by
  rw [patcher_eq, if_neg (by simp [h1, h2]), h3]

theorem client_send {R I} {a : State} {m c} (h : cAct I a.c = .send m c) (hr : R.cs a.cs = true) :
    next R I .client a = some { a with c := c, cs := a.cs ++ [m] } := by
  simp [next, h, hr]

theorem client_recv {R I} {a : State} {f m q} (h : cAct I a.c = .recv f) (hr : a.sc = m :: q) :
    next R I .client a = some { a with c := f m, sc := q } := by
  simp [next, h, hr]

theorem client_tau {R I} {a : State} {c} (h : cAct I a.c = .tau c) :
    next R I .client a = some { a with c := c } := by
  simp [next, h]

theorem server_send {R I} {a : State} {m c} (h : sAct I a.s = .send m c) (hr : R.sc a.sc = true) :
    next R I .server a = some { a with s := c, sc := a.sc ++ [m] } := by
  simp [next, h, hr]

theorem server_recv {R I} {a : State} {f m q} (h : sAct I a.s = .recv f) (hr : a.cs = m :: q) :
    next R I .server a = some { a with s := f m, cs := q } := by
  simp [next, h, hr]

theorem server_tau {R I} {a : State} {c} (h : sAct I a.s = .tau c) :
    next R I .server a = some { a with s := c } := by
  simp [next, h]

theorem server_spawn {R I} {a : State} {c} (h : sAct I a.s = .spawn c) :
    next R I .server a = some { a with s := c, pend := a.pend + 1 } := by
  simp [next, h]

theorem server_join {R I} {a : State} {c} (h : sAct I a.s = .join c) (hp : a.pend = 0) :
    next R I .server a = some { a with s := c } := by
  simp [next, h, hp]

theorem diamond_cs {R : Rooms} (hR : R.OK) {I a b c}
    (h1 : next R I .client a = some b) (h2 : next R I .server a = some c) :
    ∃ d, next R I .server b = some d ∧ next R I .client c = some d := by
  rcases client_cases h1 with ⟨m, c', e, hr, rfl⟩ | ⟨f, m, q, e, hq, rfl⟩ | ⟨c', e, rfl⟩ <;>
  rcases server_cases h2 with ⟨m2, s', e2, hr2, rfl⟩ | ⟨f2, m2, q2, e2, hq2, rfl⟩ | ⟨s', e2, rfl⟩ |
    ⟨s', e2, rfl⟩ | ⟨s', e2, hp, rfl⟩
  all_goals simp_all only [next]
  all_goals simp_all
  all_goals first
    | exact hR.cs _ _ hr
    | exact hR.sc _ _ hr2

theorem patchEff_client (a : State) (c : Cli) (cs : List Msg) (sc : List Msg) (q : List Msg) (m : Msg) :
    patchEff { a with c := c, cs := cs, sc := sc } q m =
      { patchEff a q m with c := c, sc := sc } := by
  cases m <;> try rfl
  rename_i n
  cases n <;> rfl

theorem diamond_cp {R : Rooms} (hR : R.OK) {I a b c}
    (h1 : next R I .client a = some b) (h2 : next R I .patcher a = some c) :
    ∃ d, next R I .patcher b = some d ∧ next R I .client c = some d := by
  obtain ⟨m2, q2, hp, hf, hq2, rfl⟩ := patcher_cases h2
  rcases client_cases h1 with ⟨m, c', e, hr, rfl⟩ | ⟨f, m, q, e, hq, rfl⟩ | ⟨c', e, rfl⟩
  · refine ⟨_, patcher_of (m := m2) (q := q2 ++ [m]) hp hf (by simp [hq2]), ?_⟩
    rw [client_send (m := m) (c := c')]
    · cases m2 <;> try rfl
      rename_i n; cases n <;> rfl
    · cases m2 <;> try exact e
      rename_i n; cases n <;> exact e
    · have := hR.cs _ _ (hq2 ▸ hr)
      cases m2 <;> try exact this
      rename_i n; cases n <;> exact this
  · refine ⟨_, patcher_of (m := m2) (q := q2) hp hf (by simp [hq2]), ?_⟩
    rw [client_recv (m := m) (q := q) (f := f)]
    · cases m2 <;> try rfl
      rename_i n; cases n <;> rfl
    · cases m2 <;> try exact e
      rename_i n; cases n <;> exact e
    · cases m2 <;> try exact hq
      rename_i n; cases n <;> exact hq
  · refine ⟨_, patcher_of (m := m2) (q := q2) hp hf (by simp [hq2]), ?_⟩
    rw [client_tau (c := c')]
    · cases m2 <;> try rfl
      rename_i n; cases n <;> rfl
    · cases m2 <;> try exact e
      rename_i n; cases n <;> exact e

theorem diamond_sp {R : Rooms} {I a b c} (hJ : J a)
    (h1 : next R I .server a = some b) (h2 : next R I .patcher a = some c) :
    ∃ d, next R I .patcher b = some d ∧ next R I .server c = some d := by
  obtain ⟨m2, q2, hp, hf, hq2, rfl⟩ := patcher_cases h2
  rcases server_cases h1 with ⟨m, s', e, hr, rfl⟩ | ⟨f, m, q, e, hq, rfl⟩ | ⟨s', e, rfl⟩ |
    ⟨s', e, rfl⟩ | ⟨s', e, hp', rfl⟩
  · refine ⟨_, patcher_of (m := m2) (q := q2) hp hf (by simp [hq2]), ?_⟩
    rw [server_send (m := m) (c := s')]
    · cases m2 <;> try rfl
      rename_i n; cases n <;> rfl
    · cases m2 <;> try exact e
      rename_i n; cases n <;> exact e
    · cases m2 <;> try exact hr
      rename_i n; cases n <;> exact hr
  · exact absurd (J_recv hJ e) hp
  · refine ⟨_, patcher_of (m := m2) (q := q2) hp hf (by simp [hq2]), ?_⟩
    rw [server_tau (c := s')]
    · cases m2 <;> try rfl
      rename_i n; cases n <;> rfl
    · cases m2 <;> try exact e
      rename_i n; cases n <;> exact e
  · refine ⟨_, patcher_of (m := m2) (q := q2) (Nat.succ_ne_zero _) hf (by simp [hq2]), ?_⟩
    rw [server_spawn (c := s')]
    · cases m2 <;> try rfl
      rename_i n; cases n
      · simp only [patchEff, Option.some.injEq]
        congr 1
        omega
      · rfl
    · cases m2 <;> try exact e
      rename_i n; cases n <;> exact e
  · exact absurd hp' hp

/-- Steps of different threads commute. -/
theorem diamond {R : Rooms} (hR : R.OK) {I p q a b c} (hJ : J a) (hpq : p ≠ q)
    (h1 : next R I p a = some b) (h2 : next R I q a = some c) :
    ∃ d, next R I q b = some d ∧ next R I p c = some d := by
  cases p <;> cases q
  all_goals first
    | exact absurd rfl hpq
    | exact diamond_cs hR h1 h2
    | exact diamond_cp hR h1 h2
    | exact diamond_sp hJ h1 h2
    | (obtain ⟨d, x, y⟩ := diamond_cs hR h2 h1; exact ⟨d, y, x⟩)
    | (obtain ⟨d, x, y⟩ := diamond_cp hR h2 h1; exact ⟨d, y, x⟩)
    | (obtain ⟨d, x, y⟩ := diamond_sp hJ h2 h1; exact ⟨d, y, x⟩)

theorem J_run {R I n a b} (h : Run R I n a b) : J a → J b := by
  induction h with
  | nil => exact id
  | cons p e _ ih => exact fun h => ih (J_next h e)

theorem Run.append {R I n m a b c} (h : Run R I n a b) (g : Run R I m b c) :
    Run R I (n + m) a c := by
  induction h with
  | nil => simpa using g
  | @cons n _ _ _ p e _ ih =>
    have := Run.cons p e (ih g)
    rwa [Nat.add_right_comm] at this

/-- A run of a stuck state is empty. -/
theorem Run.of_stuck {R I n a b} (h : Run R I n a b) (hs : Stuck R I a) : n = 0 ∧ a = b := by
  cases h with
  | nil => exact ⟨rfl, rfl⟩
  | cons p e _ => rw [hs p] at e; cases e

/-- One step: if a run of `n` steps ends in a stuck state, any first step can be completed to the
same state in `n - 1` further steps. -/
theorem step_confluent {R : Rooms} (hR : R.OK) {I n a t} (h : Run R I n a t) (hs : Stuck R I t)
    (hJ : J a) {p b} (e : next R I p a = some b) : ∃ k, n = k + 1 ∧ Run R I k b t := by
  induction h generalizing p b with
  | nil => rw [hs p] at e; cases e
  | @cons n a c t q e' h ih =>
    by_cases hpq : p = q
    · subst hpq
      rw [e] at e'
      cases e'
      exact ⟨n, rfl, h⟩
    · obtain ⟨d, h1, h2⟩ := diamond hR hJ hpq e e'
      obtain ⟨k, hk, hr⟩ := ih hs (J_next hJ e') h2
      exact ⟨n, rfl, hk ▸ .cons q h1 hr⟩

/-- If one run ends in a stuck state after `n` steps, every run has at most `n` steps and can be
continued to that state. -/
theorem confluent {R : Rooms} (hR : R.OK) {I n a t} (h : Run R I n a t) (hs : Stuck R I t)
    (hJ : J a) {m b} (g : Run R I m a b) : ∃ k, n = m + k ∧ Run R I k b t := by
  induction g generalizing n with
  | nil => exact ⟨n, by omega, h⟩
  | @cons m a c b p e g ih =>
    obtain ⟨k, hk, hr⟩ := step_confluent hR h hs hJ e
    obtain ⟨j, hj, hr'⟩ := ih hr (J_next hJ e)
    exact ⟨j, by omega, hr'⟩

/-! ## One interleaving that finishes -/

/-- Some run leads from `a` to `b`. -/
def Path (R : Rooms) (I : Input) (a b : State) : Prop := ∃ n, Run R I n a b

theorem Path.refl {R I} (a : State) : Path R I a a := ⟨0, .nil a⟩

theorem Path.trans {R I a b c} (h : Path R I a b) (g : Path R I b c) : Path R I a c := by
  obtain ⟨n, h⟩ := h
  obtain ⟨m, g⟩ := g
  exact ⟨_, h.append g⟩

theorem Path.one {R I a b} (p : Proc) (e : next R I p a = some b) : Path R I a b :=
  ⟨1, .cons p e (.nil b)⟩

variable {R : Rooms} {I : Input}

/-- The client sends a message and the server receives it at once. -/
theorem xc (hR : R.OK) {c c' s f m p b sc} (h1 : cAct I c = .send m c') (h2 : sAct I s = .recv f) :
    Path R I ⟨c, s, p, b, [], sc⟩ ⟨c', f m, p, b, [], sc⟩ := by
  refine (Path.one .client (client_send (m := m) (c := c') h1 hR.cs0)).trans ?_
  exact Path.one .server (server_recv (f := f) (m := m) (q := []) h2 rfl)

/-- The server sends a message and the client receives it at once. -/
theorem xs (hR : R.OK) {c s s' f m p b cs} (h1 : sAct I s = .send m s') (h2 : cAct I c = .recv f) :
    Path R I ⟨c, s, p, b, cs, []⟩ ⟨f m, s', p, b, cs, []⟩ := by
  refine (Path.one .server (server_send (m := m) (c := s') h1 hR.sc0)).trans ?_
  exact Path.one .client (client_recv (f := f) (m := m) (q := []) h2 rfl)

/-- A quiet state: queues empty, no patch task. -/
def Q (c : Cli) (o : POpts) (pc : SPc) : State := ⟨c, ⟨o, pc⟩, 0, false, [], []⟩

theorem ph_files (hR : R.OK) (o : POpts) (l : List (Nat × Nat)) (hl : ∀ b ∈ l, b.1 ≠ 0 ∨ b.2 ≠ 0) :
    Path R I (Q (.files l) o .files) (Q .stats o .stats) := by
  induction l with
  | nil => exact xc (c := .files []) (s := ⟨o, .files⟩) hR rfl rfl
  | cons b l ih =>
    refine Path.trans ?_ (ih fun x hx => hl x (List.mem_cons_of_mem _ hx))
    have h := xc (R := R) (I := I) hR (c := .files (b :: l)) (s := ⟨o, .files⟩) (p := 0) (b := false)
      (sc := []) rfl rfl
    have hb := hl b (List.mem_cons_self ..)
    simp only [if_neg (show ¬ (b.1 = 0 ∧ b.2 = 0) by omega)] at h
    exact h

theorem ph_deleted (hR : R.OK) (o : POpts) (l : List (Nat × Nat))
    (hl : ∀ b ∈ l, b.1 ≠ 0 ∨ b.2 ≠ 0) :
    Path R I (Q .deleted o (.deleted l)) (Q (.missing []) o (.missing I.missing)) := by
  induction l with
  | nil => exact xs (c := .deleted) (s := ⟨o, .deleted []⟩) hR rfl rfl
  | cons b l ih =>
    refine Path.trans ?_ (ih fun x hx => hl x (List.mem_cons_of_mem _ hx))
    have h := xs (R := R) (I := I) hR (c := .deleted) (s := ⟨o, .deleted (b :: l)⟩) (p := 0)
      (b := false) (cs := []) rfl rfl
    have hb := hl b (List.mem_cons_self ..)
    simp only [if_neg (show ¬ (b.1 = 0 ∧ b.2 = 0) by omega)] at h
    exact h

theorem ph_missing (hR : R.OK) (o : POpts) (l acc : List Nat)
    (hl : ∀ i ∈ acc ++ l, i < I.numFiles) :
    Path R I (Q (.missing acc) o (.missing l))
      ⟨cMissing I (acc ++ l), sMissing I o, 0, false, [], []⟩ := by
  induction n : l.length using Nat.strongRecOn generalizing l acc with
  | _ n ih =>
    by_cases h0 : l = []
    · subst h0
      have h := xs (R := R) (I := I) hR (c := .missing acc) (s := ⟨o, .missing []⟩) (p := 0)
        (b := false) (cs := []) rfl rfl
      simp only [List.append_nil] at hl ⊢
      simp only [if_pos hl, if_true] at h
      exact h
    · have h := xs (R := R) (I := I) hR (c := .missing acc) (s := ⟨o, .missing l⟩)
        (s' := ⟨o, .missing (l.drop 4000)⟩) (m := .indices (l.take 4000)) (p := 0)
        (b := false) (cs := []) (by simp only [sAct, if_neg h0]) rfl
      have ht : l.take 4000 ≠ [] := by
        cases l with
        | nil => exact absurd rfl h0
        | cons x l => simp
      simp only [if_neg ht] at h
      refine h.trans ?_
      have hpos := List.length_pos_iff.mpr h0
      have := ih (l.drop 4000).length (by simp; omega) (l.drop 4000) (acc ++ l.take 4000)
        (by rw [List.append_assoc, List.take_append_drop]; exact hl) rfl
      rw [List.append_assoc, List.take_append_drop] at this
      exact this

theorem ph_changed (hR : R.OK) (o : POpts) (l acc : List Nat)
    (hl : ∀ i ∈ acc ++ l, i < I.numFiles) :
    Path R I (Q (.changed acc) o (.changed l))
      ⟨cChanged I (acc ++ l), sChanged I o, 0, false, [], []⟩ := by
  induction n : l.length using Nat.strongRecOn generalizing l acc with
  | _ n ih =>
    by_cases h0 : l = []
    · subst h0
      have h := xs (R := R) (I := I) hR (c := .changed acc) (s := ⟨o, .changed []⟩) (p := 0)
        (b := false) (cs := []) rfl rfl
      simp only [List.append_nil] at hl ⊢
      simp only [if_pos hl, if_true] at h
      exact h
    · have h := xs (R := R) (I := I) hR (c := .changed acc) (s := ⟨o, .changed l⟩)
        (s' := ⟨o, .changed (l.drop 4000)⟩) (m := .indices (l.take 4000)) (p := 0)
        (b := false) (cs := []) (by simp only [sAct, if_neg h0]) rfl
      have ht : l.take 4000 ≠ [] := by
        cases l with
        | nil => exact absurd rfl h0
        | cons x l => simp
      simp only [if_neg ht] at h
      refine h.trans ?_
      have hpos := List.length_pos_iff.mpr h0
      have := ih (l.drop 4000).length (by simp; omega) (l.drop 4000) (acc ++ l.take 4000)
        (by rw [List.append_assoc, List.take_append_drop]; exact hl) rfl
      rw [List.append_assoc, List.take_append_drop] at this
      exact this

theorem ph_raw (hR : R.OK) (o : POpts) (k : Nat) (c l l' : List Nat) (hc : ∀ n ∈ c, n ≠ 0) :
    Path R I (Q (.raw k c l) o (.raw k l')) (Q (.file (k + 1) l) o (.file (k + 1) l')) := by
  induction c with
  | nil => exact xc (c := .raw k [] l) (s := ⟨o, .raw k l'⟩) hR rfl rfl
  | cons n c ih =>
    refine Path.trans ?_ (ih fun x hx => hc x (List.mem_cons_of_mem _ hx))
    have h := xc (R := R) (I := I) hR (c := .raw k (n :: c) l) (s := ⟨o, .raw k l'⟩) (p := 0)
      (b := false) (sc := []) rfl rfl
    simp only [if_neg (hc n (List.mem_cons_self ..))] at h
    exact h

theorem ph_file (hR : R.OK) (o : POpts) (l : List Nat) (k : Nat)
    (hl : ∀ i ∈ l, ∀ n ∈ I.content i, n ≠ 0) :
    ∃ k', Path R I (Q (.file k l) o (.file k l)) (Q (.file k' []) o (.file k' [])) := by
  induction l generalizing k with
  | nil => exact ⟨k, .refl _⟩
  | cons i l ih =>
    obtain ⟨k', h'⟩ := ih (k + 1) fun x hx => hl x (List.mem_cons_of_mem _ hx)
    refine ⟨k', Path.trans ?_ (Path.trans (ph_raw hR o k (I.content i) l l
      (hl i (List.mem_cons_self ..))) h')⟩
    have h := xc (R := R) (I := I) hR (c := .file k (i :: l)) (s := ⟨o, .file k (i :: l)⟩) (p := 0)
      (b := false) (sc := []) rfl rfl
    simp only [if_true] at h
    exact h

/-- From the end of the missing indices to the start of the changed indices. -/
theorem ph_missing_data (hR : R.OK) (hI : I.OK) :
    Path R I ⟨cMissing I I.missing, sMissing I I.opts, 0, false, [], []⟩
      (Q (.changed []) I.opts (.changed I.changed)) := by
  by_cases h : I.missing = [] ∨ I.opts.dryRun = true
  · rw [cMissing, if_pos h, sMissing, if_pos h.symm]
    exact .refl _
  · have h' : ¬(I.opts.dryRun = true ∨ I.missing = []) := fun x => h x.symm
    simp only [cMissing, if_neg h, sMissing, if_neg h']
    obtain ⟨k', hf⟩ := ph_file (R := R) (I := I) hR I.opts I.missing 0 hI.content
    cases hc : I.opts.compress
    · simp only [Bool.false_eq_true, if_false]
      refine hf.trans ?_
      refine (Path.one .client (client_tau (c := .changed []) ?_)).trans ?_
      · simp [Q, cAct, hc]
      · refine Path.one .server (server_tau ?_)
        simp [Q, sAct, hc]
    · simp only [if_true]
      refine (xc (c := .toggle1 I.missing) (s := ⟨I.opts, .toggle1⟩) hR rfl rfl).trans
        (hf.trans ?_)
      refine (Path.one .client (client_tau (c := .toggleWait1) ?_)).trans ?_
      · simp [Q, cAct, hc]
      refine (Path.one .server (server_tau (c := ⟨I.opts, .toggleResp1⟩) ?_)).trans ?_
      · simp [Q, sAct, hc]
      exact xs (c := .toggleWait1) (s := ⟨I.opts, .toggleResp1⟩) hR rfl rfl

/-! ### The diff of one file -/

/-- Signature messages with end marker. -/
def sm (c : List Nat) : List Msg := c.map .sigs ++ [.sigs 0]

/-- The queue `sc` takes all of `sm c`. -/
def Takes (R : Rooms) (sc : List Msg) (c : List Nat) : Prop :=
  ∀ p, p <+: sm c → p ≠ sm c → R.sc (sc ++ p) = true

theorem Takes.head {sc c} (h : Takes R sc c) : R.sc sc = true := by
  have := h [] (List.nil_prefix ..) (by simp [sm])
  simpa using this

theorem sm_cons (n c) : sm (n :: c) = .sigs n :: sm c := rfl

theorem Takes.tail {sc n c} (h : Takes R sc (n :: c)) : Takes R (sc ++ [.sigs n]) c := by
  intro p hp hne
  rw [List.append_assoc]
  exact h (.sigs n :: p) (by rw [sm_cons]; exact (List.prefix_cons_inj _).mpr hp)
    (by rw [sm_cons]; simpa using hne)

theorem not_takes {sc n c} (h : ¬ Takes R sc (n :: c)) (hr : R.sc sc = true) :
    ¬ Takes R (sc ++ [.sigs n]) c := by
  intro h'
  apply h
  intro p hp hne
  cases p with
  | nil => simpa using hr
  | cons m p =>
    rw [sm_cons] at hp hne
    obtain ⟨rfl, hp'⟩ := List.cons_prefix_cons.mp hp
    have := h' p hp' (by simpa using hne)
    rwa [List.append_assoc] at this

theorem send_all {cl o c l cs} (p b) (sc : List Msg) (h : Takes R sc c) :
    Path R I ⟨cl, ⟨o, .sigs c l⟩, p, b, cs, sc⟩ ⟨cl, ⟨o, .spawn l⟩, p, b, cs, sc ++ sm c⟩ := by
  induction c generalizing sc with
  | nil => exact Path.one .server (server_send (m := .sigs 0) (c := ⟨o, .spawn l⟩) rfl h.head)
  | cons n c ih =>
    refine (Path.one .server (server_send (m := .sigs n) (c := ⟨o, .sigs c l⟩) rfl h.head)).trans ?_
    have := ih (sc ++ [.sigs n]) h.tail
    rwa [List.append_assoc] at this

theorem send_until {cl o c l cs} (p b) (sc : List Msg) (h : ¬ Takes R sc c) :
    ∃ c' sc', Path R I ⟨cl, ⟨o, .sigs c l⟩, p, b, cs, sc⟩ ⟨cl, ⟨o, .sigs c' l⟩, p, b, cs, sc'⟩ ∧
      R.sc sc' = false := by
  induction c generalizing sc with
  | nil =>
    cases hr : R.sc sc with
    | false => exact ⟨[], sc, .refl _, hr⟩
    | true =>
      exfalso
      apply h
      intro q hq hne
      have : q = [] := by
        rcases List.prefix_cons_iff.mp hq with h | ⟨t, rfl, ht⟩
        · exact h
        · exact absurd (by rw [List.prefix_nil.mp ht]; rfl) hne
      subst this
      simpa using hr
  | cons n c ih =>
    cases hr : R.sc sc with
    | false => exact ⟨n :: c, sc, .refl _, hr⟩
    | true =>
      obtain ⟨c', sc', hp, h'⟩ := ih (sc ++ [.sigs n]) (not_takes h hr)
      exact ⟨c', sc', (Path.one .server (server_send (m := .sigs n) (c := ⟨o, .sigs c l⟩) rfl hr)).trans
        hp, h'⟩

/-- The patcher takes a message of patch commands. -/
theorem patch_pos {cl s p n q sc} (hn : n ≠ 0) :
    Path R I ⟨cl, s, p + 1, false, .patch n :: q, sc⟩ ⟨cl, s, p + 1, false, q, sc⟩ := by
  cases n with
  | zero => exact absurd rfl hn
  | succ n => exact Path.one .patcher (patcher_of (m := .patch (n + 1)) (Nat.succ_ne_zero _) rfl rfl)

theorem patch_end {cl s p q sc} :
    Path R I ⟨cl, s, p + 1, false, .patch 0 :: q, sc⟩ ⟨cl, s, p, false, q, sc⟩ :=
  Path.one .patcher (patcher_of (m := .patch 0) (Nat.succ_ne_zero _) rfl rfl)

theorem drain {cl s p sc} (q : List Nat) (h : ∀ n ∈ q, n ≠ 0) :
    Path R I ⟨cl, s, p + 1, false, q.map .patch, sc⟩ ⟨cl, s, p + 1, false, [], sc⟩ := by
  induction q with
  | nil => exact .refl _
  | cons n q ih =>
    exact (patch_pos (h n (List.mem_cons_self ..))).trans
      (ih fun x hx => h x (List.mem_cons_of_mem _ hx))

/-- The client, all signatures received, with the patcher running. -/
theorem diff_all (hR : R.OK) {s l} (w : List (Option Nat)) (hw : ∀ n, some n ∈ w → n ≠ 0) (sc) :
    Path R I ⟨.diff w true l, s, 1, false, [], sc⟩ ⟨.header l, s, 0, false, [], sc⟩ := by
  induction w with
  | nil =>
    exact (Path.one .client (client_send (m := .patch 0) (c := .header l) rfl hR.cs0)).trans patch_end
  | cons x w ih =>
    have ih := ih fun n hn => hw n (List.mem_cons_of_mem _ hn)
    cases x with
    | none => exact (Path.one .client (client_tau (c := .diff w true l) rfl)).trans ih
    | some n =>
      refine (Path.one .client (client_send (m := .patch n) (c := .diff w true l) rfl hR.cs0)).trans ?_
      exact (patch_pos (hw n (List.mem_cons_self ..))).trans ih

theorem beq_zero {n : Nat} (h : n ≠ 0) : (n == 0) = false := by simpa using h

/-- The client receives the rest of the signatures when it has nothing else to do. -/
theorem recv_rest {s l p b cs} (c : List Nat) (hc : ∀ n ∈ c, n ≠ 0) :
    Path R I ⟨.diff [] false l, s, p, b, cs, sm c⟩ ⟨.diff [] true l, s, p, b, cs, []⟩ := by
  induction c with
  | nil =>
    have h : next R I .client ⟨.diff [] false l, s, p, b, cs, sm []⟩ = some _ :=
      client_recv (m := .sigs 0) (q := []) rfl rfl
    exact Path.one .client h
  | cons n c ih =>
    refine Path.trans ?_ (ih fun x hx => hc x (List.mem_cons_of_mem _ hx))
    have h : next R I .client ⟨.diff [] false l, s, p, b, cs, sm (n :: c)⟩ = some _ :=
      client_recv (m := .sigs n) (q := sm c) rfl rfl
    simp only [beq_zero (hc n (List.mem_cons_self ..))] at h
    exact Path.one .client h

/-- The client with all signatures already queued and the patcher running. -/
theorem diff_queued (hR : R.OK) {s l} (w : List (Option Nat)) (hw : ∀ n, some n ∈ w → n ≠ 0)
    (c : List Nat) (hc : ∀ n ∈ c, n ≠ 0) :
    Path R I ⟨.diff w false l, s, 1, false, [], sm c⟩ ⟨.header l, s, 0, false, [], []⟩ := by
  induction w generalizing c with
  | nil => exact (recv_rest c hc).trans (diff_all hR [] hw [])
  | cons x w ih =>
    have hw' : ∀ n, some n ∈ w → n ≠ 0 := fun n hn => hw n (List.mem_cons_of_mem _ hn)
    cases x with
    | some n =>
      refine (Path.one .client (client_send (m := .patch n) (c := .diff w false l) rfl hR.cs0)).trans ?_
      exact (patch_pos (hw n (List.mem_cons_self ..))).trans (ih hw' c hc)
    | none =>
      cases c with
      | nil =>
        refine Path.trans ?_ (diff_all hR w hw' [])
        have h : next R I .client ⟨.diff (none :: w) false l, s, 1, false, [], sm []⟩ = some _ :=
          client_recv (m := .sigs 0) (q := []) rfl rfl
        exact Path.one .client h
      | cons n c =>
        refine Path.trans ?_ (ih hw' c fun x hx => hc x (List.mem_cons_of_mem _ hx))
        have h : next R I .client ⟨.diff (none :: w) false l, s, 1, false, [], sm (n :: c)⟩ = some _ :=
          client_recv (m := .sigs n) (q := sm c) rfl rfl
        simp only [beq_zero (hc n (List.mem_cons_self ..))] at h
        exact Path.one .client h

/-- `Fits` for what is left of a file: `q` queued patch messages, signature messages `c` left to
send, word `w` left. -/
def FitsG (R : Rooms) (q : List Nat) (c : List Nat) (w : List (Option Nat)) : Prop :=
  ∀ u n v, w = u ++ some n :: v → u.count none < (sm c).length →
    R.cs (q.map .patch ++ patchesOf u) = true ∨
      ∀ p, p <+: (sm c).drop (u.count none) → p ≠ (sm c).drop (u.count none) → R.sc p = true

theorem fitsG_none {q n c w} : FitsG R q (n :: c) (none :: w) ↔ FitsG R q c w := by
  constructor
  · intro h u m v hw hlt
    have := h (none :: u) m v (by rw [hw]; rfl) (by simpa [sm] using hlt)
    simpa [patchesOf, sm] using this
  · intro h u m v hw hlt
    cases u with
    | nil => simp at hw
    | cons x u =>
      simp only [List.cons_append, List.cons.injEq] at hw
      obtain ⟨rfl, hw⟩ := hw
      have := h u m v hw (by simpa [sm] using hlt)
      simpa [patchesOf, sm] using this

theorem fitsG_none_nil {q w} : FitsG R q [] (none :: w) := by
  intro u m v hw hlt
  cases u with
  | nil => simp at hw
  | cons x u =>
    simp only [List.cons_append, List.cons.injEq] at hw
    obtain ⟨rfl, hw⟩ := hw
    simp [sm] at hlt

theorem fitsG_nil {q c} : FitsG R q c [] := by
  intro u m v hw
  simp at hw

theorem takes_nil_iff {c} : Takes R [] c ↔ ∀ p, p <+: sm c → p ≠ sm c → R.sc p = true := by
  simp [Takes]

theorem fitsG_some {q n c w} : FitsG R q c (some n :: w) ↔
    (R.cs (q.map .patch) = true ∨ Takes R [] c) ∧ FitsG R (q ++ [n]) c w := by
  constructor
  · intro h
    refine ⟨?_, ?_⟩
    · have := h [] n w rfl (by simp [sm])
      simpa [patchesOf, takes_nil_iff] using this
    · intro u m v hw hlt
      have := h (some n :: u) m v (by rw [hw]; rfl) (by simpa using hlt)
      simpa [patchesOf] using this
  · intro ⟨h0, h⟩ u m v hw hlt
    cases u with
    | nil => simpa [patchesOf, takes_nil_iff] using h0
    | cons x u =>
      simp only [List.cons_append, List.cons.injEq] at hw
      obtain ⟨rfl, hw⟩ := hw
      have := h u m v hw (by simpa using hlt)
      simpa [patchesOf] using this

/-- Dropping messages from the front keeps room. -/
theorem room_suffix (hR : R.OK) (a b : List Msg) (h : R.sc (a ++ b) = true) : R.sc b = true := by
  induction a with
  | nil => exact h
  | cons m a ih => exact ih (hR.sc _ _ h)

theorem fitsG_of_takes (hR : R.OK) {q c w} (h : Takes R [] c) : FitsG R q c w := by
  intro u n v _ hlt
  right
  intro p hp hne
  rw [takes_nil_iff] at h
  apply room_suffix hR ((sm c).take (u.count none))
  apply h
  · obtain ⟨t, ht⟩ := hp
    exact ⟨t, by rw [List.append_assoc, ht, List.take_append_drop]⟩
  · intro e
    apply hne
    have e' := e.trans (List.take_append_drop (u.count none) (sm c)).symm
    exact List.append_cancel_left e'

theorem map_patch_snoc (q : List Nat) (n : Nat) :
    q.map Msg.patch ++ [.patch n] = (q ++ [n]).map .patch := by simp

/-- From the start of the signatures of a file to the start of the next file. -/
theorem diff_file (hR : R.OK) {o l l'} (w : List (Option Nat)) (hw : ∀ n, some n ∈ w → n ≠ 0)
    (c : List Nat) (hc : ∀ n ∈ c, n ≠ 0) (q : List Nat) (hq : ∀ n ∈ q, n ≠ 0)
    (hf : FitsG R q c w) :
    Path R I ⟨.diff w false l, ⟨o, .sigs c l'⟩, 0, false, q.map .patch, []⟩
      (Q (.header l) o (.header l')) := by
  -- the last signature message
  have last : ∀ (w' : List (Option Nat)), (∀ n, some n ∈ w' → n ≠ 0) →
      Path R I ⟨.diff w' true l, ⟨o, .spawn l'⟩, 0, false, q.map .patch, []⟩
        (Q (.header l) o (.header l')) := by
    intro w' hw'
    refine (Path.one .server (server_spawn (c := ⟨o, .header l'⟩) rfl)).trans ?_
    exact (drain q hq).trans (diff_all hR w' hw' [])
  induction w generalizing c q with
  | nil =>
    clear hf
    induction c with
    | nil =>
      refine Path.trans ?_ (last [] hw)
      exact xs (c := .diff [] false l) (s := ⟨o, .sigs [] l'⟩) hR rfl rfl
    | cons n c ih =>
      refine Path.trans ?_ (ih fun x hx => hc x (List.mem_cons_of_mem _ hx))
      have h := xs (R := R) (I := I) (c := .diff [] false l) (s := ⟨o, .sigs (n :: c) l'⟩) (p := 0)
        (b := false) (cs := q.map .patch) hR rfl rfl
      simp only [beq_zero (hc n (List.mem_cons_self ..))] at h
      exact h
  | cons x w ih =>
    have hw' : ∀ n, some n ∈ w → n ≠ 0 := fun n hn => hw n (List.mem_cons_of_mem _ hn)
    cases x with
    | none =>
      cases c with
      | nil =>
        refine Path.trans ?_ (last w hw')
        exact xs (c := .diff (none :: w) false l) (s := ⟨o, .sigs [] l'⟩) hR rfl rfl
      | cons n c =>
        refine Path.trans ?_ (ih hw' c (fun x hx => hc x (List.mem_cons_of_mem _ hx)) q hq
          (fitsG_none.mp hf) last)
        have h := xs (R := R) (I := I) (c := .diff (none :: w) false l)
          (s := ⟨o, .sigs (n :: c) l'⟩) (p := 0) (b := false) (cs := q.map .patch) hR rfl rfl
        simp only [beq_zero (hc n (List.mem_cons_self ..))] at h
        exact h
    | some n =>
      have hn := hw n (List.mem_cons_self ..)
      obtain ⟨h0, hf⟩ := fitsG_some.mp hf
      by_cases ht : Takes R [] c
      · refine (send_all 0 false [] ht).trans ?_
        refine (Path.one .server (server_spawn (c := ⟨o, .header l'⟩) rfl)).trans ?_
        refine (drain q hq).trans ?_
        exact diff_queued hR (some n :: w) hw c hc
      · have hr := h0.resolve_right ht
        refine (Path.one .client (client_send (m := .patch n) (c := .diff w false l) rfl hr)).trans ?_
        have hq' : ∀ x ∈ q ++ [n], x ≠ 0 := by
          intro x hx
          rcases List.mem_append.mp hx with h | h
          · exact hq x h
          · rw [List.mem_singleton.mp h]; exact hn
        have := ih hw' c hc (q ++ [n]) hq' hf (by
          intro w' hw'
          refine (Path.one .server (server_spawn (c := ⟨o, .header l'⟩) rfl)).trans ?_
          exact (drain (q ++ [n]) hq').trans (diff_all hR w' hw' []))
        simp only
        rw [map_patch_snoc]
        exact this

/-- Both sides blocked. -/
def Blocked (R : Rooms) (I : Input) (a : State) : Prop :=
  Stuck R I a ∧ a.c ≠ .done ∧ a.s.pc ≠ .done

/-- If the diff of a file does not fit, both sides block. -/
theorem diff_blocks (hR : R.OK) {o l l'} (w : List (Option Nat))
    (c : List Nat) (hc : ∀ n ∈ c, n ≠ 0) (q : List Nat) (hf : ¬ FitsG R q c w) :
    ∃ b, Path R I ⟨.diff w false l, ⟨o, .sigs c l'⟩, 0, false, q.map .patch, []⟩ b ∧
      Blocked R I b := by
  induction w generalizing c q with
  | nil => exact absurd fitsG_nil hf
  | cons x w ih =>
    cases x with
    | none =>
      cases c with
      | nil => exact absurd fitsG_none_nil hf
      | cons n c =>
        obtain ⟨b, hp, hb⟩ := ih c (fun x hx => hc x (List.mem_cons_of_mem _ hx)) q
          (fun h => hf (fitsG_none.mpr h))
        refine ⟨b, Path.trans ?_ hp, hb⟩
        have h := xs (R := R) (I := I) (c := .diff (none :: w) false l)
          (s := ⟨o, .sigs (n :: c) l'⟩) (p := 0) (b := false) (cs := q.map .patch) hR rfl rfl
        simp only [beq_zero (hc n (List.mem_cons_self ..))] at h
        exact h
    | some n =>
      cases hr : R.cs (q.map .patch) with
      | true =>
        obtain ⟨b, hp, hb⟩ := ih c hc (q ++ [n]) (fun h => hf (fitsG_some.mpr ⟨.inl hr, h⟩))
        refine ⟨b, (Path.one .client
          (client_send (m := .patch n) (c := .diff w false l) rfl hr)).trans ?_, hb⟩
        simp only
        rw [map_patch_snoc]
        exact hp
      | false =>
        have ht : ¬ Takes R [] c := fun h => hf (fitsG_of_takes hR h)
        obtain ⟨c', sc', hp, h'⟩ := send_until (R := R) (I := I) (cl := .diff (some n :: w) false l)
          (o := o) (l := l') (cs := q.map .patch) 0 false [] ht
        refine ⟨_, hp, ?_, by simp, by simp⟩
        intro p
        cases p with
        | client => simp [next, cAct, hr]
        | server => cases c' <;> simp [next, sAct, h']
        | patcher => simp [next]

/-- All changed files. -/
theorem ph_header (hR : R.OK) {o} (l : List Nat)
    (hs : ∀ i ∈ l, ∀ n ∈ I.sigs i, n ≠ 0) (ho : ∀ i ∈ l, ∀ n, some n ∈ I.ops i → n ≠ 0)
    (hf : ∀ i ∈ l, Fits R I i) :
    Path R I (Q (.header l) o (.header l)) (Q (.header []) o (.header [])) := by
  induction l with
  | nil => exact .refl _
  | cons i l ih =>
    refine Path.trans ?_ (ih (fun x hx => hs x (List.mem_cons_of_mem _ hx))
      (fun x hx => ho x (List.mem_cons_of_mem _ hx)) (fun x hx => hf x (List.mem_cons_of_mem _ hx)))
    have h := xs (R := R) (I := I) (c := .header (i :: l)) (s := ⟨o, .header (i :: l)⟩) (p := 0)
      (b := false) (cs := []) hR rfl rfl
    simp only [if_true] at h
    refine h.trans ?_
    refine diff_file hR (I.ops i) (ho i (List.mem_cons_self ..)) (I.sigs i)
      (hs i (List.mem_cons_self ..)) [] (by simp) ?_
    exact hf i (List.mem_cons_self ..)

theorem ph_header_blocks (hR : R.OK) {o} (l : List Nat)
    (hs : ∀ i ∈ l, ∀ n ∈ I.sigs i, n ≠ 0) (ho : ∀ i ∈ l, ∀ n, some n ∈ I.ops i → n ≠ 0)
    (hf : ¬ ∀ i ∈ l, Fits R I i) :
    ∃ b, Path R I (Q (.header l) o (.header l)) b ∧ Blocked R I b := by
  induction l with
  | nil => exact absurd (by simp) hf
  | cons i l ih =>
    have h := xs (R := R) (I := I) (c := .header (i :: l)) (s := ⟨o, .header (i :: l)⟩) (p := 0)
      (b := false) (cs := []) hR rfl rfl
    simp only [if_true] at h
    by_cases hi : Fits R I i
    · obtain ⟨b, hp, hb⟩ := ih (fun x hx => hs x (List.mem_cons_of_mem _ hx))
        (fun x hx => ho x (List.mem_cons_of_mem _ hx)) (fun h => hf fun x hx => by
          rcases List.mem_cons.mp hx with rfl | hx
          · exact hi
          · exact h x hx)
      refine ⟨b, h.trans (Path.trans ?_ hp), hb⟩
      exact diff_file hR (I.ops i) (ho i (List.mem_cons_self ..)) (I.sigs i)
        (hs i (List.mem_cons_self ..)) [] (by simp) hi
    · obtain ⟨b, hp, hb⟩ := diff_blocks (R := R) (I := I) hR (o := o) (l := l) (l' := l) (I.ops i)
        (I.sigs i) (hs i (List.mem_cons_self ..)) [] hi
      exact ⟨b, h.trans hp, hb⟩

/-- The first phases. -/
theorem ph_start (hR : R.OK) (hI : I.OK) :
    Path R I init ⟨cChanged I I.changed, sChanged I I.opts, 0, false, [], []⟩ := by
  have h1 : Path R I init (Q (.files I.files) I.opts .files) :=
    xc (c := .options) (s := ⟨⟨false, false, false⟩, .options⟩) hR rfl rfl
  refine h1.trans ((ph_files hR I.opts I.files hI.files).trans ?_)
  have h2 : Path R I (Q .stats I.opts .stats) (Q (.missing []) I.opts (.missing I.missing)) := by
    have h := xs (R := R) (I := I) hR (c := .stats) (s := ⟨I.opts, .stats⟩) (p := 0) (b := false)
      (cs := []) rfl rfl
    cases hd : I.opts.delete
    · simp only [hd, Bool.false_eq_true, if_false] at h
      exact h
    · simp only [hd, if_true] at h
      exact h.trans (ph_deleted hR I.opts I.deleted hI.deleted)
  refine h2.trans ?_
  have h3 := ph_missing (R := R) (I := I) hR I.opts I.missing [] (by simpa using hI.missing)
  refine h3.trans ((ph_missing_data hR hI).trans ?_)
  exact ph_changed hR I.opts I.changed [] (by simpa using hI.changed)

/-- The last phase. -/
theorem ph_end (hR : R.OK) (o : POpts) : Path R I (Q .shutdown o .shutdown) (Q .done o .done) :=
  (xc (c := .shutdown) (s := ⟨o, .shutdown⟩) hR rfl rfl).trans
    (xs (c := .shutdownResp) (s := ⟨o, .shutdownResp⟩) hR rfl rfl)

/-- The condition under which sessions with these queues finish. -/
def AllFit (R : Rooms) (I : Input) : Prop := I.opts.dryRun = true ∨ ∀ i ∈ I.changed, Fits R I i

theorem path_done (hR : R.OK) (hI : I.OK) (hf : AllFit R I) :
    Path R I init (Q .done I.opts .done) := by
  refine (ph_start hR hI).trans (Path.trans ?_ (ph_end hR I.opts))
  by_cases h : I.changed = [] ∨ I.opts.dryRun = true
  · rw [cChanged, if_pos h, sChanged, if_pos h.symm]
    exact .refl _
  · have h' : ¬(I.opts.dryRun = true ∨ I.changed = []) := fun x => h x.symm
    simp only [cChanged, if_neg h, sChanged, if_neg h']
    have hf' := hf.resolve_left fun x => h (.inr x)
    have hp := ph_header (R := R) (I := I) hR (o := I.opts) I.changed hI.sigs hI.ops hf'
    cases hc : I.opts.compress
    · simp only [Bool.false_eq_true, if_false]
      refine hp.trans ?_
      refine (Path.one .client (client_tau (c := .shutdown) ?_)).trans ?_
      · simp [Q, cAct, hc]
      refine (Path.one .server (server_tau (c := ⟨I.opts, .join⟩) rfl)).trans ?_
      refine Path.one .server (server_join (c := ⟨I.opts, .shutdown⟩) ?_ rfl)
      simp [sAct, hc]
    · simp only [if_true]
      refine (xc (c := .toggle2 I.changed) (s := ⟨I.opts, .toggle2⟩) hR rfl rfl).trans
        (hp.trans ?_)
      refine (Path.one .client (client_tau (c := .toggleWait2) ?_)).trans ?_
      · simp [Q, cAct, hc]
      refine (Path.one .server (server_tau (c := ⟨I.opts, .join⟩) rfl)).trans ?_
      refine (Path.one .server (server_join (c := ⟨I.opts, .toggleResp2⟩) ?_ rfl)).trans ?_
      · simp [sAct, hc]
      exact xs (c := .toggleWait2) (s := ⟨I.opts, .toggleResp2⟩) hR rfl rfl

theorem path_blocked (hR : R.OK) (hI : I.OK) (hf : ¬ AllFit R I) :
    ∃ b, Path R I init b ∧ Blocked R I b := by
  have hd : I.opts.dryRun = false := by
    cases h : I.opts.dryRun
    · rfl
    · exact absurd (.inl h) hf
  have hc : ¬ ∀ i ∈ I.changed, Fits R I i := fun h => hf (.inr h)
  have hne : I.changed ≠ [] := by intro h; rw [h] at hc; simp at hc
  obtain ⟨b, hp, hb⟩ := ph_header_blocks (R := R) (I := I) hR (o := I.opts) I.changed hI.sigs hI.ops hc
  refine ⟨b, (ph_start hR hI).trans (Path.trans ?_ hp), hb⟩
  have h : ¬ (I.changed = [] ∨ I.opts.dryRun = true) := by simp [hne, hd]
  have h' : ¬(I.opts.dryRun = true ∨ I.changed = []) := fun x => h x.symm
  simp only [cChanged, if_neg h, sChanged, if_neg h']
  cases I.opts.compress
  · simp only [Bool.false_eq_true, if_false]
    exact .refl _
  · simp only [if_true]
    exact xc (c := .toggle2 I.changed) (s := ⟨I.opts, .toggle2⟩) hR rfl rfl

theorem J_init : J init := fun h => absurd rfl h

theorem stuck_done (o : POpts) : Stuck R I (Q .done o .done) := by
  intro p
  cases p <;> rfl

/-- Runs with limited queues are runs with unlimited ones. -/
theorem Run.unlimited {n a b} (h : Run R I n a b) : Run .unlimited I n a b := by
  induction h with
  | nil => exact .nil _
  | cons p e _ ih =>
    refine .cons p ?_ ih
    cases p with
    | client =>
      rcases client_cases e with ⟨m, c', e', hr, rfl⟩ | ⟨f, m, q, e', hq, rfl⟩ | ⟨c', e', rfl⟩
      · exact client_send e' rfl
      · exact client_recv e' hq
      · exact client_tau e'
    | server =>
      rcases server_cases e with ⟨m2, s', e2, hr2, rfl⟩ | ⟨f2, m2, q2, e2, hq2, rfl⟩ | ⟨s', e2, rfl⟩ |
        ⟨s', e2, rfl⟩ | ⟨s', e2, hp, rfl⟩
      · exact server_send e2 rfl
      · exact server_recv e2 hq2
      · exact server_tau e2
      · exact server_spawn e2
      · exact server_join e2 hp
    | patcher => exact e

theorem unlimited_OK : Rooms.unlimited.OK := ⟨fun _ _ _ => rfl, fun _ _ _ => rfl, rfl, rfl⟩

theorem unlimited_fits : AllFit .unlimited I := .inr fun _ _ _ _ _ _ _ => .inl rfl

theorem wrong_stays {n a b} (h : Run R I n a b) (hw : WrongMessage a) : WrongMessage b := by
  induction h with
  | nil => exact hw
  | @cons n a b c p e _ ih =>
    apply ih
    rcases hw with h | h | h
    · left
      cases p with
      | client => simp [next, h, cAct] at e
      | server =>
        rcases server_cases e with ⟨m2, s', e2, hr2, rfl⟩ | ⟨f2, m2, q2, e2, hq2, rfl⟩ |
          ⟨s', e2, rfl⟩ | ⟨s', e2, rfl⟩ | ⟨s', e2, hp, rfl⟩ <;> exact h
      | patcher =>
        obtain ⟨m, q, _, _, _, rfl⟩ := patcher_cases e
        cases m with
        | patch k => cases k <;> exact h
        | _ => exact h
    · right; left
      cases p with
      | client =>
        rcases client_cases e with ⟨m, c', e, hr, rfl⟩ | ⟨f, m, q, e, hq, rfl⟩ | ⟨c', e, rfl⟩ <;>
          exact h
      | server => simp [next, h, sAct] at e
      | patcher =>
        obtain ⟨m, q, _, _, _, rfl⟩ := patcher_cases e
        cases m with
        | patch k => cases k <;> exact h
        | _ => exact h
    · right; right
      cases p with
      | client =>
        rcases client_cases e with ⟨m, c', e, hr, rfl⟩ | ⟨f, m, q, e, hq, rfl⟩ | ⟨c', e, rfl⟩ <;>
          exact h
      | server =>
        rcases server_cases e with ⟨m2, s', e2, hr2, rfl⟩ | ⟨f2, m2, q2, e2, hq2, rfl⟩ |
          ⟨s', e2, rfl⟩ | ⟨s', e2, rfl⟩ | ⟨s', e2, hp, rfl⟩ <;> exact h
      | patcher =>
        obtain ⟨m, q, _, hf, _, rfl⟩ := patcher_cases e
        rw [h] at hf
        cases hf

/-! ## The theorems -/

/-- **C39.**  Whatever the options, the outcome of the comparison, the sizes of the messages' queues
and the interleaving of the threads: nobody ever receives a message of a type, or with an index,
other than the one expected at that point. -/
theorem C39_no_wrong_message (R : Rooms) (I : Input) (hI : I.OK) {n a}
    (h : Run R I n init a) : ¬ WrongMessage a := by
  obtain ⟨m, hd⟩ := path_done unlimited_OK hI unlimited_fits
  obtain ⟨k, _, hr⟩ := confluent unlimited_OK hd (stuck_done _) J_init h.unlimited
  intro hw
  rcases wrong_stays hr hw with h | h | h <;> cases h

/-- **C39.**  No session goes on for ever: the number of steps of any interleaving is bounded by a
number that depends on the input only. -/
theorem C39_bounded (I : Input) (hI : I.OK) :
    ∃ N, ∀ (R : Rooms) n a, Run R I n init a → n ≤ N := by
  obtain ⟨m, hd⟩ := path_done unlimited_OK hI unlimited_fits
  refine ⟨m, fun R n a h => ?_⟩
  obtain ⟨k, hk, _⟩ := confluent unlimited_OK hd (stuck_done _) J_init h.unlimited
  omega

/-- **C91**, the part that holds: if the diff of every changed file fits into the queues in the sense
of `Fits`, a session only ever stops when both sides have finished, and nothing is left over. -/
theorem C91_finishes_partial (R : Rooms) (hR : R.OK) (I : Input) (hI : I.OK)
    (hf : ∀ i ∈ I.changed, Fits R I i) {n a} (h : Run R I n init a) (hs : Stuck R I a) :
    Finished a := by
  obtain ⟨m, hd⟩ := path_done hR hI (.inr hf)
  obtain ⟨k, _, hr⟩ := confluent hR hd (stuck_done _) J_init h
  obtain ⟨_, rfl⟩ := hr.of_stuck hs
  exact ⟨rfl, rfl, rfl, rfl, rfl, rfl⟩

/-- **C91**, exactly when sessions finish: either it is a dry run, or the diff of every changed file
fits.  Otherwise every session ends with both sides blocked. -/
theorem C91_finishes_iff (R : Rooms) (hR : R.OK) (I : Input) (hI : I.OK) :
    (∀ n a, Run R I n init a → Stuck R I a → Finished a) ↔
      I.opts.dryRun = true ∨ ∀ i ∈ I.changed, Fits R I i := by
  constructor
  · intro h
    apply Classical.byContradiction
    intro hf
    obtain ⟨b, ⟨n, hp⟩, hs, hc, _⟩ := path_blocked hR hI hf
    exact hc (h n b hp hs).1
  · intro hf n a h hs
    obtain ⟨m, hd⟩ := path_done hR hI hf
    obtain ⟨k, _, hr⟩ := confluent hR hd (stuck_done _) J_init h
    obtain ⟨_, rfl⟩ := hr.of_stuck hs
    exact ⟨rfl, rfl, rfl, rfl, rfl, rfl⟩

end Verif.Protocol
