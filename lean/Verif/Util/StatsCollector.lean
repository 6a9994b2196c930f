import Mathlib.Order.Basic
import Mathlib.Data.List.Sort

/-! # The statistics collector (C213)

common/stats_collector.cc:27-105: any number of threads count and measure; one thread writes what was collected to the log every
second and starts again from nothing. Every access holds one mutex, so that a history is a list of events. Durations are counted in
nanoseconds; they are not rounded here, and do not saturate. Names are ordered as in a `std::map`; here they are of any ordered type. -/
namespace Verif.Util.StatsCollector

variable {N : Type} [LinearOrder N]

/-! ## Model -/

/-- `kStatsPrintPeriod`, stats_collector.cc:26 -/
def period : Nat := 1000000000

/-- `map[name] += v` for a `std::map`, stats_collector.cc:61, 75. -/
def add (f : Nat → Nat) (n : N) (v : Nat) : List (N × Nat) → List (N × Nat)
  | [] => [(n, f v)]
  | (m, x) :: l => if n < m then (n, f v) :: (m, x) :: l else if n = m then (m, f (x + v)) :: l else (m, x) :: add f n v l

/-- A `size_t`. -/
def wrap (x : Nat) : Nat := x % 2 ^ 64

/-- A line in the log: when, and what is shown. -/
structure Line (N : Type) where
  time : Nat
  counters : List (N × Nat)
  durations : List (N × Nat)
deriving DecidableEq

structure State (N : Type) where
  now : Nat := 0
  /-- the thread is in its loop -/
  started : Bool := false
  /-- start of the stopwatch `sw` -/
  start : Nat := 0
  /-- the condition of `Await` was seen to be true -/
  woken : Bool := false
  shutdown : Bool := false
  ended : Bool := false
  counters : List (N × Nat) := []
  durations : List (N × Nat) := []
  log : List (Line N) := []

inductive Event (N : Type) where
  /-- time passes -/
  | tick (d : Nat)
  /-- `IncCounter` -/
  | count (n : N) (v : Nat)
  /-- the end of a `DurationScope` -/
  | time (n : N) (d : Nat)
  /-- the thread takes the mutex for the first time -/
  | begin
  /-- `absl` looks at the condition without need -/
  | look
  /-- the thread goes on after `Await` -/
  | print
  /-- the destructor sets `shutdown_` -/
  | stop
  /-- the thread ends -/
  | exit

/-- What happens when the mutex is released: the condition in line 82 is looked at. -/
def release (s : State N) : State N :=
  { s with woken := s.woken || (s.started && (s.shutdown || decide (period ≤ s.now - s.start))) }

/-- One event, stats_collector.cc:43-105. Nothing is recorded any more once the destructor runs; `none` if the event cannot happen. -/
def step (s : State N) : Event N → Option (State N)
  | .tick d => some { s with now := s.now + d }
  | .count n v => if s.shutdown then none else some (release { s with counters := add wrap n v s.counters })
  | .time n d => if s.shutdown then none else some (release { s with durations := add id n d s.durations })
  | .begin => if s.started || s.shutdown then none else some { s with started := true, start := s.now }
  | .look => some (release s)
  | .print =>
    if s.woken = false ∨ s.shutdown = true then none
    else some { s with
      start := s.now
      woken := false
      counters := []
      durations := []
      log := if s.counters = [] ∧ s.durations = [] then s.log else s.log ++ [⟨s.now, s.counters, s.durations⟩] }
  | .stop => if s.shutdown then none else some (release { s with shutdown := true })
  | .exit => if s.shutdown = true ∧ (s.woken = true ∨ s.started = false) ∧ s.ended = false then some { s with ended := true } else none

def run : List (Event N) → State N → Option (State N)
  | [], s => some s
  | e :: es, s => (step s e).bind (run es)

/-! ## Specification -/

/-- What was counted under a name, and the time measured under it. -/
def counted (n : N) : List (Event N) → Nat
  | [] => 0
  | .count m v :: es => (if m = n then v else 0) + counted n es
  | _ :: es => counted n es

def measured (n : N) : List (Event N) → Nat
  | [] => 0
  | .time m d :: es => (if m = n then d else 0) + measured n es
  | _ :: es => measured n es

/-- What a list shows under a name. -/
def value (n : N) (l : List (N × Nat)) : Nat := (l.map fun p => if p.1 = n then p.2 else 0).sum

/-- What the log shows under a name, all lines together. -/
def shownCount (n : N) (log : List (Line N)) : Nat := (log.map fun l => value n l.counters).sum
def shownTime (n : N) (log : List (Line N)) : Nat := (log.map fun l => value n l.durations).sum

/-- Each name once, in order. -/
def Ordered (l : List (N × Nat)) : Prop := l.Pairwise fun a b => a.1 < b.1

/-! ## Proofs -/

theorem value_cons (n : N) (p : N × Nat) (l : List (N × Nat)) : value n (p :: l) = (if p.1 = n then p.2 else 0) + value n l := by
  simp [value]

theorem value_add_wrap (n m : N) (v : Nat) (l : List (N × Nat)) :
    value n (add wrap m v l) % 2 ^ 64 = (value n l + if m = n then v else 0) % 2 ^ 64 := by
  induction l with
  | nil => simp only [add, value_cons, wrap]; by_cases h : m = n <;> simp [h, value]
  | cons p l ih =>
    obtain ⟨k, x⟩ := p
    rw [add]
    split
    · simp only [value_cons, wrap]; by_cases h : m = n <;> simp [h] <;> omega
    · split
      · rename_i h; subst h
        simp only [value_cons, wrap]; by_cases h : m = n <;> simp [h]; omega
      · simp only [value_cons]; omega

theorem value_add_id (n m : N) (v : Nat) (l : List (N × Nat)) :
    value n (add id m v l) = value n l + if m = n then v else 0 := by
  induction l with
  | nil => simp only [add, value_cons, id]; by_cases h : m = n <;> simp [h, value]
  | cons p l ih =>
    obtain ⟨k, x⟩ := p
    rw [add]
    split
    · simp only [value_cons, id]; by_cases h : m = n <;> simp [h]; omega
    · split
      · rename_i h; subst h
        simp only [value_cons, id]; by_cases h : m = n <;> simp [h]; omega
      · simp only [value_cons, ih]; omega

theorem names_add (f : Nat → Nat) (m : N) (v : Nat) (l : List (N × Nat)) (p : N × Nat) (h : p ∈ add f m v l) :
    p.1 = m ∨ ∃ q ∈ l, q.1 = p.1 := by
  induction l with
  | nil => simp only [add, List.mem_singleton] at h; subst h; exact .inl rfl
  | cons q l ih =>
    obtain ⟨k, x⟩ := q
    rw [add] at h
    split at h
    · rcases List.mem_cons.1 h with rfl | h
      · exact .inl rfl
      · exact .inr ⟨p, h, rfl⟩
    · split at h
      · rename_i hk
        rcases List.mem_cons.1 h with rfl | h
        · exact .inl hk.symm
        · exact .inr ⟨p, List.mem_cons_of_mem _ h, rfl⟩
      · rcases List.mem_cons.1 h with rfl | h
        · exact .inr ⟨_, List.mem_cons_self, rfl⟩
        · exact (ih h).imp id fun ⟨q, hq, e⟩ => ⟨q, List.mem_cons_of_mem _ hq, e⟩

theorem ordered_add (f : Nat → Nat) (m : N) (v : Nat) (l : List (N × Nat)) (h : Ordered l) : Ordered (add f m v l) := by
  induction l with
  | nil => exact List.pairwise_singleton _ _
  | cons q l ih =>
    obtain ⟨k, x⟩ := q
    have h1 := List.pairwise_cons.1 h
    rw [add]
    split
    · rename_i hk
      refine List.pairwise_cons.2 ⟨fun p hp => ?_, h⟩
      rcases List.mem_cons.1 hp with rfl | hp
      · exact hk
      · exact lt_trans hk (h1.1 p hp)
    · split
      · exact List.pairwise_cons.2 ⟨h1.1, h1.2⟩
      · rename_i h2 h3
        refine List.pairwise_cons.2 ⟨fun p hp => ?_, ih h1.2⟩
        rcases names_add f m v l p hp with e | ⟨q, hq, e⟩
        · show k < p.1
          rw [e]; exact lt_of_le_of_ne (not_lt.1 h2) (Ne.symm h3)
        · show k < p.1
          rw [← e]; exact h1.1 q hq

structure Inv (es : List (Event N)) (s : State N) : Prop where
  counters : ∀ n, (shownCount n s.log + value n s.counters) % 2 ^ 64 = counted n es % 2 ^ 64
  durations : ∀ n, shownTime n s.log + value n s.durations = measured n es
  ordered : Ordered s.counters ∧ Ordered s.durations ∧ ∀ l ∈ s.log, Ordered l.counters ∧ Ordered l.durations
  namesC : ∀ p, (p ∈ s.counters ∨ ∃ l ∈ s.log, p ∈ l.counters) → ∃ v, Event.count p.1 v ∈ es
  namesD : ∀ p, (p ∈ s.durations ∨ ∃ l ∈ s.log, p ∈ l.durations) → ∃ d, Event.time p.1 d ∈ es
  spaced : s.log.Pairwise fun a b => a.time + period ≤ b.time
  last : ∀ l ∈ s.log, l.time ≤ s.start
  woken : s.woken = true → s.started = true ∧ (s.shutdown = true ∨ s.start + period ≤ s.now)
  startLe : s.start ≤ s.now
  notStarted : s.started = false → s.log = []

theorem counted_snoc (n : N) (es : List (Event N)) (e : Event N) : counted n (es ++ [e]) = counted n es + counted n [e] := by
  induction es with
  | nil => simp [counted]
  | cons x es ih => cases x <;> simp only [List.cons_append, counted, ih] <;> omega

theorem measured_snoc (n : N) (es : List (Event N)) (e : Event N) : measured n (es ++ [e]) = measured n es + measured n [e] := by
  induction es with
  | nil => simp [measured]
  | cons x es ih => cases x <;> simp only [List.cons_append, measured, ih] <;> omega

theorem inv_mono {es : List (Event N)} {s : State N} (h : Inv es s) (e : Event N) (hc : ∀ n, counted n [e] = 0) (hm : ∀ n, measured n [e] = 0) :
    Inv (es ++ [e]) s where
  counters n := by rw [counted_snoc, hc, h.counters]; rfl
  durations n := by rw [measured_snoc, hm, h.durations]; rfl
  ordered := h.ordered
  namesC p hp := (h.namesC p hp).imp fun _ hv => List.mem_append_left _ hv
  namesD p hp := (h.namesD p hp).imp fun _ hv => List.mem_append_left _ hv
  spaced := h.spaced
  last := h.last
  woken := h.woken
  startLe := h.startLe
  notStarted := h.notStarted

theorem inv_release {es : List (Event N)} {s : State N} (h : Inv es s) : Inv es (release s) := by
  refine { h with woken := fun hw => ?_ }
  simp only [release, Bool.or_eq_true, Bool.and_eq_true, decide_eq_true_eq] at hw
  rcases hw with hw | ⟨h1, h2 | h2⟩
  · exact h.woken hw
  · exact ⟨h1, .inl h2⟩
  · have := h.startLe
    have hp : 0 < period := by decide
    exact ⟨h1, .inr (by show s.start + period ≤ s.now; omega)⟩

theorem inv_step {es : List (Event N)} {s t : State N} (h : Inv es s) (e : Event N) (hs : step s e = some t) : Inv (es ++ [e]) t := by
  cases e with
  | tick d =>
    cases hs
    refine inv_mono ?_ _ (fun _ => rfl) (fun _ => rfl)
    refine { h with woken := fun hw => ⟨(h.woken hw).1, (h.woken hw).2.imp id fun h1 => ?_⟩, startLe := ?_ }
    · show s.start + period ≤ s.now + d; omega
    · show s.start ≤ s.now + d; have := h.startLe; omega
  | count n v =>
    simp only [step] at hs
    split at hs
    · cases hs
    · cases hs
      refine inv_release { h with counters := fun m => ?_, durations := fun m => ?_, ordered := ?_, namesC := fun p hp => ?_, namesD := fun p hp => ?_ }
      · have h1 := h.counters m
        have h2 := value_add_wrap m n v s.counters
        rw [counted_snoc]
        show (shownCount m s.log + value m (add wrap n v s.counters)) % _ = _
        simp only [counted]
        omega
      · rw [measured_snoc]; exact h.durations m
      · exact ⟨ordered_add _ _ _ _ h.ordered.1, h.ordered.2⟩
      · rcases hp with hp | hp
        · rcases names_add wrap n v s.counters p hp with e | ⟨q, hq, e⟩
          · exact ⟨v, by rw [e]; simp⟩
          · rw [← e]; exact (h.namesC q (.inl hq)).imp fun _ hv => List.mem_append_left _ hv
        · exact (h.namesC p (.inr hp)).imp fun _ hv => List.mem_append_left _ hv
      · exact (h.namesD p hp).imp fun _ hv => List.mem_append_left _ hv
  | time n d =>
    simp only [step] at hs
    split at hs
    · cases hs
    · cases hs
      refine inv_release { h with counters := fun m => ?_, durations := fun m => ?_, ordered := ?_, namesC := fun p hp => ?_, namesD := fun p hp => ?_ }
      · rw [counted_snoc]; exact h.counters m
      · have h1 := h.durations m
        have h2 := value_add_id m n d s.durations
        rw [measured_snoc]
        show shownTime m s.log + value m (add id n d s.durations) = _
        simp only [measured]
        omega
      · exact ⟨h.ordered.1, ordered_add _ _ _ _ h.ordered.2.1, h.ordered.2.2⟩
      · exact (h.namesC p hp).imp fun _ hv => List.mem_append_left _ hv
      · rcases hp with hp | hp
        · rcases names_add id n d s.durations p hp with e | ⟨q, hq, e⟩
          · exact ⟨d, by rw [e]; simp⟩
          · rw [← e]; exact (h.namesD q (.inl hq)).imp fun _ hv => List.mem_append_left _ hv
        · exact (h.namesD p (.inr hp)).imp fun _ hv => List.mem_append_left _ hv
  | begin =>
    simp only [step] at hs
    split at hs
    · cases hs
    · rename_i hc
      cases hs
      have hns : s.started = false := by
        cases hb : s.started <;> simp_all
      refine inv_mono ?_ _ (fun _ => rfl) (fun _ => rfl)
      refine { h with last := ?_, woken := ?_, startLe := Nat.le_refl _, notStarted := fun h => nomatch h }
      · intro l hl; rw [show _ = s.log from rfl, h.notStarted hns] at hl; cases hl
      · intro hw
        have := (h.woken hw).1
        rw [hns] at this; cases this
  | look => cases hs; exact inv_mono (inv_release h) .look (fun _ => rfl) (fun _ => rfl)
  | print =>
    simp only [step] at hs
    split at hs
    · cases hs
    · rename_i hc
      cases hs
      have hw : s.woken = true := by cases hb : s.woken <;> simp_all
      have hsh : s.shutdown = false := by cases hb : s.shutdown <;> simp_all
      obtain ⟨hst, hpd⟩ := h.woken hw
      have hpd : s.start + period ≤ s.now := by rcases hpd with h | h <;> simp_all
      refine inv_mono ?_ _ (fun _ => rfl) (fun _ => rfl)
      by_cases he : s.counters = [] ∧ s.durations = []
      · simp only [he.1, he.2, and_self, if_true]
        exact
          { counters := by have := h.counters; rw [he.1] at this; exact this
            durations := by have := h.durations; rw [he.2] at this; exact this
            ordered := by have := h.ordered; rw [he.1, he.2] at this; exact this
            namesC := by have := h.namesC; rw [he.1] at this; exact this
            namesD := by have := h.namesD; rw [he.2] at this; exact this
            spaced := h.spaced
            last := fun l hl => Nat.le_trans (h.last l hl) h.startLe
            woken := fun h => nomatch h
            startLe := Nat.le_refl _
            notStarted := h.notStarted }
      · rw [if_neg he]
        refine ⟨fun n => ?_, fun n => ?_, ⟨.nil, .nil, fun l hl => ?_⟩, fun p hp => h.namesC p ?_, fun p hp => h.namesD p ?_, ?_, fun l hl => ?_,
          (fun h => nomatch h), Nat.le_refl _, fun hn => ?_⟩
        · have := h.counters n
          simp only [shownCount, List.map_append, List.map_cons, List.map_nil, List.sum_append, List.sum_cons, List.sum_nil] at this ⊢
          simpa [value] using this
        · have := h.durations n
          simp only [shownTime, List.map_append, List.map_cons, List.map_nil, List.sum_append, List.sum_cons, List.sum_nil] at this ⊢
          simpa [value] using this
        · rcases List.mem_append.1 hl with hl | hl
          · exact h.ordered.2.2 l hl
          · rw [List.mem_singleton.1 hl]; exact ⟨h.ordered.1, h.ordered.2.1⟩
        · rcases hp with hp | ⟨l, hl, hp⟩
          · cases hp
          · rcases List.mem_append.1 hl with hl | hl
            · exact .inr ⟨l, hl, hp⟩
            · rw [List.mem_singleton.1 hl] at hp; exact .inl hp
        · rcases hp with hp | ⟨l, hl, hp⟩
          · cases hp
          · rcases List.mem_append.1 hl with hl | hl
            · exact .inr ⟨l, hl, hp⟩
            · rw [List.mem_singleton.1 hl] at hp; exact .inl hp
        · refine List.pairwise_append.2 ⟨h.spaced, List.pairwise_singleton _ _, fun a ha b hb => ?_⟩
          rw [List.mem_singleton.1 hb]
          have := h.last a ha
          show a.time + period ≤ s.now
          omega
        · rcases List.mem_append.1 hl with hl | hl
          · exact Nat.le_trans (h.last l hl) h.startLe
          · rw [List.mem_singleton.1 hl]
        · have hn : s.started = false := hn
          rw [hst] at hn; cases hn
  | stop =>
    simp only [step] at hs
    split at hs
    · cases hs
    · cases hs
      refine inv_mono (inv_release ?_) _ (fun _ => rfl) (fun _ => rfl)
      exact { h with woken := fun hw => ⟨(h.woken hw).1, .inl rfl⟩ }
  | exit =>
    simp only [step] at hs
    split at hs
    · cases hs
      exact inv_mono (s := { s with ended := true }) { h with } Event.exit (fun _ => rfl) (fun _ => rfl)
    · cases hs

theorem inv_run {es fs : List (Event N)} {s t : State N} (h : Inv es s) (hr : run fs s = some t) : Inv (es ++ fs) t := by
  induction fs generalizing es s with
  | nil => cases hr; rw [List.append_nil]; exact h
  | cons e fs ih =>
    rw [run] at hr
    cases hs : step s e with
    | none => rw [hs] at hr; cases hr
    | some u =>
      rw [hs] at hr
      have := ih (inv_step h e hs) hr
      rwa [List.append_assoc] at this

theorem inv_init : Inv ([] : List (Event N)) {} where
  counters _ := rfl
  durations _ := rfl
  ordered := ⟨.nil, .nil, fun _ h => nomatch h⟩
  namesC p hp := by rcases hp with h | ⟨l, h, _⟩ <;> cases h
  namesD p hp := by rcases hp with h | ⟨l, h, _⟩ <;> cases h
  spaced := .nil
  last _ h := nomatch h
  woken h := nomatch h
  startLe := Nat.le_refl _
  notStarted _ := rfl

/-- **C213, each thing once.** For every history and every name: what the log shows and what is still collected make up what was
recorded, exactly for durations, and for counters modulo 2^64. Missing: that all is shown in the end, see `C213_lost_violated`. -/
theorem C213_shown_once_partial (es : List (Event N)) (s : State N) (h : run es {} = some s) (n : N) :
    (shownCount n s.log + value n s.counters) % 2 ^ 64 = counted n es % 2 ^ 64 ∧
    shownTime n s.log + value n s.durations = measured n es := by
  have := inv_run inv_init h
  exact ⟨this.counters n, this.durations n⟩

/-- **C213, the lines.** Each line shows every name once, in order, and only names under which something was recorded; there is at least
a second between two lines. -/
theorem C213_lines (es : List (Event N)) (s : State N) (h : run es {} = some s) :
    (∀ l ∈ s.log, Ordered l.counters ∧ Ordered l.durations ∧ (∀ p ∈ l.counters, ∃ v, Event.count p.1 v ∈ es) ∧
      ∀ p ∈ l.durations, ∃ d, Event.time p.1 d ∈ es) ∧
    s.log.Pairwise fun a b => a.time + period ≤ b.time := by
  have := inv_run inv_init h
  exact ⟨fun l hl => ⟨(this.ordered.2.2 l hl).1, (this.ordered.2.2 l hl).2, fun p hp => this.namesC p (.inr ⟨l, hl, hp⟩),
    fun p hp => this.namesD p (.inr ⟨l, hl, hp⟩)⟩, this.spaced⟩

/-- **C213, the end.** Once the destructor runs, the thread can end and the destructor returns. -/
theorem C213_ends (es : List (Event N)) (s : State N) (h : run es {} = some s) (hs : s.shutdown = true) :
    s.ended = true ∨ (step s .exit).isSome = true := by
  have key : ∀ (fs es : List (Event N)) (s t : State N), Inv es s → (s.shutdown = true → s.woken = true ∨ s.started = false) →
      run fs s = some t → (t.shutdown = true → t.woken = true ∨ t.started = false) := by
    intro fs
    induction fs with
    | nil => intro es s t _ h hr; cases hr; exact h
    | cons e fs ih =>
      intro es s t hi h hr
      rw [run] at hr
      cases hst : step s e with
      | none => rw [hst] at hr; cases hr
      | some u =>
        rw [hst] at hr
        refine ih _ u t (inv_step hi e hst) ?_ hr
        cases e with
        | tick d => cases hst; exact h
        | count n v =>
          simp only [step] at hst
          split at hst
          · cases hst
          · rename_i hc; cases hst; intro hx; exact absurd hx hc
        | time n v =>
          simp only [step] at hst
          split at hst
          · cases hst
          · rename_i hc; cases hst; intro hx; exact absurd hx hc
        | begin =>
          simp only [step] at hst
          split at hst
          · cases hst
          · rename_i hc; cases hst; intro hx
            have hx : s.shutdown = true := hx
            rw [hx] at hc; simp at hc
        | look =>
          cases hst
          intro hx
          refine (h hx).imp (fun hw => ?_) id
          simp [release, hw]
        | print =>
          simp only [step] at hst
          split at hst
          · cases hst
          · rename_i hc; cases hst; intro hx
            have hx : s.shutdown = true := hx
            exact absurd (.inr hx) hc
        | stop =>
          simp only [step] at hst
          split at hst
          · cases hst
          · cases hst
            intro _
            cases hb : s.started with
            | false => exact .inr rfl
            | true => left; simp [release]
        | exit =>
          simp only [step] at hst
          split at hst
          · rename_i hc; cases hst; exact fun _ => hc.2.1
          · cases hst
  cases he : s.ended with
  | true => exact .inl rfl
  | false =>
    right
    simp only [step]
    rw [if_pos ⟨hs, key es [] {} s inv_init (fun h => nomatch h) h hs, he⟩]
    rfl

/-- **C213, violated at the end.** What was recorded since the last line is lost when the collector is destroyed: for every name and value
there is a complete run in which nothing was shown, and the time since then can be as long as one likes. -/
theorem C213_lost_violated (n : N) (v d : Nat) : ∃ s, run [.begin, .count n v, .tick d, .stop, .exit] ({} : State N) = some s ∧
    s.ended = true ∧ s.log = [] ∧ counted n [.begin, .count n v, .tick d, .stop, .exit] = v := by
  refine ⟨⟨d, true, 0, true, true, true, [(n, wrap v)], [], []⟩, ?_, rfl, rfl, by simp [counted]⟩
  simp [run, step, release, add]

/-- **C213, violated while it runs.** The condition also depends on the time, but it is only looked at when the mutex is released: if
nothing more is recorded, what was recorded in the last second is never shown, however long one waits. -/
theorem C213_never_shown_violated (s t : State N) (es : List (Event N)) (hw : s.woken = false)
    (hes : ∀ e ∈ es, (∃ d, e = .tick d) ∨ e = .stop ∨ e = .exit ∨ e = .print) (hr : run es s = some t) : t.log = s.log := by
  have key : ∀ (es : List (Event N)) (s t : State N), (s.woken = false ∨ s.shutdown = true) →
      (∀ e ∈ es, (∃ d, e = .tick d) ∨ e = .stop ∨ e = .exit ∨ e = .print) → run es s = some t → t.log = s.log := by
    intro es
    induction es with
    | nil => intro s t _ _ hr; cases hr; rfl
    | cons e es ih =>
      intro s t hw he hr
      rw [run] at hr
      have hes := fun e h => he e (List.mem_cons_of_mem _ h)
      rcases he e List.mem_cons_self with ⟨d, rfl⟩ | rfl | rfl | rfl
      · exact ih { s with now := s.now + d } t hw hes hr
      · simp only [step] at hr
        split at hr
        · cases hr
        · exact ih (release { s with shutdown := true }) t (.inr rfl) hes hr
      · simp only [step] at hr
        split at hr
        · exact ih { s with ended := true } t hw hes hr
        · cases hr
      · simp only [step] at hr
        rw [if_pos hw] at hr
        cases hr
  exact key es s t (.inl hw) hes hr

/-- A history: three threads count and measure, two lines are shown; the last count is not. -/
example : (run [.begin, .count 2 5, .tick 400000000, .count 1 7, .count 2 6, .time 3 12, .tick 700000000, .count 2 1, .print, .tick 10, .count 9 9, .tick 1000000000,
    .time 3 5, .print, .tick 4, .count 2 8, .stop, .exit] ({} : State Nat)).map (fun s => (s.log, s.counters, s.ended)) =
    some ([⟨1100000000, [(1, 7), (2, 12)], [(3, 12)]⟩, ⟨2100000010, [(9, 9)], [(3, 5)]⟩], [(2, 8)], true) := by decide +kernel

/-- The state after a count can wait for ever. -/
example : (run [.begin, .count 2 5, .tick 900000000000] ({} : State Nat)).map (fun s => (s.woken, s.counters)) = some (false, [(2, 5)]) := by decide +kernel

end Verif.Util.StatsCollector
