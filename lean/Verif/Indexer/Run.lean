import Verif.Indexer.Spec
import Verif.FastCdc.Props

/-! The indexer: proofs for C136, C137 and C141. -/
namespace Verif.Indexer
open Verif Verif.DirIter
set_option linter.unusedSectionVars false

/-! ### Jobs -/

def iterJobs (i : Option (Name × DirIter.State)) : List Job :=
  match i with
  | some (p, d) => if d.ok then (remaining true false true d.dirs).map fun e => ⟨p, some e⟩ else []
  | none => []

/-- The jobs not given out yet. -/
def Jobs.pending (s : Jobs) : List Job := iterJobs s.iter ++ filesOf s.inputs

structure JGood (s : Jobs) : Prop where
  iter : ∀ p d, s.iter = some (p, d) → d.ok = true → Good d ∧ AllRest Entries.Kinds d ∧ d.files = true ∧ d.dirsWanted = false ∧ d.recursive = true
  inputs : ∀ i ∈ s.inputs, i.Kinds

structure JReadable (s : Jobs) : Prop where
  iter : ∀ p d, s.iter = some (p, d) → d.ok = true → AllRest Entries.Readable d
  inputs : ∀ i ∈ s.inputs, i.Readable

/-- There is nothing at the path of the input, or it cannot be opened for another reason than permissions. -/
def Input.Missing (i : Input) : Prop :=
  match i.found with
  | .dir .error _ => True
  | _ => False

theorem iterJobs_invalid {s : Jobs} (h : ¬ s.Valid) : iterJobs s.iter = [] := by
  unfold iterJobs
  match hi : s.iter with
  | none => rfl
  | some (p, d) =>
    show (if d.ok = true then _ else _) = _
    split
    · next ho =>
      by_cases hd : d.dirs = []
      · rw [hd]; rfl
      · exact absurd ⟨p, d, hi, ho, hd⟩ h
    · rfl

theorem get_spec {s s' : Jobs} {o : Option Job} {e : Bool} (h : Get s o e s') (hg : JGood s) :
    JGood s' ∧ (e = false → s.pending = o.toList ++ s'.pending) ∧ (e = true → o = none) ∧ (o = none → e = false → s.pending = []) ∧
    (JReadable s → e = false ∧ JReadable s') ∧ (∃ t, s.pending = t ++ s'.pending) ∧
    (e = false → (∀ i ∈ s.inputs, i.Missing → i ∈ s'.inputs) ∧ (o = none → s'.inputs = [] ∧ s'.pending = [])) := by
  induction h with
  | done s hv hi =>
    have : s.pending = [] := by unfold Jobs.pending; rw [iterJobs_invalid hv, hi]; rfl
    exact ⟨hg, fun _ => rfl, (fun h => nomatch h), fun _ _ => this, fun hr => ⟨rfl, hr⟩, ⟨[], rfl⟩, fun _ => ⟨fun i h _ => h, fun _ => ⟨hi, this⟩⟩⟩
  | file s p is hv hi =>
    have hg2 := hg.inputs
    rw [hi] at hg2
    refine ⟨⟨hg.iter, fun i h => hg2 i (List.mem_cons_of_mem _ h)⟩, fun _ => ?_, (fun h => nomatch h), (fun h => nomatch h), fun hr => ⟨rfl, hr.iter, ?_⟩, ⟨[⟨p, none⟩], ?_⟩, fun _ => ⟨fun i h hm => ?_, (fun h => nomatch h)⟩⟩
    · unfold Jobs.pending
      rw [iterJobs_invalid hv, hi]; rfl
    · have hr2 := hr.inputs
      rw [hi] at hr2
      exact fun i h => hr2 i (List.mem_cons_of_mem _ h)
    · unfold Jobs.pending
      rw [iterJobs_invalid hv, hi]; rfl
    · rw [hi] at h
      rcases List.mem_cons.mp h with rfl | h
      · exact hm.elim
      · exact h
  | denied s s' p es is d o e hv hi hd hn ih =>
    have hg2 := hg.inputs
    rw [hi] at hg2
    have k : ∀ p' d', (some (p, d) : Option (Name × DirIter.State)) = some (p', d') → d'.ok = true → False := by
      intro p' d' h h'; cases h; rw [hd] at h'; cases h'
    obtain ⟨h1, h2, h3, h4, h5, h6, h7⟩ := ih ⟨fun p' d' h h' => (k p' d' h h').elim, fun i h => hg2 i (List.mem_cons_of_mem _ h)⟩
    have hp : s.pending = Jobs.pending ⟨is, some (p, d)⟩ := by
      unfold Jobs.pending
      rw [iterJobs_invalid hv, hi]
      show filesOf _ = (if d.ok = true then _ else _) ++ _
      rw [hd]; rfl
    rw [hp]
    refine ⟨h1, h2, h3, h4, fun hr => h5 ⟨fun p' d' h h' => (k p' d' h h').elim, ?_⟩, h6, fun he => ⟨fun i h hm => ?_, (h7 he).2⟩⟩
    · have hr2 := hr.inputs
      rw [hi] at hr2
      exact fun i h => hr2 i (List.mem_cons_of_mem _ h)
    · rw [hi] at h
      rcases List.mem_cons.mp h with rfl | h
      · exact hm.elim
      · exact (h7 he).1 i h hm
  | error s p es is d hv hi hd =>
    have hg2 := hg.inputs
    rw [hi] at hg2
    refine ⟨⟨fun p' d' h h' => ?_, fun i h => hg2 i (List.mem_cons_of_mem _ h)⟩, (fun h => nomatch h), fun _ => rfl, (fun _ h => nomatch h), fun hr => ?_, ⟨[], ?_⟩, (fun h => nomatch h)⟩
    · cases h; rw [hd] at h'; cases h'
    · exact absurd (hr.inputs ⟨p, .dir .error es⟩ (hi ▸ List.mem_cons_self)) id
    · unfold Jobs.pending
      rw [iterJobs_invalid hv, hi]
      show filesOf _ = [] ++ ((if d.ok = true then _ else _) ++ _)
      rw [hd]; rfl
  | opened s s' p name ptr es is o e hv hi hptr hn ih =>
    have hg2 := hg.inputs
    rw [hi] at hg2
    obtain ⟨h1, h2, h3, h4, h5, h6, h7⟩ := ih ⟨fun p' d' h h' => by
      cases h
      refine ⟨opened_good true false true ptr hptr name es, fun o ho => ?_, rfl, rfl, rfl⟩
      rw [List.mem_singleton.mp ho]
      exact hg2 ⟨p, .dir .ok es⟩ List.mem_cons_self, fun i h => hg2 i (List.mem_cons_of_mem _ h)⟩
    have hp : s.pending = Jobs.pending ⟨is, some (p, DirIter.opened true false true ptr name es)⟩ := by
      unfold Jobs.pending
      rw [iterJobs_invalid hv, hi]
      show (es.listing true false true []).map (fun e => Job.mk p (some e)) ++ filesOf is = List.map _ (es.listing true false true [] ++ []) ++ filesOf is
      rw [List.append_nil]
    rw [hp]
    refine ⟨h1, h2, h3, h4, fun hr => h5 ⟨fun p' d' h h' => ?_, ?_⟩, h6, fun he => ⟨fun i h hm => ?_, (h7 he).2⟩⟩
    · cases h
      intro o ho
      rw [List.mem_singleton.mp ho]
      exact hr.inputs ⟨p, .dir .ok es⟩ (hi ▸ List.mem_cons_self)
    · have hr2 := hr.inputs
      rw [hi] at hr2
      exact fun i h => hr2 i (List.mem_cons_of_mem _ h)
    · rw [hi] at h
      rcases List.mem_cons.mp h with rfl | h
      · exact hm.elim
      · exact (h7 he).1 i h hm
  | entry s p d d' x hi hv hn =>
    obtain ⟨p0, d0, h0, hok, hne⟩ := hv
    rw [hi] at h0; cases h0
    obtain ⟨g1, g2, g3, g4, g5⟩ := hg.iter p d hi hok
    obtain ⟨n1, n2, n3, n4, n5, n6, n7⟩ := next_spec hn g1 g2
    rw [g3, g4, g5] at n3 n4
    have hok' : d'.ok = true := by
      cases ho : d'.ok with
      | true => rfl
      | false => exact absurd (n5 ho) (by simp)
    have hpe : s.pending = [⟨p, some x⟩] ++ Jobs.pending { s with iter := some (p, d') } := by
      unfold Jobs.pending iterJobs
      rw [hi]
      show (if d.ok = true then _ else _) ++ _ = [_] ++ ((if d'.ok = true then _ else _) ++ _)
      rw [if_pos hok, if_pos hok', n4 hok']
      simp
    refine ⟨⟨fun p' d'' h _ => by cases h; exact ⟨n1, n2, n3⟩, hg.inputs⟩, fun _ => ?_, (fun h => nomatch h), (fun h => nomatch h), fun hr => ⟨rfl, fun p' d'' h _ => by cases h; exact (n6 (hr.iter p d hi hok) hok).2, hr.inputs⟩, ⟨_, hpe⟩, fun _ => ⟨fun i h _ => h, (fun h => nomatch h)⟩⟩
    exact hpe
  | failed s p d d' hi hv hn hok' =>
    obtain ⟨p0, d0, h0, hok, hne⟩ := hv
    rw [hi] at h0; cases h0
    obtain ⟨g1, g2, g3, g4, g5⟩ := hg.iter p d hi hok
    obtain ⟨n1, n2, n3, n4, n5, n6, n7⟩ := next_spec hn g1 g2
    refine ⟨⟨(fun p' d'' h h' => by cases h; rw [hok'] at h'; cases h'), hg.inputs⟩, (fun h => nomatch h), fun _ => rfl, (fun _ h => nomatch h), fun hr => ?_, ⟨iterJobs s.iter, ?_⟩, (fun h => nomatch h)⟩
    · have := (n6 (hr.iter p d hi hok) hok).1
      rw [hok'] at this; cases this
    · show _ ++ _ = _ ++ ((if d'.ok = true then _ else _) ++ _)
      rw [hok']; rfl
  | finished s s' p d d' o e hi hv hn hok' hget ih =>
    obtain ⟨p0, d0, h0, hok, hne⟩ := hv
    rw [hi] at h0; cases h0
    obtain ⟨g1, g2, g3, g4, g5⟩ := hg.iter p d hi hok
    obtain ⟨n1, n2, n3, n4, n5, n6, n7⟩ := next_spec hn g1 g2
    rw [g3, g4, g5] at n3 n4
    obtain ⟨h1, h2, h3, h4, h5, h6, h7⟩ := ih ⟨fun p' d'' h _ => by cases h; exact ⟨n1, n2, n3⟩, hg.inputs⟩
    have hp : s.pending = Jobs.pending { s with iter := some (p, d') } := by
      unfold Jobs.pending iterJobs
      rw [hi]
      show (if d.ok = true then _ else _) ++ _ = ((if d'.ok = true then _ else _) ++ _)
      rw [if_pos hok, if_pos hok', n4 hok']
      rfl
    rw [hp]
    exact ⟨h1, h2, h3, h4, fun hr => h5 ⟨fun p' d'' h _ => by cases h; exact (n6 (hr.iter p d hi hok) hok).2, hr.inputs⟩, h6, h7⟩

/-- If there is no error then what was to be read is readable, if what is left is. -/
theorem get_back {s s' : Jobs} {o : Option Job} {e : Bool} (h : Get s o e s') (hg : JGood s) (he : e = false) : (JReadable s' → JReadable s) ∧ (o = none → JReadable s') := by
  have hno : ∀ {s : Jobs}, ¬ s.Valid → ∀ p d, s.iter = some (p, d) → d.ok = true → AllRest Entries.Readable d := by
    intro s hv p d hi ho x hx
    exact absurd ⟨p, d, hi, ho, List.ne_nil_of_mem hx⟩ hv
  induction h with
  | done s hv hi =>
    refine ⟨id, fun _ => ⟨hno hv, fun i h => ?_⟩⟩
    rw [hi] at h; cases h
  | file s p is hv hi =>
    refine ⟨fun hr => ⟨hno hv, fun i h => ?_⟩, (fun h => nomatch h)⟩
    rw [hi] at h
    rcases List.mem_cons.mp h with rfl | h
    · trivial
    · exact hr.inputs i h
  | denied s s' p es is d o e hv hi hd hn ih =>
    have hg2 := hg.inputs
    rw [hi] at hg2
    obtain ⟨h1, h2⟩ := ih ⟨fun p' d' h h' => (by cases h; rw [hd] at h'; cases h'), fun i h => hg2 i (List.mem_cons_of_mem _ h)⟩ he
    refine ⟨fun hr => ⟨hno hv, fun i h => ?_⟩, h2⟩
    rw [hi] at h
    rcases List.mem_cons.mp h with rfl | h
    · trivial
    · exact (h1 hr).inputs i h
  | error => cases he
  | opened s s' p name ptr es is o e hv hi hptr hn ih =>
    have hg2 := hg.inputs
    rw [hi] at hg2
    obtain ⟨h1, h2⟩ := ih ⟨fun p' d' h h' => by
      cases h
      refine ⟨opened_good true false true ptr hptr name es, fun o ho => ?_, rfl, rfl, rfl⟩
      rw [List.mem_singleton.mp ho]
      exact hg2 ⟨p, .dir .ok es⟩ List.mem_cons_self, fun i h => hg2 i (List.mem_cons_of_mem _ h)⟩ he
    refine ⟨fun hr => ⟨hno hv, fun i h => ?_⟩, h2⟩
    rw [hi] at h
    rcases List.mem_cons.mp h with rfl | h
    · exact (h1 hr).iter p _ rfl rfl _ List.mem_cons_self
    · exact (h1 hr).inputs i h
  | entry s p d d' x hi hv hn =>
    obtain ⟨p0, d0, h0, hok, hne⟩ := hv
    rw [hi] at h0; cases h0
    obtain ⟨g1, g2, g3, g4, g5⟩ := hg.iter p d hi hok
    have hok' : d'.ok = true := by
      cases ho : d'.ok with
      | true => rfl
      | false => exact absurd ((next_spec hn g1 g2).2.2.2.2.1 ho) (by simp)
    refine ⟨fun hr => ⟨fun p1 d1 h1 _ => ?_, hr.inputs⟩, (fun h => nomatch h)⟩
    rw [hi] at h1; cases h1
    exact next_back hn g1 g2 g5 hok' (hr.iter p d' rfl hok')
  | failed => cases he
  | finished s s' p d d' o e hi hv hn hok' hget ih =>
    obtain ⟨p0, d0, h0, hok, hne⟩ := hv
    rw [hi] at h0; cases h0
    obtain ⟨g1, g2, g3, g4, g5⟩ := hg.iter p d hi hok
    obtain ⟨n1, n2, n3, n4, n5, n6, n7⟩ := next_spec hn g1 g2
    rw [g3, g4, g5] at n3 n4
    obtain ⟨h1, h2⟩ := ih ⟨fun p' d'' h _ => by cases h; exact ⟨n1, n2, n3⟩, hg.inputs⟩ he
    refine ⟨fun hr => ⟨fun p1 d1 h1' _ => ?_, (h1 hr).inputs⟩, h2⟩
    rw [hi] at h1'; cases h1'
    exact next_back hn g1 g2 g5 hok' ((h1 hr).iter p d' rfl hok')

theorem get_inputs {s s' : Jobs} {o : Option Job} {e : Bool} (h : Get s o e s') : s.inputs = [] → s'.inputs = [] := by
  induction h with
  | done => exact id
  | file s p is hv hi => intro h; rw [hi] at h; cases h
  | denied s s' p es is d o e hv hi => intro h; rw [hi] at h; cases h
  | error s p es is d hv hi => intro h; rw [hi] at h; cases h
  | opened s s' p name ptr es is o e hv hi => intro h; rw [hi] at h; cases h
  | entry => exact id
  | failed => exact id
  | finished s s' p d d' o e hi hv hn hok hg ih => exact ih

theorem next_exists (d : DirIter.State) : ∃ o d', Next d o d' := by
  obtain ⟨l, s, h⟩ := C134_terminates.2 d
  cases h with
  | last h => exact ⟨_, _, h⟩
  | entry h _ => exact ⟨_, _, h⟩

theorem next_done {d d' : DirIter.State} {o : Option Entry} (h : Next d o d') : o = none → d'.ok = true → d'.dirs = [] := by
  induction h with
  | bad s hb => intro _ h; rw [hb] at h; cases h
  | done s _ hd => exact fun _ _ => hd
  | found => exact fun h => nomatch h
  | more _ _ _ ih => exact ih

/-- `GetNextJob` always has a result. -/
theorem get_exists (inputs : List Input) : ∀ iter, ∃ o e s', Get ⟨inputs, iter⟩ o e s' := by
  have step : ∀ (inputs : List Input), (∀ iter, ¬ (Jobs.mk inputs iter).Valid → ∃ o e s', Get ⟨inputs, iter⟩ o e s') → ∀ iter, ∃ o e s', Get ⟨inputs, iter⟩ o e s' := by
    intro inputs h iter
    by_cases hv : (Jobs.mk inputs iter).Valid
    · have hv' := hv
      obtain ⟨p, d, hi, -⟩ := hv'
      obtain ⟨o, d', hn⟩ := next_exists d
      match o, hn with
      | some x, hn => exact ⟨_, _, _, .entry _ p d d' x hi hv hn⟩
      | none, hn =>
        cases hok : d'.ok with
        | false => exact ⟨_, _, _, .failed _ p d d' hi hv hn hok⟩
        | true =>
          have hnv : ¬ (Jobs.mk inputs (some (p, d'))).Valid := by
            rintro ⟨p0, d0, h0, -, hne⟩
            cases h0
            exact hne (next_done hn rfl hok)
          obtain ⟨o, e, s', hg⟩ := h _ hnv
          exact ⟨o, e, s', .finished _ s' p d d' o e hi hv hn hok hg⟩
    · exact h iter hv
  induction inputs with
  | nil => exact step [] fun iter hv => ⟨_, _, _, .done _ hv rfl⟩
  | cons i is ih =>
    refine step (i :: is) fun iter hv => ?_
    obtain ⟨p, f⟩ := i
    match f with
    | .file => exact ⟨_, _, _, .file _ p is hv rfl⟩
    | .dir .error es => exact ⟨_, _, _, .error _ p es is { DirIter.opened true false true 1 [] es with ok := false } hv rfl rfl⟩
    | .dir .denied es =>
      obtain ⟨o, e, s', hg⟩ := ih (some (p, { DirIter.opened true false true 1 [] es with ok := false }))
      exact ⟨o, e, s', .denied _ s' p es is _ o e hv rfl rfl hg⟩
    | .dir .ok es =>
      obtain ⟨o, e, s', hg⟩ := ih (some (p, DirIter.opened true false true 1 [] es))
      exact ⟨o, e, s', .opened _ s' p [] 1 es is o e hv rfl (by decide) hg⟩

/-! ### Workers -/

section
variable {w : Nat} (E : Env w) (inputs : List Input)

theorem set_eq {α : Type} (f : Nat → α) (k : Nat) (v : α) : set f k v k = v := if_pos rfl
theorem set_ne {α : Type} (f : Nat → α) {k j : Nat} (v : α) (h : j ≠ k) : set f k v j = f j := if_neg h

/-- The sum over the workers. -/
def sumW (n : Nat) (f : Worker → Nat) (ws : Nat → Worker) : Nat := ((List.range n).map fun i => f (ws i)).sum

theorem sumW_congr (n : Nat) (f : Worker → Nat) (ws ws' : Nat → Worker) (h : ∀ j, j < n → ws j = ws' j) : sumW n f ws = sumW n f ws' := by
  unfold sumW
  congr 1
  refine List.map_congr_left fun j hj => ?_
  rw [h j (List.mem_range.mp hj)]

theorem sumW_set (n : Nat) (f : Worker → Nat) (ws : Nat → Worker) (i : Nat) (v : Worker) (hi : i < n) :
    sumW n f (set ws i v) + f (ws i) = sumW n f ws + f v := by
  induction n with
  | zero => omega
  | succ n ih =>
    have e : ∀ ws, sumW (n + 1) f ws = sumW n f ws + f (ws n) := by
      intro ws; unfold sumW; rw [List.range_succ, List.map_append, List.sum_append]; simp
    rw [e, e]
    by_cases h : i = n
    · subst h
      rw [set_eq, sumW_congr i f (set ws i v) ws fun j hj => set_ne _ _ (by omega)]
      omega
    · rw [set_ne _ _ (by omega : n ≠ i)]
      have := ih (by omega)
      omega

theorem sumW_zero (n : Nat) (f : Worker → Nat) (ws : Nat → Worker) (h : ∀ i, i < n → f (ws i) = 0) : sumW n f ws = 0 := by
  induction n with
  | zero => rfl
  | succ n ih =>
    have e : sumW (n + 1) f ws = sumW n f ws + f (ws n) := by
      unfold sumW; rw [List.range_succ, List.map_append, List.sum_append]; simp
    rw [e, ih fun i hi => h i (by omega), h n (by omega)]

/-- The sum of `f` over chunks. -/
def sumC (f : List UInt8 → Nat) (l : List (List UInt8)) : Nat := (l.map f).sum

/-- What is still to be counted for the chunks a worker has. -/
def pS (f : List UInt8 → Nat) : Worker → Nat
  | .chunk rest _ => sumC f rest
  | .stats _ x rest _ => f x + sumC f rest
  | .size _ rest _ => sumC f rest
  | _ => 0
/-- Files that are being read. -/
def pF : Worker → Nat
  | .chunk _ _ => 1
  | .stats _ _ _ _ => 1
  | .size _ _ _ => 1
  | .addFile => 1
  | .setError => 1
  | _ => 0
/-- New chunks that are not counted. -/
def pU (f : List UInt8 → Nat) : Worker → Nat
  | .stats true x _ _ => f x
  | _ => 0
/-- New chunks whose sizes are not counted. -/
def pB (f : List UInt8 → Nat) : Worker → Nat
  | .stats true x _ _ => f x
  | .size x _ _ => f x
  | _ => 0
/-- The chunks that were not looked up. -/
def left : Worker → List (List UInt8)
  | .chunk rest _ => rest
  | .stats _ _ rest _ => rest
  | .size _ rest _ => rest
  | _ => []
/-- The worker reads a file that cannot be read to its end. -/
def failing : Worker → Prop
  | .chunk _ ok => ok = false
  | .stats _ _ _ ok => ok = false
  | .size _ _ ok => ok = false
  | .setError => True
  | _ => False

def one : List UInt8 → Nat := fun _ => 1
def inB (b : Nat) : List UInt8 → Nat := fun x => if sizeBucket E.cfg x.length = b then 1 else 0

/-- What holds as long as there is no error: `u` are the chunks in the map. -/
structure Acct (s : Sys) (u : List (List UInt8)) : Prop where
  tC : s.stats.totalChunks + sumW E.cfg.threads (pS one) s.worker + sumC one (s.jobs.pending.flatMap (chunksOf E)) = sumC one (allChunks E inputs)
  tB : s.stats.totalBytes + sumW E.cfg.threads (pS List.length) s.worker + sumC List.length (s.jobs.pending.flatMap (chunksOf E)) = sumC List.length (allChunks E inputs)
  fl : s.stats.files + sumW E.cfg.threads pF s.worker + s.jobs.pending.length = (filesOf inputs).length
  map : s.chunks = u.map fun x => (E.hash x, x.length)
  nodup : (u.map E.hash).Nodup
  uC : s.stats.uniqueChunks + sumW E.cfg.threads (pU one) s.worker = sumC one u
  uB : s.stats.uniqueBytes + sumW E.cfg.threads (pU List.length) s.worker = sumC List.length u
  sz : ∀ b, s.sizes b + sumW E.cfg.threads (pB (inB E b)) s.worker = sumC (inB E b) u
  uIn : ∀ x ∈ u, x ∈ allChunks E inputs
  leftIn : ∀ i, i < E.cfg.threads → ∀ x ∈ left (s.worker i), x ∈ allChunks E inputs
  cover : ∀ x ∈ allChunks E inputs, (∃ y ∈ u, E.hash y = E.hash x) ∨ (∃ i, i < E.cfg.threads ∧ x ∈ left (s.worker i)) ∨ x ∈ s.jobs.pending.flatMap (chunksOf E)
  fail : ∀ j ∈ filesOf inputs, ¬ (E.file j).Readable → j ∈ s.jobs.pending ∨ ∃ i, i < E.cfg.threads ∧ failing (s.worker i)
  failC : ∀ i, i < E.cfg.threads → failing (s.worker i) → ∃ j ∈ filesOf inputs, ¬ (E.file j).Readable
  pendIn : ∀ j ∈ s.jobs.pending, j ∈ filesOf inputs
  stop : ∀ i, i < E.cfg.threads → s.worker i = .stopped → s.jobs.pending = [] ∧ s.jobs.inputs = []
  miss : ∀ i ∈ inputs, i.Missing → i ∈ s.jobs.inputs

/-- Something cannot be read. -/
def Cause : Prop := (∃ j ∈ filesOf inputs, ¬ (E.file j).Readable) ∨ ¬ ∀ i ∈ inputs, i.Readable

structure Inv (s : Sys) : Prop where
  jobs : JGood s.jobs
  readable : (∀ i ∈ inputs, i.Readable) → JReadable s.jobs
  cause : s.err = true → Cause E inputs
  acct : s.err = false → ∃ u, Acct E inputs s u
  back : s.err = false → (JReadable s.jobs → ∀ i ∈ inputs, i.Readable) ∧ ∀ i, i < E.cfg.threads → s.worker i = .stopped → JReadable s.jobs

theorem sumC_append (f : List UInt8 → Nat) (l l' : List (List UInt8)) : sumC f (l ++ l') = sumC f l + sumC f l' := by
  unfold sumC; rw [List.map_append, List.sum_append]

theorem sumC_cons (f : List UInt8 → Nat) (x : List UInt8) (l : List (List UInt8)) : sumC f (x :: l) = f x + sumC f l := by
  unfold sumC; rw [List.map_cons, List.sum_cons]

/-- A step in which worker `i` goes from `a` to `b`, and the jobs `d` are given out, keeps the account if it balances. -/
theorem acct_step {s s' : Sys} {u u' : List (List UInt8)} (h : Acct E inputs s u) {i : Nat} (hi : i < E.cfg.threads) {a b : Worker} (ha : s.worker i = a) (d : List Job)
    (hw : s'.worker = set s.worker i b) (hj : s.jobs.pending = d ++ s'.jobs.pending)
    (tC : s'.stats.totalChunks + pS one b = s.stats.totalChunks + pS one a + sumC one (d.flatMap (chunksOf E)))
    (tB : s'.stats.totalBytes + pS List.length b = s.stats.totalBytes + pS List.length a + sumC List.length (d.flatMap (chunksOf E)))
    (fl : s'.stats.files + pF b = s.stats.files + pF a + d.length)
    (map : s'.chunks = u'.map fun x => (E.hash x, x.length)) (nodup : (u'.map E.hash).Nodup)
    (uC : s'.stats.uniqueChunks + pU one b + sumC one u = s.stats.uniqueChunks + pU one a + sumC one u')
    (uB : s'.stats.uniqueBytes + pU List.length b + sumC List.length u = s.stats.uniqueBytes + pU List.length a + sumC List.length u')
    (sz : ∀ k, s'.sizes k + pB (inB E k) b + sumC (inB E k) u = s.sizes k + pB (inB E k) a + sumC (inB E k) u')
    (uIn : ∀ x ∈ u', x ∈ u ∨ x ∈ left a) (leftIn : ∀ x ∈ left b, x ∈ left a ∨ x ∈ d.flatMap (chunksOf E))
    (cover : (∀ y ∈ u, y ∈ u') ∧ ∀ x, x ∈ left a ∨ x ∈ d.flatMap (chunksOf E) → x ∈ left b ∨ ∃ y ∈ u', E.hash y = E.hash x)
    (fail : (failing a → failing b) ∧ ∀ j ∈ d, ¬ (E.file j).Readable → failing b) (failC : failing b → failing a ∨ ∃ j ∈ d, ¬ (E.file j).Readable)
    (stop : (s.jobs.inputs = [] → s'.jobs.inputs = []) ∧ (b = .stopped → s'.jobs.pending = [] ∧ s'.jobs.inputs = [])) (miss : ∀ i ∈ s.jobs.inputs, i.Missing → i ∈ s'.jobs.inputs) :
    Acct E inputs s' u' := by
  have hd : ∀ j ∈ d, j ∈ filesOf inputs := fun j hj' => h.pendIn j (hj ▸ List.mem_append_left _ hj')
  have hdc : ∀ x ∈ d.flatMap (chunksOf E), x ∈ allChunks E inputs := by
    intro x hx
    obtain ⟨j, h1, h2⟩ := List.mem_flatMap.mp hx
    exact List.mem_flatMap.mpr ⟨j, hd j h1, h2⟩
  have hsum : ∀ f, sumW E.cfg.threads f s'.worker + f a = sumW E.cfg.threads f s.worker + f b := by
    intro f
    have := sumW_set E.cfg.threads f s.worker i b hi
    rw [ha, ← hw] at this
    exact this
  have hla : ∀ x ∈ left a, x ∈ allChunks E inputs := fun x hx => h.leftIn i hi x (by rw [ha]; exact hx)
  have hwk : ∀ k, k ≠ i → s'.worker k = s.worker k := fun k hk => by rw [hw, set_ne _ _ hk]
  have hwi : s'.worker i = b := by rw [hw, set_eq]
  refine ⟨?_, ?_, ?_, map, nodup, ?_, ?_, fun k => ?_, fun x hx => ?_, fun k hk x hx => ?_, fun x hx => ?_, fun j hj' hr => ?_, fun k hk hf => ?_, fun j hj' => h.pendIn j (hj ▸ List.mem_append_right _ hj'), fun k hk hs => ?_, fun k hk hm => miss k (h.miss k hk hm) hm⟩
  · have h1 := h.tC
    rw [hj, List.flatMap_append, sumC_append] at h1
    have := hsum (pS one); omega
  · have h1 := h.tB
    rw [hj, List.flatMap_append, sumC_append] at h1
    have := hsum (pS List.length); omega
  · have h1 := h.fl
    rw [hj, List.length_append] at h1
    have := hsum pF; omega
  · have h1 := h.uC
    have := hsum (pU one); omega
  · have h1 := h.uB
    have := hsum (pU List.length); omega
  · have h1 := h.sz k
    have h2 := sz k
    have := hsum (pB (inB E k)); omega
  · rcases uIn x hx with h' | h'
    · exact h.uIn x h'
    · exact hla x h'
  · by_cases hki : k = i
    · subst hki
      rw [hwi] at hx
      rcases leftIn x hx with h' | h'
      · exact hla x h'
      · exact hdc x h'
    · rw [hwk k hki] at hx
      exact h.leftIn k hk x hx
  · rcases h.cover x hx with ⟨y, hy, he⟩ | ⟨k, hk, hx'⟩ | hx'
    · exact .inl ⟨y, cover.1 y hy, he⟩
    · by_cases hki : k = i
      · subst hki
        rw [ha] at hx'
        rcases cover.2 x (.inl hx') with h' | h'
        · exact .inr (.inl ⟨k, hk, by rw [hwi]; exact h'⟩)
        · exact .inl h'
      · exact .inr (.inl ⟨k, hk, by rw [hwk k hki]; exact hx'⟩)
    · rw [hj, List.flatMap_append] at hx'
      rcases List.mem_append.mp hx' with h' | h'
      · rcases cover.2 x (.inr h') with h' | h'
        · exact .inr (.inl ⟨i, hi, by rw [hwi]; exact h'⟩)
        · exact .inl h'
      · exact .inr (.inr h')
  · rcases h.fail j hj' hr with h' | ⟨k, hk, hf⟩
    · rw [hj] at h'
      rcases List.mem_append.mp h' with h' | h'
      · exact .inr ⟨i, hi, by rw [hwi]; exact fail.2 j h' hr⟩
      · exact .inl h'
    · by_cases hki : k = i
      · subst hki
        rw [ha] at hf
        exact .inr ⟨k, hk, by rw [hwi]; exact fail.1 hf⟩
      · exact .inr ⟨k, hk, by rw [hwk k hki]; exact hf⟩
  · by_cases hki : k = i
    · subst hki
      rw [hwi] at hf
      rcases failC hf with h' | ⟨j, h1, h2⟩
      · exact h.failC k hk (by rw [ha]; exact h')
      · exact ⟨j, hd j h1, h2⟩
    · rw [hwk k hki] at hf
      exact h.failC k hk hf
  · by_cases hki : k = i
    · subst hki
      rw [hwi] at hs
      exact stop.2 hs
    · rw [hwk k hki] at hs
      obtain ⟨h1, h2⟩ := h.stop k hk hs
      rw [hj] at h1
      exact ⟨(List.append_eq_nil_iff.mp h1).2, stop.1 h2⟩

theorem step_back {s s' : Sys} (h : Step E s s') (hv : Inv E inputs s) (he : s'.err = false) :
    (JReadable s'.jobs → ∀ i ∈ inputs, i.Readable) ∧ ∀ i, i < E.cfg.threads → s'.worker i = .stopped → JReadable s'.jobs := by
  have keep : ∀ (s' : Sys) (i : Nat) (b : Worker), s'.worker = set s.worker i b → b ≠ .stopped → s'.jobs = s.jobs → s.err = false →
      (JReadable s'.jobs → ∀ i ∈ inputs, i.Readable) ∧ ∀ i, i < E.cfg.threads → s'.worker i = .stopped → JReadable s'.jobs := by
    intro s' i b hw hb hj he
    rw [hj]
    refine ⟨(hv.back he).1, fun k hk hs => ?_⟩
    rw [hw] at hs
    by_cases hki : k = i
    · subst hki; rw [set_eq] at hs; exact absurd hs hb
    · rw [set_ne _ _ hki] at hs; exact (hv.back he).2 k hk hs
  have get : ∀ (i : Nat) (b : Worker) (o : Option Job) (jobs : Jobs), Get s.jobs o false jobs → (b = .stopped → o = none) → s.err = false →
      (JReadable jobs → ∀ i ∈ inputs, i.Readable) ∧ ∀ k, k < E.cfg.threads → set s.worker i b k = .stopped → JReadable jobs := by
    intro i b o jobs hg hb he
    obtain ⟨h1, h2⟩ := get_back hg hv.jobs rfl
    refine ⟨fun hr => (hv.back he).1 (h1 hr), fun k hk hs => ?_⟩
    by_cases hki : k = i
    · subst hki; rw [set_eq] at hs; exact h2 (hb hs)
    · rw [set_ne _ _ hki] at hs
      exact ((get_spec hg hv.jobs).2.2.2.2.1 ((hv.back he).2 k hk hs)).2
  cases h with
  | checkOk i hi ha _ => exact keep _ i .get rfl (by simp) rfl he
  | checkError i hi ha he' => rw [show s.err = false from he] at he'; cases he'
  | noJob i jobs e hi ha hg =>
    have h : s.err = false ∧ e = false := by simpa using he
    obtain ⟨h1, rfl⟩ := h
    exact get i .stopped none jobs hg (fun _ => rfl) h1
  | unreadable i jobs j hi ha hg ho => exact get i .setError _ jobs hg (fun h => nomatch h) he
  | job i jobs j cs hi ha hg ho hcs => exact get i (.chunk cs _) _ jobs hg (fun h => nomatch h) he
  | oldChunk i x rest ok hi ha hx => exact keep _ i _ rfl (by simp) rfl he
  | newChunk i x rest ok hi ha hx => exact keep _ i _ rfl (by simp) rfl he
  | statsOld i x rest ok hi ha => exact keep _ i _ rfl (by simp) rfl he
  | statsNew i x rest ok hi ha => exact keep _ i _ rfl (by simp) rfl he
  | size i x rest ok hi ha => exact keep _ i _ rfl (by simp) rfl he
  | fileRead i hi ha => exact keep _ i _ rfl (by simp) rfl he
  | fileFailed i hi ha => exact keep _ i _ rfl (by simp) rfl he
  | addFile i hi ha => exact keep _ i _ rfl (by simp) rfl he
  | setError i hi ha => cases he

theorem step_inv {s s' : Sys} (h : Step E s s') (hv : Inv E inputs s) : Inv E inputs s' := by
  have hb := step_back E inputs h hv
  cases h with
  | checkOk i hi ha he =>
    refine ⟨hv.jobs, hv.readable, hv.cause, fun h => ?_, hb⟩
    obtain ⟨u, hu⟩ := hv.acct h
    exact ⟨u, acct_step E inputs hu hi ha [] rfl rfl rfl rfl rfl hu.map hu.nodup rfl rfl (fun _ => rfl) (fun x h => .inl h) (fun x h => nomatch h) ⟨fun _ h => h, fun x h => by rcases h with h | h <;> cases h⟩ ⟨id, fun j h => nomatch h⟩ (fun h => .inl h) ⟨id, fun h => nomatch h⟩ (fun _ h _ => h)⟩
  | checkError i hi ha he =>
    exact ⟨hv.jobs, hv.readable, hv.cause, (fun h => by rw [he] at h; cases h), hb⟩
  | noJob i jobs e hi ha hg =>
    obtain ⟨g1, g2, g3, g4, g5, g6, g7⟩ := get_spec hg hv.jobs
    refine ⟨g1, fun hr => (g5 (hv.readable hr)).2, fun h => ?_, fun h => ?_, hb⟩
    · cases he : e with
      | true =>
        refine .inr fun hr => ?_
        have := (g5 (hv.readable hr)).1
        rw [he] at this; cases this
      | false =>
        rw [he] at h
        exact hv.cause (by simpa using h)
    · have h : s.err = false ∧ e = false := by simpa using h
      obtain ⟨u, hu⟩ := hv.acct h.1
      exact ⟨u, acct_step E inputs hu hi ha [] rfl (g2 h.2) rfl rfl rfl hu.map hu.nodup rfl rfl (fun _ => rfl) (fun x h => .inl h) (fun x h => nomatch h) ⟨fun _ h => h, fun x h => by rcases h with h | h <;> cases h⟩ ⟨id, fun j h => nomatch h⟩ (fun h => .inl h) ⟨fun _ => ((g7 h.2).2 rfl).1, fun _ => ⟨((g7 h.2).2 rfl).2, ((g7 h.2).2 rfl).1⟩⟩ (g7 h.2).1⟩
  | unreadable i jobs j hi ha hg ho =>
    obtain ⟨g1, g2, g3, g4, g5, g6, g7⟩ := get_spec hg hv.jobs
    refine ⟨g1, fun hr => (g5 (hv.readable hr)).2, hv.cause, fun h => ?_, hb⟩
    obtain ⟨u, hu⟩ := hv.acct h
    have hin : s.jobs.inputs = [] → jobs.inputs = [] := get_inputs hg
    have hc : [j].flatMap (chunksOf E) = [] := by simp [chunksOf, ho]
    refine ⟨u, acct_step E inputs hu hi ha [j] rfl (g2 rfl) (by rw [hc]; rfl) (by rw [hc]; rfl) rfl hu.map hu.nodup rfl rfl (fun _ => rfl) (fun x h => .inl h) (fun x h => nomatch h) ⟨fun _ h => h, fun x h => ?_⟩ ⟨fun h => h.elim, fun j h _ => trivial⟩ (fun h => .inr ⟨j, List.mem_singleton.mpr rfl, fun hr => ?_⟩) ⟨hin, fun h => nomatch h⟩ (g7 rfl).1⟩
    · rw [hc] at h; rcases h with h | h <;> cases h
    · have := hr.1; rw [ho] at this; cases this
  | job i jobs j cs hi ha hg ho hcs =>
    obtain ⟨g1, g2, g3, g4, g5, g6, g7⟩ := get_spec hg hv.jobs
    refine ⟨g1, fun hr => (g5 (hv.readable hr)).2, hv.cause, fun h => ?_, hb⟩
    obtain ⟨u, hu⟩ := hv.acct h
    have hin : s.jobs.inputs = [] → jobs.inputs = [] := get_inputs hg
    have hc : [j].flatMap (chunksOf E) = cs := by simp [chunksOf, ho, hcs]
    refine ⟨u, acct_step E inputs hu hi ha [j] rfl (g2 rfl) (by rw [hc]; rfl) (by rw [hc]; rfl) rfl hu.map hu.nodup rfl rfl (fun _ => rfl) (fun x h => .inl h) (fun x h => .inr (by rw [hc]; exact h)) ⟨fun _ h => h, fun x h => ?_⟩ ⟨fun h => h.elim, fun j' h hr => ?_⟩ (fun h => .inr ⟨j, List.mem_singleton.mpr rfl, fun hr => ?_⟩) ⟨hin, fun h => nomatch h⟩ (g7 rfl).1⟩
    · rw [hc] at h
      rcases h with h | h
      · cases h
      · exact .inl h
    · rw [List.mem_singleton.mp h] at hr
      show (E.file j).complete = false
      cases hcm : (E.file j).complete with
      | false => rfl
      | true => exact absurd ⟨ho, hcm⟩ hr
    · have h : (E.file j).complete = false := h
      rw [hr.2] at h; cases h
  | oldChunk i x rest ok hi ha hx =>
    refine ⟨hv.jobs, hv.readable, hv.cause, fun h => ?_, hb⟩
    obtain ⟨u, hu⟩ := hv.acct h
    refine ⟨u, acct_step E inputs hu hi ha [] rfl rfl ?_ ?_ rfl hu.map hu.nodup rfl rfl (fun _ => rfl) (fun x h => .inl h) (fun y h => .inl (List.mem_cons_of_mem _ h)) ⟨fun _ h => h, fun y h => ?_⟩ ⟨id, fun j h => nomatch h⟩ (fun h => .inl h) ⟨id, fun h => nomatch h⟩ (fun _ h _ => h)⟩
    · show _ + (one x + sumC one rest) = _ + sumC one (x :: rest) + 0
      rw [sumC_cons]; rfl
    · show _ + (x.length + sumC List.length rest) = _ + sumC List.length (x :: rest) + 0
      rw [sumC_cons]; rfl
    · rcases h with h | h
      · rcases List.mem_cons.mp h with rfl | h
        · obtain ⟨c, h1, h2⟩ := hx
          rw [hu.map] at h1
          obtain ⟨z, h3, h4⟩ := List.mem_map.mp h1
          exact .inr ⟨z, h3, by rw [← h2, ← h4]⟩
        · exact .inl h
      · cases h
  | newChunk i x rest ok hi ha hx =>
    refine ⟨hv.jobs, hv.readable, hv.cause, fun h => ?_, hb⟩
    obtain ⟨u, hu⟩ := hv.acct h
    refine ⟨u ++ [x], acct_step E inputs hu hi ha [] rfl rfl ?_ ?_ rfl ?_ ?_ ?_ ?_ (fun k => ?_) (fun y h => ?_) (fun y h => .inl (List.mem_cons_of_mem _ h)) ⟨fun y h => List.mem_append_left _ h, fun y h => ?_⟩ ⟨id, fun j h => nomatch h⟩ (fun h => .inl h) ⟨id, fun h => nomatch h⟩ (fun _ h _ => h)⟩
    · show _ + (one x + sumC one rest) = _ + sumC one (x :: rest) + 0
      rw [sumC_cons]; rfl
    · show _ + (x.length + sumC List.length rest) = _ + sumC List.length (x :: rest) + 0
      rw [sumC_cons]; rfl
    · show s.chunks ++ _ = _
      rw [hu.map, List.map_append]; rfl
    · rw [List.map_append, List.nodup_append]
      refine ⟨hu.nodup, by simp, fun a ha b hb he => ?_⟩
      obtain ⟨z, hz, rfl⟩ := List.mem_map.mp ha
      simp at hb
      subst hb
      exact hx (E.hash z, z.length) (by rw [hu.map]; exact List.mem_map.mpr ⟨z, hz, rfl⟩) he
    · rw [sumC_append, sumC_cons]
      show s.stats.uniqueChunks + one x + _ = s.stats.uniqueChunks + 0 + (_ + (_ + 0)); omega
    · rw [sumC_append, sumC_cons]
      show s.stats.uniqueBytes + x.length + _ = s.stats.uniqueBytes + 0 + (_ + (_ + 0)); omega
    · rw [sumC_append, sumC_cons]
      show s.sizes k + inB E k x + _ = s.sizes k + 0 + (_ + (_ + 0)); omega
    · rcases List.mem_append.mp h with h | h
      · exact .inl h
      · rw [List.mem_singleton.mp h]; exact .inr List.mem_cons_self
    · rcases h with h | h
      · rcases List.mem_cons.mp h with rfl | h
        · exact .inr ⟨y, List.mem_append_right _ (List.mem_singleton.mpr rfl), rfl⟩
        · exact .inl h
      · cases h
  | statsOld i x rest ok hi ha =>
    refine ⟨hv.jobs, hv.readable, hv.cause, fun h => ?_, hb⟩
    obtain ⟨u, hu⟩ := hv.acct h
    refine ⟨u, acct_step E inputs hu hi ha [] rfl rfl ?_ ?_ rfl hu.map hu.nodup rfl rfl (fun _ => rfl) (fun x h => .inl h) (fun y h => .inl h) ⟨fun _ h => h, fun y h => ?_⟩ ⟨id, fun j h => nomatch h⟩ (fun h => .inl h) ⟨id, fun h => nomatch h⟩ (fun _ h _ => h)⟩
    · show s.stats.totalChunks + 1 + sumC one rest = _ + (1 + sumC one rest) + 0; omega
    · show s.stats.totalBytes + x.length + sumC List.length rest = _ + (x.length + sumC List.length rest) + 0; omega
    · rcases h with h | h
      · exact .inl h
      · cases h
  | statsNew i x rest ok hi ha =>
    refine ⟨hv.jobs, hv.readable, hv.cause, fun h => ?_, hb⟩
    obtain ⟨u, hu⟩ := hv.acct h
    refine ⟨u, acct_step E inputs hu hi ha [] rfl rfl ?_ ?_ rfl hu.map hu.nodup ?_ ?_ (fun _ => rfl) (fun x h => .inl h) (fun y h => .inl h) ⟨fun _ h => h, fun y h => ?_⟩ ⟨id, fun j h => nomatch h⟩ (fun h => .inl h) ⟨id, fun h => nomatch h⟩ (fun _ h _ => h)⟩
    · show s.stats.totalChunks + 1 + sumC one rest = _ + (1 + sumC one rest) + 0; omega
    · show s.stats.totalBytes + x.length + sumC List.length rest = _ + (x.length + sumC List.length rest) + 0; omega
    · show s.stats.uniqueChunks + 1 + 0 + _ = _ + 1 + _; omega
    · show s.stats.uniqueBytes + x.length + 0 + _ = _ + x.length + _; omega
    · rcases h with h | h
      · exact .inl h
      · cases h
  | size i x rest ok hi ha =>
    refine ⟨hv.jobs, hv.readable, hv.cause, fun h => ?_, hb⟩
    obtain ⟨u, hu⟩ := hv.acct h
    refine ⟨u, acct_step E inputs hu hi ha [] rfl rfl rfl rfl rfl hu.map hu.nodup rfl rfl (fun k => ?_) (fun x h => .inl h) (fun y h => .inl h) ⟨fun _ h => h, fun y h => ?_⟩ ⟨id, fun j h => nomatch h⟩ (fun h => .inl h) ⟨id, fun h => nomatch h⟩ (fun _ h _ => h)⟩
    · show set s.sizes _ _ k + 0 + _ = s.sizes k + inB E k x + _
      unfold inB set
      by_cases hk : k = sizeBucket E.cfg x.length
      · rw [if_pos hk, if_pos hk.symm, hk]
      · rw [if_neg hk, if_neg fun h => hk h.symm]
    · rcases h with h | h
      · exact .inl h
      · cases h
  | fileRead i hi ha =>
    refine ⟨hv.jobs, hv.readable, hv.cause, fun h => ?_, hb⟩
    obtain ⟨u, hu⟩ := hv.acct h
    exact ⟨u, acct_step E inputs hu hi ha [] rfl rfl rfl rfl rfl hu.map hu.nodup rfl rfl (fun _ => rfl) (fun x h => .inl h) (fun x h => nomatch h) ⟨fun _ h => h, fun x h => by rcases h with h | h <;> cases h⟩ ⟨(fun h => absurd (show true = false from h) (by decide)), fun j h => nomatch h⟩ (fun h => h.elim) ⟨id, fun h => nomatch h⟩ (fun _ h _ => h)⟩
  | fileFailed i hi ha =>
    refine ⟨hv.jobs, hv.readable, hv.cause, fun h => ?_, hb⟩
    obtain ⟨u, hu⟩ := hv.acct h
    exact ⟨u, acct_step E inputs hu hi ha [] rfl rfl rfl rfl rfl hu.map hu.nodup rfl rfl (fun _ => rfl) (fun x h => .inl h) (fun x h => nomatch h) ⟨fun _ h => h, fun x h => by rcases h with h | h <;> cases h⟩ ⟨fun _ => trivial, fun j h => nomatch h⟩ (fun h => .inl rfl) ⟨id, fun h => nomatch h⟩ (fun _ h _ => h)⟩
  | addFile i hi ha =>
    refine ⟨hv.jobs, hv.readable, hv.cause, fun h => ?_, hb⟩
    obtain ⟨u, hu⟩ := hv.acct h
    exact ⟨u, acct_step E inputs hu hi ha [] rfl rfl rfl rfl rfl hu.map hu.nodup rfl rfl (fun _ => rfl) (fun x h => .inl h) (fun x h => nomatch h) ⟨fun _ h => h, fun x h => by rcases h with h | h <;> cases h⟩ ⟨fun h => h.elim, fun j h => nomatch h⟩ (fun h => h.elim) ⟨id, fun h => nomatch h⟩ (fun _ h _ => h)⟩
  | setError i hi ha =>
    refine ⟨hv.jobs, hv.readable, fun _ => ?_, (fun h => nomatch h), hb⟩
    cases he : s.err with
    | true => exact hv.cause he
    | false =>
      obtain ⟨u, hu⟩ := hv.acct he
      exact .inl (hu.failC i hi (by rw [ha]; trivial))

theorem start_inv (hk : ∀ i ∈ inputs, i.Kinds) : Inv E inputs (Sys.start inputs) := by
  refine ⟨⟨(fun p d h => nomatch h), hk⟩, fun hr => ⟨(fun p d h => nomatch h), hr⟩, (fun h => nomatch h), fun _ => ⟨[], ?_⟩, fun _ => ⟨fun hr => hr.inputs, (fun i _ h => nomatch h)⟩⟩
  have hp : (Sys.start inputs).jobs.pending = filesOf inputs := rfl
  have hz : ∀ f : Worker → Nat, f .check = 0 → sumW E.cfg.threads f (Sys.start inputs).worker = 0 := fun f hf => sumW_zero _ _ _ fun _ _ => hf
  refine ⟨?_, ?_, ?_, rfl, .nil, ?_, ?_, fun b => ?_, (fun x h => nomatch h), (fun i _ x h => nomatch h), fun x hx => .inr (.inr hx), fun j hj _ => .inl hj, fun i _ h => h.elim, fun j hj => hj, fun i _ h => (by cases h), fun i hi _ => hi⟩
  · rw [hz _ rfl, hp]; show 0 + 0 + _ = _; rw [Nat.zero_add]; rfl
  · rw [hz _ rfl, hp]; show 0 + 0 + _ = _; rw [Nat.zero_add]; rfl
  · rw [hz _ rfl, hp]; show 0 + 0 + _ = _; rw [Nat.zero_add]
  · rw [hz _ rfl]; rfl
  · rw [hz _ rfl]; rfl
  · rw [hz _ rfl]; rfl

theorem steps_inv {s s' : Sys} (h : Steps E s s') (hv : Inv E inputs s) : Inv E inputs s' := by
  induction h with
  | refl => exact hv
  | step _ h ih => exact step_inv E inputs h ih

end
end Verif.Indexer
