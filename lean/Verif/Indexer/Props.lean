import Verif.Indexer.Run
import Verif.Indexer.Buckets

/-! The indexer: C136, C137 and C141. -/
namespace Verif.Indexer
open Verif Verif.DirIter

/-! ### The configuration -/

/-- C141: whatever is given, the chunker gets parameters it accepts, and the loops of the size buckets advance. What is given is used if it is not 0 and fits to the average size. -/
theorem C141_config (cores : Nat) (u : Cfg) :
    (u.checked cores).cdc.Valid ∧ 0 < (u.checked cores).step ∧ 0 < (u.checked cores).block ∧
    (u.threads ≠ 0 → (u.checked cores).threads = u.threads) ∧ (u.threads = 0 → (u.checked cores).threads = cores) ∧
    (u.avgSize ≠ 0 → (u.checked cores).avgSize = u.avgSize) ∧
    (u.minSize ≠ 0 → u.minSize ≤ (u.checked cores).avgSize → (u.checked cores).minSize = u.minSize) ∧
    ((u.checked cores).avgSize ≤ u.maxSize → (u.checked cores).maxSize = u.maxSize) ∧
    (u.step ≠ 0 → (u.checked cores).step = u.step) ∧ (u.block ≠ 0 → (u.checked cores).block = u.block) := by
  obtain ⟨t, b, mn, av, mx, st⟩ := u
  simp only [Cfg.checked, Cfg.cdc, FastCdc.Config.Valid]
  have ha : 1 ≤ (if av = 0 then 262144 else av) := by split <;> omega
  have hav : av ≠ 0 → (if av = 0 then 262144 else av) = av := fun h => if_neg h
  generalize (if av = 0 then 262144 else av) = A at ha hav
  refine ⟨⟨ha, ?_, ?_⟩, ?_, ?_, fun h => if_neg h, fun h => if_pos h, hav, fun h h' => if_neg ?_, fun h => if_neg ?_, fun h => if_neg h, fun h => if_neg h⟩
  · split <;> omega
  · split <;> omega
  · generalize (if mn = 0 ∨ mn > A then A / 2 else mn) = m
    by_cases h : st = 0
    · rw [if_pos h]; split <;> omega
    · rw [if_neg h]; omega
  · split <;> omega
  · omega
  · omega

/-- C141: with nothing given: 4K blocks, chunks of 128K to 512K with an average of 256K, steps of 128K. -/
theorem C141_defaults (cores : Nat) : Cfg.checked cores ⟨0, 0, 0, 0, 0, 0⟩ = ⟨cores, 4096, 131072, 262144, 524288, 131072⟩ := rfl

/-- C141: the values in question are met, also odd ones: an average of 1. -/
example : Cfg.checked 8 ⟨3, 0, 700, 1, 0, 0⟩ = ⟨3, 4096, 0, 1, 2, 128⟩ := rfl

section
variable {w : Nat} (hw : 0 < w) (E : Env w) (inputs : List Input)

/-! ### The chunks of files -/

include hw in
theorem fed_some (c : FastCdc.Config) (hv : c.Valid) (gear : UInt8 → BitVec w) (blocks : List (List UInt8)) : ∀ buf, ∃ cs, fed gear c buf blocks = some cs := by
  induction blocks with
  | nil => exact fun _ => ⟨[], rfl⟩
  | cons d ds ih =>
    intro buf
    have : ∃ out, FastCdc.process gear c buf d = some out := by
      rw [FastCdc.process_eq gear c hv]
      exact FastCdc.run_some gear hw c hv _ _
    obtain ⟨⟨cs, buf'⟩, h⟩ := this
    obtain ⟨cs', h'⟩ := ih buf'
    exact ⟨cs ++ cs', by rw [fed, h]; simp only [h', Option.map]⟩

include hw in
theorem chunks_some (c : FastCdc.Config) (hv : c.Valid) (gear : UInt8 → BitVec w) (f : File) : ∃ cs, f.chunks gear c = some cs := by
  unfold File.chunks
  split
  · obtain ⟨cs, h, -⟩ := FastCdc.C01_chunking_lossless gear hw c hv f.blocks
    exact ⟨cs, h⟩
  · exact fed_some hw c hv gear f.blocks []

/-! ### The end of `Run` -/

def wt : Worker → Nat
  | .check => 4
  | .get => 3
  | .chunk rest _ => 4 * rest.length + 6
  | .stats _ _ rest _ => 4 * rest.length + 9
  | .size _ rest _ => 4 * rest.length + 8
  | .addFile => 5
  | .setError => 2
  | .stopped => 0

def jobWt (js : List Job) : Nat := (js.map fun j => 4 * (chunksOf E j).length + 4).sum

def Sys.wt (s : Sys) : Nat := jobWt E s.jobs.pending + sumW E.cfg.threads Indexer.wt s.worker

theorem step_wt {s s' : Sys} (h : Step E s s') (hg : JGood s.jobs) : s'.wt E < s.wt E ∧ JGood s'.jobs := by
  have key : ∀ (s' : Sys) (i : Nat) (a b : Worker), i < E.cfg.threads → s.worker i = a → s'.worker = set s.worker i b → s'.jobs = s.jobs → wt b < wt a → s'.wt E < s.wt E := by
    intro s' i a b hi ha hw hj hlt
    have := sumW_set E.cfg.threads wt s.worker i b hi
    rw [ha, ← hw] at this
    unfold Sys.wt
    rw [hj]
    omega
  have get : ∀ (i : Nat) (b : Worker) (o : Option Job) (e : Bool) (jobs : Jobs) (s' : Sys), Get s.jobs o e jobs → i < E.cfg.threads → s.worker i = .get → s'.worker = set s.worker i b → s'.jobs = jobs →
      (∀ j, o = some j → e = false ∧ wt b < 3 + 4 * (chunksOf E j).length + 4) → (o = none → wt b < 3) → s'.wt E < s.wt E ∧ JGood s'.jobs := by
    intro i b o e jobs s' hget hi ha hw hj h1 h2
    obtain ⟨g1, g2, g3, g4, g5, ⟨t, g6⟩, g7⟩ := get_spec hget hg
    refine ⟨?_, by rw [hj]; exact g1⟩
    have := sumW_set E.cfg.threads wt s.worker i b hi
    rw [ha, ← hw, show wt .get = 3 from rfl] at this
    unfold Sys.wt
    rw [hj]
    match o, h1, h2, g2 with
    | none, _, h2, _ =>
      have h2 := h2 rfl
      rw [g6]
      unfold jobWt
      rw [List.map_append, List.sum_append]
      omega
    | some j, h1, _, g2 =>
      obtain ⟨he, h1⟩ := h1 j rfl
      rw [g2 he]
      unfold jobWt
      rw [List.map_append, List.sum_append]
      show _ < (4 * (chunksOf E j).length + 4 + 0) + _ + _
      omega
  cases h with
  | checkOk i hi ha _ => exact ⟨key _ i _ _ hi ha rfl rfl (by decide), hg⟩
  | checkError i hi ha _ => exact ⟨key _ i _ _ hi ha rfl rfl (by decide), hg⟩
  | noJob i jobs e hi ha hget => exact get i .stopped none e jobs _ hget hi ha rfl rfl (fun j h => nomatch h) (fun _ => by decide)
  | unreadable i jobs j hi ha hget ho => exact get i .setError (some j) false jobs _ hget hi ha rfl rfl (fun j' h => ⟨rfl, by show 2 < _; omega⟩) (fun h => nomatch h)
  | job i jobs j cs hi ha hget ho hcs =>
    refine get i (.chunk cs (E.file j).complete) (some j) false jobs _ hget hi ha rfl rfl (fun j' h => ⟨rfl, ?_⟩) (fun h => nomatch h)
    cases h
    have : chunksOf E j = cs := by simp [chunksOf, ho, hcs]
    rw [this]
    show 4 * cs.length + 6 < _
    omega
  | oldChunk i x rest ok hi ha hx => exact ⟨key _ i _ _ hi ha rfl rfl (by simp only [wt, List.length_cons]; omega), hg⟩
  | newChunk i x rest ok hi ha hx => exact ⟨key _ i _ _ hi ha rfl rfl (by simp only [wt, List.length_cons]; omega), hg⟩
  | statsOld i x rest ok hi ha => exact ⟨key _ i _ _ hi ha rfl rfl (by simp only [wt]; omega), hg⟩
  | statsNew i x rest ok hi ha => exact ⟨key _ i _ _ hi ha rfl rfl (by simp only [wt]; omega), hg⟩
  | size i x rest ok hi ha => exact ⟨key _ i _ _ hi ha rfl rfl (by simp only [wt]; omega), hg⟩
  | fileRead i hi ha => exact ⟨key _ i _ _ hi ha rfl rfl (by decide), hg⟩
  | fileFailed i hi ha => exact ⟨key _ i _ _ hi ha rfl rfl (by decide), hg⟩
  | addFile i hi ha => exact ⟨key _ i _ _ hi ha rfl rfl (by decide), hg⟩
  | setError i hi ha => exact ⟨key _ i _ _ hi ha rfl rfl (by decide), hg⟩

include hw in
theorem step_exists (hv : E.cfg.cdc.Valid) (s : Sys) (hg : JGood s.jobs) (hn : ¬ s.Returned E) : ∃ s', Step E s s' := by
  obtain ⟨i, hi, hs⟩ : ∃ i, i < E.cfg.threads ∧ s.worker i ≠ .stopped :=
    Decidable.byContradiction (dec := Classical.propDecidable _) fun h => hn fun i hi =>
      Decidable.byContradiction (dec := Classical.propDecidable _) fun h' => h ⟨i, hi, h'⟩
  match ha : s.worker i with
  | .check =>
    cases he : s.err with
    | false => exact ⟨_, .checkOk s i hi ha he⟩
    | true => exact ⟨_, .checkError s i hi ha he⟩
  | .get =>
    obtain ⟨o, e, jobs, hget⟩ := get_exists s.jobs.inputs s.jobs.iter
    match o, hget with
    | none, hget => exact ⟨_, .noJob s i jobs e hi ha hget⟩
    | some j, hget =>
      have he : e = false := by
        cases he : e with
        | false => rfl
        | true => exact absurd ((get_spec hget hg).2.2.1 he) (by simp)
      subst he
      cases ho : (E.file j).opens with
      | false => exact ⟨_, .unreadable s i jobs j hi ha hget ho⟩
      | true =>
        obtain ⟨cs, hcs⟩ := chunks_some hw E.cfg.cdc hv E.gear (E.file j)
        exact ⟨_, .job s i jobs j cs hi ha hget ho hcs⟩
  | .chunk [] true => exact ⟨_, .fileRead s i hi ha⟩
  | .chunk [] false => exact ⟨_, .fileFailed s i hi ha⟩
  | .chunk (x :: rest) ok =>
    by_cases hx : ∃ c ∈ s.chunks, c.1 = E.hash x
    · exact ⟨_, .oldChunk s i x rest ok hi ha hx⟩
    · exact ⟨_, .newChunk s i x rest ok hi ha fun c hc h => hx ⟨c, hc, h⟩⟩
  | .stats false x rest ok => exact ⟨_, .statsOld s i x rest ok hi ha⟩
  | .stats true x rest ok => exact ⟨_, .statsNew s i x rest ok hi ha⟩
  | .size x rest ok => exact ⟨_, .size s i x rest ok hi ha⟩
  | .addFile => exact ⟨_, .addFile s i hi ha⟩
  | .setError => exact ⟨_, .setError s i hi ha⟩
  | .stopped => exact absurd ha hs

include hw in
/-- C137: `Run` returns: from a state it can reach there is no endless sequence of steps, and there is always a step until all workers have ended. -/
theorem C137_returns (user : Cfg) (cores : Nat) (he : E.cfg = user.checked cores) (hk : ∀ i ∈ inputs, i.Kinds) (s : Sys) (h : Steps E (.start inputs) s) :
    Acc (fun s' s => Step E s s') s ∧ (s.Returned E ∨ ∃ s', Step E s s') := by
  have hg := (steps_inv E inputs h (start_inv E inputs hk)).jobs
  have hv : E.cfg.cdc.Valid := by rw [he]; exact (C141_config cores user).1
  refine ⟨?_, ?_⟩
  · clear h
    generalize hn : s.wt E = n
    induction n using Nat.strongRecOn generalizing s with
    | _ n ih =>
      refine ⟨s, fun s' h => ?_⟩
      obtain ⟨h1, h2⟩ := step_wt E h hg
      exact ih _ (by omega) s' h2 rfl
  · by_cases hr : s.Returned E
    · exact .inl hr
    · exact .inr (step_exists hw E hv s hg hr)

/-! ### Results -/

/-- C137: `Run` returns an error if and only if something cannot be read: a file cannot be opened or read to its end, or there is nothing at the path of an input, or a directory cannot be read for another reason than permissions. -/
theorem C137_error_partial (ht : 0 < E.cfg.threads) (hk : ∀ i ∈ inputs, i.Kinds) (s : Sys) (h : Steps E (.start inputs) s) (hr : s.Returned E) :
    s.err = false ↔ (∀ j ∈ filesOf inputs, (E.file j).Readable) ∧ ∀ i ∈ inputs, i.Readable := by
  have hv := steps_inv E inputs h (start_inv E inputs hk)
  constructor
  · intro he
    obtain ⟨u, hu⟩ := hv.acct he
    refine ⟨fun j hj => Decidable.byContradiction (dec := Classical.propDecidable _) fun hn => ?_, (hv.back he).1 ((hv.back he).2 0 ht (hr 0 ht))⟩
    rcases hu.fail j hj hn with h' | ⟨i, hi, hf⟩
    · rw [(hu.stop 0 ht (hr 0 ht)).1] at h'; cases h'
    · rw [hr i hi] at hf; exact hf
  · rintro ⟨h1, h2⟩
    cases he : s.err with
    | false => rfl
    | true =>
      rcases hv.cause he with ⟨j, hj, hn⟩ | hn
      · exact absurd (h1 j hj) hn
      · exact absurd h2 hn

theorem sumC_one (l : List (List UInt8)) : sumC one l = l.length := by
  induction l with
  | nil => rfl
  | cons x l ih => rw [sumC_cons, ih, List.length_cons]; show 1 + _ = _; omega

theorem sumC_length (l : List (List UInt8)) : sumC List.length l = l.flatten.length := by
  induction l with
  | nil => rfl
  | cons x l ih => rw [sumC_cons, ih, List.flatten_cons, List.length_append]

theorem sumC_inB (b : Nat) (l : List (List UInt8)) : sumC (inB E b) l = l.countP fun x => sizeBucket E.cfg x.length = b := by
  induction l with
  | nil => rfl
  | cons x l ih =>
    rw [sumC_cons, ih, List.countP_cons]
    unfold inB
    by_cases h : sizeBucket E.cfg x.length = b <;> simp [h] <;> omega

include hw in
/-- C136: if `Run` returns without an error then the statistics are right: all files are counted, their chunks and their sizes, each different chunk once with its size, and for each size bucket the number of different chunks that belong there, in whatever order the workers ran. This is for at least one thread, trees with only files, symlinks, FIFOs, character devices and directories, and a hash without collisions. -/
theorem C136_statistics_partial (user : Cfg) (cores : Nat) (he : E.cfg = user.checked cores) (ht : 0 < E.cfg.threads) (hmax : E.cfg.maxSize ≤ 2 ^ 63) (hk : ∀ i ∈ inputs, i.Kinds)
    (hinj : ∀ x ∈ allChunks E inputs, ∀ y ∈ allChunks E inputs, E.hash x = E.hash y → x = y) (s : Sys) (h : Steps E (.start inputs) s) (hr : s.Returned E) (hok : s.err = false) :
    (∀ j ∈ filesOf inputs, FastCdc.chunkBlocks E.gear E.cfg.cdc (E.file j).blocks = some (chunksOf E j)) ∧
    s.stats.files = (filesOf inputs).length ∧ s.stats.totalChunks = (allChunks E inputs).length ∧
    s.stats.totalBytes = ((filesOf inputs).map fun j => (E.file j).blocks.flatten.length).sum ∧
    ∃ u, OnceEach u (allChunks E inputs) ∧ s.stats.uniqueChunks = u.length ∧ s.stats.uniqueBytes = u.flatten.length ∧
    ∃ bucket : List UInt8 → Nat, (∀ x ∈ u, BucketOf E.cfg x.length (bucket x)) ∧ ∀ b, s.sizes b = u.countP fun x => bucket x = b := by
  have hv : E.cfg.cdc.Valid := by rw [he]; exact (C141_config cores user).1
  have hst : 0 < E.cfg.step := by rw [he]; exact (C141_config cores user).2.1
  obtain ⟨hread, -⟩ := (C137_error_partial E inputs ht hk s h hr).mp hok
  have hch : ∀ j ∈ filesOf inputs, FastCdc.chunkBlocks E.gear E.cfg.cdc (E.file j).blocks = some (chunksOf E j) ∧ (chunksOf E j).flatten = (E.file j).blocks.flatten := by
    intro j hj
    obtain ⟨ho, hc⟩ := hread j hj
    obtain ⟨cs, h1, h2⟩ := FastCdc.C01_chunking_lossless E.gear hw E.cfg.cdc hv (E.file j).blocks
    have : chunksOf E j = cs := by unfold chunksOf File.chunks; rw [if_pos ho, if_pos hc, h1]; rfl
    rw [this]; exact ⟨h1, h2⟩
  obtain ⟨u, hu⟩ := (steps_inv E inputs h (start_inv E inputs hk)).acct hok
  have hz : ∀ f : Worker → Nat, f .stopped = 0 → sumW E.cfg.threads f s.worker = 0 := fun f hf => sumW_zero _ _ _ fun i hi => by rw [hr i hi]; exact hf
  have hp := (hu.stop 0 ht (hr 0 ht)).1
  refine ⟨fun j hj => (hch j hj).1, ?_, ?_, ?_, u, ⟨?_, fun x => ⟨hu.uIn x, fun hx => ?_⟩⟩, ?_, ?_, fun x => sizeBucket E.cfg x.length, fun x hx => ?_, fun b => ?_⟩
  · have := hu.fl
    rw [hz _ rfl, hp] at this
    exact this
  · have := hu.tC
    rw [hz _ rfl, hp, sumC_one (allChunks E inputs)] at this
    exact this
  · have := hu.tB
    rw [hz _ rfl, hp, sumC_length (allChunks E inputs)] at this
    have this : s.stats.totalBytes = _ := this
    rw [this]
    unfold allChunks
    clear this hu hp hz hread hinj h hr hok hk
    generalize filesOf inputs = l at hch
    induction l with
    | nil => rfl
    | cons j l ih =>
      rw [List.flatMap_cons, List.flatten_append, List.length_append, (hch j List.mem_cons_self).2, ih fun j' hj' => hch j' (List.mem_cons_of_mem _ hj'), List.map_cons, List.sum_cons]
  · exact List.Pairwise.imp (fun h e => h (congrArg E.hash e)) (List.pairwise_map.mp hu.nodup)
  · rcases hu.cover x hx with ⟨y, hy, hxy⟩ | ⟨i, hi, hl⟩ | hl
    · rw [← hinj y (hu.uIn y hy) x hx hxy]; exact hy
    · rw [hr i hi] at hl; cases hl
    · rw [hp] at hl; cases hl
  · have := hu.uC
    rw [hz _ rfl, sumC_one] at this
    exact this
  · have := hu.uB
    rw [hz _ rfl, sumC_length] at this
    exact this
  · refine C138_bucket E.cfg hst x.length ?_
    obtain ⟨j, hj, hx'⟩ := List.mem_flatMap.mp (hu.uIn x hx)
    have := (FastCdc.C02_chunk_sizes_any_blocks E.gear hw E.cfg.cdc hv _ _ (hch j hj).1 x hx').2
    exact Nat.le_trans this hmax
  · have := hu.sz b
    rw [hz _ rfl, sumC_inB] at this
    exact this

end

/-! ### Where they do not hold -/

/-- C136 does not hold if the number of threads is not given and the system does not tell the number of cores (`hardware_concurrency` may return 0): `Run` returns without an error, and nothing was read. -/
theorem C136_threads_violated {w : Nat} (E : Env w) (user : Cfg) (hu : user.threads = 0) (he : E.cfg = user.checked 0) (inputs : List Input) :
    Steps E (.start inputs) (.start inputs) ∧ (Sys.start inputs).Returned E ∧ (Sys.start inputs).err = false ∧ (Sys.start inputs).stats = {} := by
  refine ⟨.refl _, fun i hi => ?_, rfl, rfl⟩
  rw [he, (C141_config 0 user).2.2.2.2.1 hu] at hi
  cases hi

/-- C136 does not hold on file systems that do not give the types of entries (`DT_UNKNOWN`, 0): of a directory with two files nothing is read, and `Run` returns without an error. -/
theorem C136_unknown_violated {w : Nat} (E : Env w) (ht : E.cfg.threads = 1) (p n n' : Name) :
    ∃ s, Steps E (.start [⟨p, .dir .ok (.cons n (.leaf 0) (.cons n' (.leaf 0) .stop))⟩]) s ∧ s.Returned E ∧ s.err = false ∧ s.stats = {} := by
  obtain ⟨d, hd, hok⟩ := C134_unknown_violated true false true n n'
  have hn : Next (opened true false true 1 [] (.cons n (.leaf 0) (.cons n' (.leaf 0) .stop))) none d := by cases hd with | last h => exact h
  have hi : 0 < E.cfg.threads := by omega
  have hnv : ∀ is, ¬ (Jobs.mk is none).Valid := by rintro is ⟨p, d, h, -⟩; cases h
  have hnv' : ¬ (Jobs.mk [] (some (p, d))).Valid := by
    rintro ⟨p0, d0, h0, -, hne⟩
    cases h0
    exact hne (next_done hn rfl hok)
  have hg : Get (Jobs.mk [⟨p, .dir .ok (.cons n (.leaf 0) (.cons n' (.leaf 0) .stop))⟩] none) none false ⟨[], some (p, d)⟩ :=
    .opened _ _ p [] 1 _ [] none false (hnv _) rfl (by decide)
      (.finished _ _ p _ d none false rfl ⟨p, _, rfl, rfl, (fun h => nomatch h)⟩ hn hok (.done _ hnv' rfl))
  refine ⟨_, .step (.step (.refl _) (.checkOk _ 0 hi rfl rfl)) (.noJob _ 0 ⟨[], some (p, d)⟩ false hi rfl hg), fun i h => ?_, rfl, rfl⟩
  have : i = 0 := by omega
  subst this
  rfl

/-- C137 is not what is wanted for trees with a symlink to a directory: a symlink counts as a file, and a directory cannot be read as one, so that `Run` returns an error, whatever else is to be read. -/
theorem C137_symlink_violated {w : Nat} (E : Env w) (ht : 0 < E.cfg.threads) (p n : Name) (es : Entries) (hk : es.Kinds)
    (hl : (E.file ⟨p, some ⟨[], n, 10⟩⟩).complete = false) (s : Sys) (h : Steps E (.start [⟨p, .dir .ok (.cons n (.leaf 10) es)⟩]) s) (hr : s.Returned E) : s.err = true := by
  have hk' : ∀ i ∈ [Input.mk p (.dir .ok (.cons n (.leaf 10) es))], i.Kinds := by
    intro i hi
    rw [List.mem_singleton.mp hi]
    show Entries.Kinds _
    rw [Entries.Kinds, Node.Kinds]
    exact ⟨.inr (.inl rfl), hk⟩
  cases he : s.err with
  | true => rfl
  | false =>
    have hm : Job.mk p (some ⟨[], n, 10⟩) ∈ filesOf [⟨p, .dir .ok (.cons n (.leaf 10) es)⟩] := by
      unfold filesOf
      rw [List.flatMap_cons, List.flatMap_nil, List.append_nil]
      show _ ∈ (Entries.listing true false true [] (.cons n (.leaf 10) es)).map _
      rw [Entries.listing, if_neg (fun h => absurd h.2 (by decide))]
      exact List.mem_map.mpr ⟨⟨[], n, 10⟩, List.mem_append_left _ (by simp [Node.listing]), rfl⟩
    have := (((C137_error_partial E _ ht hk' s h hr).mp he).1 _ hm).2
    rw [hl] at this; cases this

/-! ### Examples -/

/-- There is always a run that returns. -/
theorem exists_run {w : Nat} (hw : 0 < w) (E : Env w) (inputs : List Input) (user : Cfg) (cores : Nat) (he : E.cfg = user.checked cores) (hk : ∀ i ∈ inputs, i.Kinds) :
    ∃ s, Steps E (.start inputs) s ∧ s.Returned E := by
  have key : ∀ s, Acc (fun s' s => Step E s s') s → Steps E (.start inputs) s → ∃ s, Steps E (.start inputs) s ∧ s.Returned E := by
    intro s ha
    induction ha with
    | intro s _ ih =>
      intro hs
      rcases (C137_returns hw E inputs user cores he hk s hs).2 with hr | ⟨s', h⟩
      · exact ⟨s, hs, hr⟩
      · exact ih s' h (.step hs h)
  exact key _ (C137_returns hw E inputs user cores he hk _ (.refl _)).1 (.refl _)

def exEnv : Env 64 := { cfg := Cfg.checked 8 ⟨2, 0, 0, 0, 0, 0⟩, gear := fun b => BitVec.ofNat 64 (b.toNat * 2654435761), hash := id, file := fun _ => ⟨true, [[1, 2, 3], [4]], true⟩ }
def exInputs : List Input :=
  [⟨[97], .file⟩, ⟨[98], .dir .ok (.cons [46] (.dir .ok .stop) (.cons [99] (.leaf 8) (.cons [100] (.dir .denied .stop) (.cons [101] (.dir .ok (.cons [102] (.leaf 8) .stop)) .stop))))⟩]

/-- C136 and C137: the hypotheses are met by a run with two threads, a file and a directory with two files and a directory that may not be read. -/
theorem C136_example : ∃ s, Steps exEnv (.start exInputs) s ∧ s.Returned exEnv ∧ s.err = false ∧ s.stats.files = 3 ∧ s.stats.totalBytes = 12 := by
  have hk : ∀ i ∈ exInputs, i.Kinds := by
    intro i hi
    simp only [exInputs, List.mem_cons, List.not_mem_nil, or_false] at hi
    rcases hi with rfl | rfl
    · trivial
    · show Entries.Kinds _
      simp [Entries.Kinds, Node.Kinds]
  have hr : ∀ i ∈ exInputs, i.Readable := by
    intro i hi
    simp only [exInputs, List.mem_cons, List.not_mem_nil, or_false] at hi
    rcases hi with rfl | rfl
    · trivial
    · show Entries.Readable _
      simp [Entries.Readable, Node.Readable]
  have hf : filesOf exInputs = [⟨[97], none⟩, ⟨[98], some ⟨[], [99], 8⟩⟩, ⟨[98], some ⟨[[101]], [102], 8⟩⟩] := by
    simp [filesOf, exInputs, Input.files, Entries.listing, Node.listing, dot, dotDot, Node.type]
  obtain ⟨s, h1, h2⟩ := exists_run (by decide : 0 < 64) exEnv exInputs ⟨2, 0, 0, 0, 0, 0⟩ 8 rfl hk
  have hok := (C137_error_partial exEnv exInputs (by decide) hk s h1 h2).mpr ⟨fun j _ => ⟨rfl, rfl⟩, hr⟩
  obtain ⟨-, a, -, b, -⟩ := C136_statistics_partial (by decide : 0 < 64) exEnv exInputs ⟨2, 0, 0, 0, 0, 0⟩ 8 rfl (by decide) (by decide) hk (fun x _ y _ h => h) s h1 h2 hok
  rw [hf] at a b
  exact ⟨s, h1, h2, hok, a, b⟩

/-- C138: sizes and their buckets with the default configuration. -/
example : sizeBucket exEnv.cfg 1 = 1024 ∧ sizeBucket exEnv.cfg 1025 = 2048 ∧ sizeBucket exEnv.cfg 131072 = 131072 ∧ sizeBucket exEnv.cfg 131073 = 262144 ∧ sizeBucket exEnv.cfg 300000 = 393216 := by decide +kernel

/-- C139 and C140: the hypotheses are met. -/
example : shown exEnv.cfg [(2048, 3), (393216, 4), (131072, 1)] = [(2048, 3), (4096, 0), (8192, 0), (16384, 0), (32768, 0), (65536, 0), (131072, 1), (262144, 0), (393216, 4)] ∧
    results exEnv.cfg 8 [(2048, 3), (393216, 4), (131072, 1)] = some ([131072, 262144, 393216, 524288], [4, 0, 4, 0]) := by
  decide +kernel

example : IsBucket exEnv.cfg exEnv.cfg.minSize ∧ IsBucket exEnv.cfg exEnv.cfg.maxSize ∧ exEnv.cfg.minSize ≤ exEnv.cfg.maxSize := by
  refine ⟨(isBucket_iff _ _).mpr ⟨7, by decide +kernel⟩, (isBucket_iff _ _).mpr ⟨10, by decide +kernel⟩, by decide⟩

end Verif.Indexer
