import Verif.Sync.Crash

/-! # C38, C59: proofs -/
namespace Verif.Sync
open Verif.Text.Path (Str)

/-! ## The file system stays well-formed -/

theorem wf_none {fs : Fs} (h : fs.WF) {p : Path} (hp : p ≠ []) (hc : ∀ x, fs (p ++ [x]) = none) : (fs.set p none).WF := by
  refine ⟨?_, ?_, ?_⟩
  · rw [set_ne hp.symm]; exact h.root
  · intro q hq
    by_cases e : q = p
    · subst e; rw [set_eq] at hq; exact absurd rfl hq
    · rw [set_ne e] at hq; exact h.valid q hq
  · intro q n hq
    by_cases e : q ++ [n] = p
    · subst e; rw [set_eq] at hq; exact absurd rfl hq
    · rw [set_ne e] at hq
      have hqp : q ≠ p := by rintro rfl; exact hq (hc n)
      rw [set_ne hqp]; exact h.parent q n hq

theorem wf_file {fs : Fs} (h : fs.WF) {p : Path} (hp : p ≠ []) (hv : Valid p) (hpar : fs p.dropLast = some .dir) (hnd : fs p ≠ some .dir)
    {d : List UInt8} {m : Int} : (fs.set p (some (.file d m))).WF := by
  have hdl : p.dropLast ≠ p := fun e => by
    have := congrArg List.length e
    have hl := List.length_pos_iff.mpr hp
    rw [List.length_dropLast] at this; omega
  refine ⟨?_, ?_, ?_⟩
  · rw [set_ne hp.symm]; exact h.root
  · intro q hq
    by_cases e : q = p
    · subst e; exact hv
    · rw [set_ne e] at hq; exact h.valid q hq
  · intro q n hq
    by_cases e : q ++ [n] = p
    · subst e
      rw [List.dropLast_concat] at hpar hdl
      rw [set_ne hdl]; exact hpar
    · rw [set_ne e] at hq
      have := h.parent q n hq
      have hqp : q ≠ p := by rintro rfl; exact hnd this
      rw [set_ne hqp]; exact this

theorem wf_rewrite {fs : Fs} (h : fs.WF) {p : Path} {d d' : List UInt8} {m m' : Int} (hf : fs p = some (.file d m)) :
    (fs.set p (some (.file d' m'))).WF := by
  have hp : p ≠ [] := by rintro rfl; rw [h.root] at hf; cases hf
  refine wf_file h hp (h.valid p (by rw [hf]; simp)) ?_ (by rw [hf]; simp)
  obtain ⟨p', n, rfl⟩ : ∃ p' n, p = p' ++ [n] := ⟨p.dropLast, p.getLast hp, (List.dropLast_concat_getLast hp).symm⟩
  rw [List.dropLast_concat]
  exact h.parent p' n (by rw [hf]; simp)

theorem wf_removes {fs fs' : Fs} (h : fs.WF) {p : Path} (hp : p ≠ []) (hr : Removes fs p fs') : fs'.WF := by
  cases hr with
  | absent _ => exact h
  | @entry n h1 h2 =>
    refine wf_none h hp fun x => ?_
    by_cases hx : fs (p ++ [x]) = none
    · exact hx
    · have := h.parent p x hx
      rw [h1] at this
      cases this
      exact h2 rfl x

theorem wf_mkdir {fs fs' : Fs} (h : fs.WF) {p : Path} (hv : Valid p) (hm : MkdirRec fs p fs') : fs'.WF := by
  obtain ⟨a, b⟩ := mkdir_spec hm
  refine ⟨a [] (List.nil_prefix), ?_, ?_⟩
  · intro q hq
    rcases b q (by simp) with e | ⟨-, -, e⟩
    · rw [e] at hq; exact h.valid q hq
    · obtain ⟨t, rfl⟩ := e
      exact fun n hn => hv n (by simp [hn])
  · intro q n hq
    rcases b (q ++ [n]) (by simp) with e | ⟨-, -, e⟩
    · rw [e] at hq
      have := h.parent q n hq
      rcases b q (by simp) with e' | ⟨e', -⟩
      · rw [e']; exact this
      · rw [this] at e'; cases e'
    · exact a q ((List.prefix_append _ _).trans e)

theorem wf_deleteAll {dest : Str} {ops : List (Str × Bool)} {fs fs' : Fs} (h : DeleteAll dest ops fs fs') (hwf : fs.WF)
    (hp : ∀ op ∈ ops, posix (Text.Path.join false dest op.1) ≠ []) : fs'.WF := by
  induction h with
  | nil => exact hwf
  | @cons op l fs fs1 fs2 h1 _ ih =>
    exact ih (wf_removes hwf (hp op (by simp)) h1) fun o ho => hp o (by simp [ho])

theorem wf_createDirs {dest : Str} {l : List Dir} {fs fs' : Fs} (h : CreateDirs dest l fs fs') (hwf : fs.WF)
    (hp : ∀ d ∈ l, posix (Text.Path.join false dest d.path) ≠ []) : fs'.WF := by
  induction h with
  | nil => exact hwf
  | @cons d l fs fs1 fs2 fs3 h1 h2 _ ih =>
    exact ih (wf_mkdir (wf_removes hwf (hp d (by simp)) h1) (posix_valid _) h2) fun o ho => hp o (by simp [ho])

/-- The paths of jobs are proper ones. -/
def JobsValid (js : List Job) : Prop := ∀ j ∈ js, j.path ≠ [] ∧ Valid j.path ∧ j.dst ≠ [] ∧ Valid j.dst ∧ ∀ d, j.mkdir = some d → Valid d

theorem micro_wf {lossy : Bool} {root : Path} {js : List Job} {old : Fs} (hok : JobsOK root js) (hv : JobsValid js) (hn : NoLinks old root)
    (hwf : old.WF) {s : MState} (h : During lossy js old s) : s.fs.WF := by
  induction h with
  | start => exact hwf
  | @step s s' hd hs ih =>
    have inv := micro_inv hok hn hd
    have hroot : ∀ j ∈ js, root <+: j.path ∧ root <+: j.dst := by
      intro j hj
      refine ⟨hok.under j hj, ?_⟩
      rcases dst_cases j with ⟨-, e⟩ | e
      · rw [e]; exact hok.under j hj
      · exact hok.tempUnder j hj _ e
    cases hs with
    | @removeDir i j fs1 h1 h2 h3 h4 h5 => exact wf_removes ih (hv j (List.mem_of_getElem? h1)).1 h5
    | @mkdir i j d q fs1 h1 h2 h3 h4 h5 =>
      refine wf_mkdir ih ?_ h5
      obtain ⟨t, rfl⟩ := h4
      exact fun n hn' => (hv j (List.mem_of_getElem? h1)).2.2.2.2 _ h3 n (by simp [hn'])
    | @openFile i j m fs1 h1 h2 h3 =>
      have hjm := List.mem_of_getElem? h1
      obtain ⟨-, -, v1, v2, -⟩ := hv j hjm
      cases h3 with
      | plain g1 g2 g3 =>
        refine wf_file ih v1 v2 g2 ?_
        rcases g3 with e | ⟨d, t, e⟩ <;> rw [e] <;> simp
      | through g1 => exact absurd g1 (inv.nolinks _ (hroot j hjm).2 _)
    | @write i k k' j m h1 h2 h3 h4 =>
      have hg := inv.good i j h1
      rw [h2] at hg
      obtain ⟨⟨m', hm⟩, -⟩ := hg
      exact wf_rewrite ih hm
    | @close i k k' j m h1 h2 h3 h4 =>
      have hg := inv.good i j h1
      rw [h2] at hg
      obtain ⟨⟨m', hm⟩, -⟩ := hg
      exact wf_rewrite ih hm
    | @time i j fs1 h1 h2 h3 h4 =>
      obtain ⟨d, t, e1, rfl⟩ := setTime_plain inv.nolinks (hroot j (List.mem_of_getElem? h1)).1 h4
      exact wf_rewrite ih e1
    | @remove i j t fs1 h1 h2 h3 h4 h5 => exact wf_removes ih (hv j (List.mem_of_getElem? h1)).1 h5
    | @rename i j t fs1 h1 h2 h3 h4 =>
      have hjm := List.mem_of_getElem? h1
      obtain ⟨v1, v2, -, -, -⟩ := hv j hjm
      cases h4 with
      | @mk d tt g1 g2 g3 g4 =>
        have htp : t ≠ j.path := by rintro rfl; exact hok.noTemp j hjm j hjm h3
        have ht : t ≠ [] := by rintro rfl; rw [ih.root] at g1; cases g1
        have hw := wf_none ih ht fun x => by
          by_cases hx : s.fs (t ++ [x]) = none
          · exact hx
          · have := ih.parent t x hx
            rw [g1] at this; cases this
        refine wf_file hw v1 v2 ?_ (by rw [set_ne htp.symm]; exact g4)
        rw [set_ne (fun e => by rw [e, g1] at g3; cases g3)]; exact g3
    | @timePatched i j fs1 h1 h2 h4 =>
      obtain ⟨d, t, e1, rfl⟩ := setTime_plain inv.nolinks (hroot j (List.mem_of_getElem? h1)).1 h4
      exact wf_rewrite ih e1
    | fail => exact ih

/-! ## Where the parts of a sync lead to -/

/-- A state a file of the client may be in after an interruption: as before, absent, a directory, or with a beginning of the client's
content. -/
def Partly (c : Path × List UInt8 × Int) (old new : Option Node) : Prop :=
  new = old ∨ new = none ∨ new = some .dir ∨ ∃ k m, new = some (.file (c.2.1.take k) m)

theorem Partly.trans {c : Path × List UInt8 × Int} {a b d : Option Node} (h1 : Partly c a b) (h2 : Partly c b d) : Partly c a d := by
  rcases h2 with rfl | h2
  · exact h1
  · exact .inr h2

/-- What the parts of a sync have in common. -/
structure Parts (o : Opts) (dest copyDest : Str) (filter : Str → Bool) (src : Source) (fs : Fs) (r : Result) (js1 js2 : List Job) : Prop where
  lists : Lists o (posix dest) (decide (copyDest ≠ [])) filter src fs r
  dirs : ∀ d ∈ r.missingDirs, ∃ c ∈ src.dirs, posix (Text.Path.join false dest d.path) = posix dest ++ c
  jobs1 : ∀ j ∈ js1, ∃ c, JobOf src (posix dest) j c ∧ render c.1 ∈ r.missing.map File.path
  jobs2 : ∀ j ∈ js2, ∃ f ∈ r.changed, ∃ c, JobOf src (posix dest) j c ∧ f.path = render c.1 ∧ (f.base ≠ .copyDest → j.temp ≠ none)
  ok1 : JobsOK (posix dest) js1
  ok2 : JobsOK (posix dest) js2

theorem setup_parts {o : Opts} {dest copyDest : Str} {filter : Str → Bool} {src : Source} {fs : Fs} {r : Result} {dirs : List Dir} {js1 js2 : List Job}
    (hwf : fs.WF) (hd : DirString dest) (hsrc : src.OK) (h : Setup o dest copyDest filter src fs r dirs js1 js2) :
    Parts o dest copyDest filter src fs r js1 js2 := by
  obtain ⟨ld, lc, stat, r0, h1, h2, -, h4, h5, rfl⟩ := h.lists
  have hl : Lists o (posix dest) (decide (copyDest ≠ [])) filter src fs (adjust o.existing o.checksum o.whole r0) := lists_spec hwf hsrc h1 h2 h4 h5
  have hnd := List.nodup_append.mp hl.nodup
  have hj1 : ∀ j ∈ js1, ∃ c, (JobOf src (posix dest) j c ∧ render c.1 ∈ (adjust o.existing o.checksum o.whole r0).missing.map File.path) ∧ j.temp = none := by
    intro j hj
    obtain ⟨f, hf, hm⟩ := forall₂_right h.missing j hj
    obtain ⟨c, hc, e, ht⟩ := missingJob_of hd hsrc (hl.missing f hf) hm
    exact ⟨c, ⟨hc, by rw [← e]; exact List.mem_map_of_mem hf⟩, ht⟩
  have hj2 : ∀ j ∈ js2, ∃ f ∈ (adjust o.existing o.checksum o.whole r0).changed, ∃ c, JobOf src (posix dest) j c ∧ f.path = render c.1 ∧
      (f.base ≠ .copyDest → j.temp ≠ none) ∧ j.mkdir = none := by
    intro j hj
    obtain ⟨f, hf, hm⟩ := forall₂_right h.changed j hj
    obtain ⟨c, hc, e, ht, hb⟩ := changedJob_of hd hsrc (hl.changed f hf) hm
    exact ⟨f, hf, c, hc, e, hb, ht⟩
  refine ⟨hl, ?_, fun j hj => ⟨_, (hj1 j hj).choose_spec.1⟩, ?_, ?_, ?_⟩
  · intro d hd'
    obtain ⟨c, hc, e⟩ := hl.missingDirs d hd'
    exact ⟨c, hc, by rw [e, posix_join hd, posix_render (hsrc.validDirs c hc).1]⟩
  · intro j hj
    obtain ⟨f, hf, c, a1, a2, a3, -⟩ := hj2 j hj
    exact ⟨f, hf, c, a1, a2, a3⟩
  · refine jobsOK hsrc (fun j hj => ⟨_, (hj1 j hj).choose_spec.1.1⟩) ?_ ?_
    · rw [forall₂_map (g := Job.path) (f := fun f : File => posix (Text.Path.join false dest f.path)) h.missing (by rintro a b ⟨_⟩; rfl)]
      have := jobs_nodup hd hsrc (l := (adjust o.existing o.checksum o.whole r0).missing.map File.path) (by
        intro s hs
        obtain ⟨f, hf, rfl⟩ := List.mem_map.mp hs
        obtain ⟨c, hc, e, -⟩ := hl.missing f hf
        exact ⟨c, List.mem_of_getElem? hc, e⟩) hnd.1
      rwa [List.map_map] at this
    · intro j hj ht
      exact absurd (hj1 j hj).choose_spec.2 ht
  · refine jobsOK hsrc (fun j hj => ?_) ?_ ?_
    · obtain ⟨f, hf, c, a1, -⟩ := hj2 j hj
      exact ⟨c, a1⟩
    · rw [forall₂_map (g := Job.path) (f := fun f : Changed => posix (Text.Path.join false dest f.path)) h.changed (by rintro a b ⟨_⟩; rfl)]
      have := jobs_nodup hd hsrc (l := (adjust o.existing o.checksum o.whole r0).changed.map Changed.path) (by
        intro s hs
        obtain ⟨f, hf, rfl⟩ := List.mem_map.mp hs
        obtain ⟨c, hc, e, -⟩ := hl.changed f hf
        exact ⟨c, List.mem_of_getElem? hc, e⟩) hnd.2.1
      rwa [List.map_map] at this
    · intro j _ _ k hk
      obtain ⟨f, hf, c, -, -, -, a⟩ := hj2 k hk
      exact a

theorem jobOf_valid {src : Source} {dest : Str} (hsrc : src.OK) {js : List Job} (h : ∀ j ∈ js, ∃ c, JobOf src (posix dest) j c) : JobsValid js := by
  intro j hj
  obtain ⟨c, hc⟩ := h j hj
  obtain ⟨v1, v2, -⟩ := hsrc.validFiles c hc.mem
  have hva : ∀ p, Valid p → Valid (posix dest ++ p) := fun p hp n hn => by
    rcases List.mem_append.mp hn with h | h
    · exact posix_valid dest n h
    · exact hp n h
  have hvt : Valid (tempOf c.1) := by
    intro n hn
    unfold tempOf at hn
    rcases List.mem_append.mp hn with h | h
    · exact v1 n (List.dropLast_subset _ h)
    · simp only [List.mem_singleton] at h
      subst h
      refine ⟨by simp [tempSuffix], ?_⟩
      rw [List.getLast?_eq_some_getLast v2]
      simp only [Option.getD_some, List.mem_append, not_or]
      exact ⟨(v1 _ (List.getLast_mem v2)).2, by decide⟩
  refine ⟨by rw [hc.path]; simp [v2], by rw [hc.path]; exact hva _ v1, ?_⟩
  have hdst : j.dst ≠ [] ∧ Valid j.dst := by
    rcases dst_cases j with ⟨-, e⟩ | e
    · rw [e, hc.path]; exact ⟨by simp [v2], hva _ v1⟩
    · rw [hc.temp _ e]; exact ⟨by simp [tempOf], hva _ hvt⟩
  refine ⟨hdst.1, hdst.2, fun d hd => ?_⟩
  rw [hc.mkdir d hd]
  exact hva _ fun n hn => v1 n (List.dropLast_subset _ hn)

/-- The effect of an interrupted list of transfers on a client's file. -/
theorem during_partly {lossy : Bool} {src : Source} {D : Path} (hsrc : src.OK) {js : List Job} (hjobs : ∀ j ∈ js, ∃ c, JobOf src D j c)
    (hok : JobsOK D js) {fs : Fs} (hn : NoLinks fs D) {s : MState} (h : During lossy js fs s) {c : Path × List UInt8 × Int} (hc : c ∈ src.files) :
    Partly c (fs (D ++ c.1)) (s.fs (D ++ c.1)) := by
  have inv := micro_inv hok hn h
  by_cases ht : Touched js (D ++ c.1)
  · obtain ⟨j, hj, e⟩ := ht
    obtain ⟨c', hc'⟩ := hjobs j hj
    rcases e with e | e
    · have : c = c' := List.inj_on_of_nodup_map hsrc.nodup hc hc'.mem (append_cancel (D := D) (by rw [e, hc'.path]))
      subst this
      rw [e]
      obtain ⟨i, hi⟩ := List.mem_iff_getElem?.mp hj
      have hg := inv.good i j hi
      have hw : ∀ n, Whole lossy j n → Partly c (fs j.path) n := by
        rintro n ⟨k, m, e, -⟩
        exact .inr (.inr (.inr ⟨k, m, by rw [e, hc'.data]⟩))
      revert hg
      generalize s.pc i = pc
      intro hg
      cases pc with
      | todo =>
        rcases hg with e | ⟨-, e | e⟩
        · exact .inl e
        · exact .inr (.inl e)
        · exact .inr (.inr (.inl e))
      | opened k =>
        obtain ⟨⟨m, hm⟩, g2⟩ := hg
        rcases dst_cases j with ⟨-, ed⟩ | ed
        · rw [ed] at hm; exact .inr (.inr (.inr ⟨k, m, by rw [hm, hc'.data]⟩))
        · exact .inl (g2 (by rw [ed]; simp))
      | closed =>
        obtain ⟨g1, g2⟩ := hg
        rcases dst_cases j with ⟨-, ed⟩ | ed
        · rw [ed] at g1; exact hw _ g1
        · exact .inl (g2 (by rw [ed]; simp))
      | removed => exact .inr (.inl hg.2.2)
      | renamed => exact hw _ hg.1
      | done =>
        obtain ⟨⟨k, hm, -⟩, -⟩ := hg
        exact .inr (.inr (.inr ⟨k, _, by rw [hm, hc'.data]⟩))
      | failed =>
        rcases hg with e | e | ⟨-, e⟩ | ⟨-, k, m, e⟩ | e
        · exact .inl e
        · exact .inr (.inl e)
        · exact .inr (.inr (.inl e))
        · exact .inr (.inr (.inr ⟨k, m, by rw [e, hc'.data]⟩))
        · exact hw _ e
    · have := hc'.temp _ e
      exact absurd (append_cancel this) (hsrc.noTemp c hc c' hc'.mem)
  · rcases inv.frame _ ht with e | ⟨-, e, -⟩
    · exact .inl e
    · exact .inr (.inr (.inl e))

/-- Everything known after an interruption. -/
structure After (src : Source) (D : Path) (fs fs' : Fs) : Prop where
  wf : fs'.WF
  nolinks : NoLinks fs' D
  files : ∀ c ∈ src.files, Partly c (fs (D ++ c.1)) (fs' (D ++ c.1))

theorem After.trans {src : Source} {D : Path} {a b c : Fs} (h1 : After src D a b) (h2 : After src D b c) : After src D a c :=
  ⟨h2.wf, h2.nolinks, fun f hf => (h1.files f hf).trans (h2.files f hf)⟩

theorem deletion_ops {o : Opts} {dest : Str} {useCopy : Bool} {filter : Str → Bool} {src : Source} {fs : Fs} {r : Result} {dirs : List Dir}
    (hd : DirString dest) (hl : Lists o (posix dest) useCopy filter src fs r) (hs : SortsDesc r.extraneousDirs dirs) :
    ∀ op ∈ deletionOps r dirs, ∃ p, posix (Text.Path.join false dest op.1) = posix dest ++ p ∧ p ≠ [] ∧
      ∀ c ∈ src.files, ∀ d m, fs (posix dest ++ c.1) = some (.file d m) → p ≠ c.1 := by
  intro op hop
  rcases List.mem_append.mp hop with hop | hop
  · obtain ⟨s, hs1, rfl⟩ := List.mem_map.mp hop
    obtain ⟨p, e, hv, h1, h2, h3⟩ := hl.extraneous s hs1
    exact ⟨p, by simp only; rw [e, posix_join hd, posix_render hv], h1.1, fun c hc d m _ he => h2 (he ▸ List.mem_map_of_mem hc)⟩
  · obtain ⟨s, hs1, rfl⟩ := List.mem_map.mp hop
    obtain ⟨p, e, hv, h1, h2, h3⟩ := hl.extraneousDirs s (hs.perm.mem_iff.mp hs1)
    exact ⟨p, by simp only; rw [e, posix_join hd, posix_render hv], h1.1, fun c hc d m hf he => by rw [← he, h3] at hf; cases hf⟩

theorem deleting_after {dest : Str} {src : Source} {fs fs1 : Fs} (hwf : fs.WF) (hn : NoLinks fs (posix dest)) {ops : List (Str × Bool)}
    (hops : ∀ op ∈ ops, ∃ p, posix (Text.Path.join false dest op.1) = posix dest ++ p ∧ p ≠ [])
    (h : DeleteAll dest ops fs fs1) : After src (posix dest) fs fs1 := by
  have e := deleteAll_eq h
  have hq : ∀ q, fs1 q = fs q ∨ fs1 q = none := by
    intro q
    by_cases hq : q ∈ ops.map (fun op => posix (Text.Path.join false dest op.1))
    · exact .inr (by rw [e]; exact if_pos hq)
    · exact .inl (by rw [e]; exact if_neg hq)
  refine ⟨wf_deleteAll h hwf fun op hop => ?_, ?_, ?_⟩
  · obtain ⟨p, e, hp⟩ := hops op hop
    rw [e]; simp [hp]
  · intro q hq' t he
    rcases hq q with h | h
    · rw [h] at he; exact hn q hq' t he
    · rw [h] at he; cases he
  · intro c _
    rcases hq (posix dest ++ c.1) with h | h
    · exact .inl h
    · exact .inr (.inl h)

theorem removes_after {D : Path} {src : Source} {fs fs1 : Fs} {p : Path} (hwf : fs.WF) (hn : NoLinks fs D) (hp : p ≠ []) (h : Removes fs p fs1) :
    After src D fs fs1 := by
  refine ⟨wf_removes hwf hp h, removes_nolinks hn h, fun c _ => ?_⟩
  rw [removes_eq h]
  by_cases e : D ++ c.1 = p
  · rw [← e, set_eq]; exact .inr (.inl rfl)
  · rw [set_ne e]; exact .inl rfl

theorem mkdir_after {D : Path} {src : Source} {fs fs1 : Fs} {p : Path} (hwf : fs.WF) (hn : NoLinks fs D) (hp : Valid p) (h : MkdirRec fs p fs1) :
    After src D fs fs1 := by
  refine ⟨wf_mkdir hwf hp h, mkdir_nolinks hn h, fun c _ => ?_⟩
  rcases (mkdir_spec h).2 (D ++ c.1) (by simp) with e | ⟨-, e, -⟩
  · exact .inl e
  · exact .inr (.inr (.inl e))

theorem After.refl {D : Path} {src : Source} {fs : Fs} (hwf : fs.WF) (hn : NoLinks fs D) : After src D fs fs := ⟨hwf, hn, fun _ _ => .inl rfl⟩

theorem createDirs_after {dest : Str} {D : Path} {src : Source} {l : List Dir} {fs fs' : Fs} (h : CreateDirs dest l fs fs') (hwf : fs.WF)
    (hn : NoLinks fs D) (hp : ∀ d ∈ l, posix (Text.Path.join false dest d.path) ≠ []) : After src D fs fs' := by
  induction h with
  | nil => exact After.refl hwf hn
  | @cons d l fs fs1 fs2 fs3 h1 h2 _ ih =>
    have a1 := removes_after (src := src) hwf hn (hp d (by simp)) h1
    have a2 := mkdir_after (src := src) a1.wf a1.nolinks (posix_valid _) h2
    exact (a1.trans a2).trans (ih a2.wf a2.nolinks fun o ho => hp o (by simp [ho]))

theorem during_after {lossy : Bool} {src : Source} {dest : Str} (hsrc : src.OK) {js : List Job} (hjobs : ∀ j ∈ js, ∃ c, JobOf src (posix dest) j c)
    (hok : JobsOK (posix dest) js) {fs : Fs} (hwf : fs.WF) (hn : NoLinks fs (posix dest)) {s : MState} (h : During lossy js fs s) :
    After src (posix dest) fs s.fs :=
  ⟨micro_wf hok (jobOf_valid hsrc hjobs) hn hwf h, (micro_inv hok hn h).nolinks, fun _ hc => during_partly hsrc hjobs hok hn h hc⟩

theorem prefix_valid {p q : Path} (h : Valid p) (hq : q <+: p) : Valid q := by
  obtain ⟨t, rfl⟩ := hq
  exact fun n hn => h n (by simp [hn])

theorem stopped_after {lossy : Bool} {o : Opts} {dest copyDest : Str} {filter : Str → Bool} {src : Source} {fs fs' : Fs}
    (hwf : fs.WF) (hd : DirString dest) (hn : NoLinks fs (posix dest)) (hsrc : src.OK) (h : Stopped lossy o dest copyDest filter src fs fs') :
    After src (posix dest) fs fs' := by
  have hdel : ∀ {r : Result} {dirs : List Dir} {js1 js2 : List Job} {fs1 : Fs}, Setup o dest copyDest filter src fs r dirs js1 js2 →
      (o.delete = true → DeleteAll dest (deletionOps r dirs) fs fs1) → (o.delete = false → fs1 = fs) → After src (posix dest) fs fs1 := by
    intro r dirs js1 js2 fs1 hs h1 h2
    have hp := setup_parts hwf hd hsrc hs
    by_cases hdl : o.delete = true
    · refine deleting_after hwf hn ?_ (h1 hdl)
      intro op hop
      obtain ⟨p, e, hp', -⟩ := deletion_ops hd hp.lists hs.sorted op hop
      exact ⟨p, e, hp'⟩
    · rw [h2 (by simpa using hdl)]; exact After.refl hwf hn
  have hdirs : ∀ {r : Result} {js1 js2 : List Job}, Parts o dest copyDest filter src fs r js1 js2 →
      ∀ d ∈ r.missingDirs, posix (Text.Path.join false dest d.path) ≠ [] := by
    intro r js1 js2 hp d hd'
    obtain ⟨c, hc, e⟩ := hp.dirs d hd'
    rw [e]; simp [(hsrc.validDirs c hc).2]
  cases h with
  | @deleting r dirs js1 js2 n _ hs h1 h2 =>
    have hp := setup_parts hwf hd hsrc hs
    refine deleting_after hwf hn ?_ h2
    intro op hop
    obtain ⟨p, e, hp', -⟩ := deletion_ops hd hp.lists hs.sorted op (List.mem_of_mem_take hop)
    exact ⟨p, e, hp'⟩
  | @making r dirs js1 js2 n d q fs1 fs2 fs3 fs4 hs h1 h2 h3 h4 h5 h6 h7 =>
    have hp := setup_parts hwf hd hsrc hs
    have a1 := hdel hs h1 h2
    have a2 := createDirs_after (src := src) h3 a1.wf a1.nolinks fun x hx => hdirs hp x (List.mem_of_mem_take hx)
    have a3 : After src (posix dest) fs2 fs3 := by
      rcases h5 with rfl | h5
      · exact After.refl a2.wf a2.nolinks
      · exact removes_after a2.wf a2.nolinks (hdirs hp d h4) h5
    have a4 : After src (posix dest) fs3 fs' := by
      rcases h7 with rfl | h7
      · exact After.refl a3.wf a3.nolinks
      · exact mkdir_after a3.wf a3.nolinks (prefix_valid (posix_valid _) h6) h7
    exact ((a1.trans a2).trans a3).trans a4
  | @copying r dirs js1 js2 fs1 fs2 s hs h1 h2 h3 h4 =>
    have hp := setup_parts hwf hd hsrc hs
    have a1 := hdel hs h1 h2
    have a2 := createDirs_after (src := src) h3 a1.wf a1.nolinks fun x hx => hdirs hp x hx
    exact (a1.trans a2).trans (during_after hsrc (fun j hj => ⟨_, (hp.jobs1 j hj).choose_spec.1⟩) hp.ok1 a2.wf a2.nolinks h4)
  | @patching r dirs js1 js2 fs1 fs2 s s' hs h1 h2 h3 h4 h5 h6 =>
    have hp := setup_parts hwf hd hsrc hs
    have a1 := hdel hs h1 h2
    have a2 := createDirs_after (src := src) h3 a1.wf a1.nolinks fun x hx => hdirs hp x hx
    have a3 := during_after hsrc (fun j hj => ⟨_, (hp.jobs1 j hj).choose_spec.1⟩) hp.ok1 a2.wf a2.nolinks h4
    refine ((a1.trans a2).trans a3).trans (during_after hsrc (fun j hj => ?_) hp.ok2 a3.wf a3.nolinks h6)
    obtain ⟨f, -, c, hc, -⟩ := hp.jobs2 j hj
    exact ⟨c, hc⟩

/-! ## C38 -/

/-- C38: at whatever point a sync stops, and even if data is lost when files are closed: a file with the size and modification time of the
client's file, which is what makes a later sync take it for up to date, has the client's content or has not been changed at all. -/
theorem C38_never_mistaken (lossy : Bool) (o : Opts) (dest copyDest : Str) (filter : Str → Bool) (src : Source) (fs fs' : Fs)
    (hwf : fs.WF) (hd : DirString dest) (hn : NoLinks fs (posix dest)) (hsrc : src.OK)
    (h : Stopped lossy o dest copyDest filter src fs fs') (path : Path) (content : List UInt8) (mtime : Int) (hf : (path, content, mtime) ∈ src.files)
    (data : List UInt8) (hdata : fs' (posix dest ++ path) = some (.file data mtime)) (hsize : data.length = content.length) :
    data = content ∨ fs (posix dest ++ path) = some (.file data mtime) := by
  rcases (stopped_after hwf hd hn hsrc h).files _ hf with e | e | e | ⟨k, m, e⟩
  · right; rw [← hdata]; exact e.symm
  · rw [e] at hdata; cases hdata
  · rw [e] at hdata; cases hdata
  · left
    rw [e] at hdata
    simp only [Option.some.injEq, Node.file.injEq] at hdata
    obtain ⟨rfl, -⟩ := hdata
    simp only [List.length_take] at hsize
    exact List.take_of_length_le (by omega)

/-- C38: a later sync that succeeds repairs everything: whatever happened to the first one, every file has the client's content in the
end, or it is the same file as before both, with the client's size and modification time (which no sync without `--checksum` changes). -/
theorem C38_later_sync_repairs (lossy : Bool) (o o' : Opts) (dest copyDest copyDest' : Str) (filter filter' : Str → Bool) (src : Source)
    (fs fs' fs'' : Fs) (hwf : fs.WF) (hd : DirString dest) (hn : NoLinks fs (posix dest)) (hsrc : src.OK)
    (h : Stopped lossy o dest copyDest filter src fs fs') (h' : Sync o' dest copyDest' filter' src fs' fs'')
    (hdry : o'.dryRun = false) (hex : o'.existing = false) (path : Path) (content : List UInt8) (mtime : Int)
    (hf : (path, content, mtime) ∈ src.files) :
    fs'' (posix dest ++ path) = some (.file content mtime) ∨
    (o'.checksum = false ∧ fs'' (posix dest ++ path) = fs (posix dest ++ path) ∧
      ∃ data, data.length = content.length ∧ fs (posix dest ++ path) = some (.file data mtime)) := by
  have a := stopped_after hwf hd hn hsrc h
  rcases ((C57_sync_result o' dest copyDest' filter' src fs' fs'' a.wf hd a.nolinks hsrc h').2 hdry).files _ hf (.inl hex) with e | ⟨e1, e2, data, e3, e4⟩
  · exact .inl e
  · simp only at e2 e3 e4
    rcases C38_never_mistaken lossy o dest copyDest filter src fs fs' hwf hd hn hsrc h path content mtime hf data e4 e3 with rfl | e
    · left; rw [e2, e4]
    · exact .inr ⟨e1, by rw [e2, e4, e], data, e3, e⟩

/-- Where a file the server has in the destination ends up in the lists: it is not copied as missing, and patched in place. -/
theorem seen_lists {o : Opts} {dest copyDest : Str} {filter : Str → Bool} {src : Source} {fs : Fs} {r : Result} {dirs : List Dir} {js1 js2 : List Job}
    (hwf : fs.WF) (hs : Setup o dest copyDest filter src fs r dirs js1 js2) (hw : o.whole = false)
    {c : Path × List UInt8 × Int} {d : List UInt8} {m : Int} (hf : fs (posix dest ++ c.1) = some (.file d m)) (hseen : Seen o filter c.1) :
    render c.1 ∉ r.missing.map File.path ∧ ∀ x ∈ r.changed, x.path = render c.1 → x.base ≠ .copyDest := by
  obtain ⟨ld, lc, stat, r0, h1, h2, -, h4, h5, rfl⟩ := hs.lists
  obtain ⟨f1, f2, f3⟩ := C35_destination_wins filter ld lc
  have hbase : Bases ⟨decide (copyDest ≠ []), o.relative && ! o.recursive, stat⟩ (serverFiles filter ld lc) := by
    intro s hs
    rcases f2 s hs with ⟨h, -⟩ | ⟨h, -, e, he, -⟩
    · exact .inl h
    · refine .inr ⟨h, ?_⟩
      simp only [decide_eq_true_eq]
      intro hc; rw [h2 hc] at he; cases he
  obtain ⟨-, c3, c4, c5, -⟩ := C34_files_classified _ _ _ _ _ r0 f1 hbase h5
  obtain ⟨a1, -⟩ := C34_options o.existing o.checksum o.whole r0
  obtain ⟨e, he1, he2⟩ := listed_file hwf h1 hseen hf
  obtain ⟨s, hs1, hs2⟩ := (f3 (render c.1)).mpr (.inl ⟨e, he1, he2⟩)
  constructor
  · intro hm
    rcases (a1 _).mp hm with ⟨-, hm⟩ | ⟨h, -⟩
    · obtain ⟨g, hg, eg⟩ := List.mem_map.mp hm
      obtain ⟨-, hs⟩ := c3 g hg
      rw [eg] at hs
      cases hs with
      | absent h _ => exact h s hs1 hs2
    · rw [hw] at h; cases h
  · intro x hx ex
    rcases adjust_changed hx with h | ⟨g, hg, rfl⟩
    · obtain ⟨c', hc', s', hs', -, rfl⟩ := c5 x h
      simp only at ex ⊢
      rw [ex] at hs'
      cases hs' with
      | listed k1 k2 =>
        rcases f2 s' k1 with ⟨h, -⟩ | ⟨-, h, -⟩
        · rw [h]; simp
        · rw [k2] at h; exact absurd he2 (h e he1)
      | found k1 => exact absurd hs2 (k1 s hs1)
      | foundCopy k1 => exact absurd hs2 (k1 s hs1)
    · have := (c4 g hg).1
      unfold Source.fileList at this
      obtain ⟨i, hi, rfl⟩ := List.mem_mapIdx.mp this
      simp [Changed.mk']

/-- The effect of interrupted transfers on a file that is there already, if it has no job or one with a temporary file. -/
theorem during_kept {lossy : Bool} {src : Source} {D : Path} (hsrc : src.OK) {js : List Job} (hjobs : ∀ j ∈ js, ∃ c, JobOf src D j c)
    (hok : JobsOK D js) {fs : Fs} (hn : NoLinks fs D) {s : MState} (h : During lossy js fs s) {c : Path × List UInt8 × Int} (hc : c ∈ src.files)
    (hf : fs (D ++ c.1) ≠ none) (ht : ∀ j ∈ js, JobOf src D j c → j.temp ≠ none) :
    s.fs (D ++ c.1) = fs (D ++ c.1) ∨ ((∃ j ∈ js, JobOf src D j c) ∧ (s.fs (D ++ c.1) = none ∨
      ∃ k m, s.fs (D ++ c.1) = some (.file (c.2.1.take k) m) ∧ (lossy = false → c.2.1.take k = c.2.1))) := by
  have inv := micro_inv hok hn h
  by_cases htt : Touched js (D ++ c.1)
  · obtain ⟨j, hj, e⟩ := htt
    obtain ⟨c', hc'⟩ := hjobs j hj
    rcases e with e | e
    · have : c = c' := List.inj_on_of_nodup_map hsrc.nodup hc hc'.mem (append_cancel (D := D) (by rw [e, hc'.path]))
      subst this
      have htj := ht j hj hc'
      rw [e]
      obtain ⟨i, hi⟩ := List.mem_iff_getElem?.mp hj
      have hg := inv.good i j hi
      have hw : Whole lossy j (s.fs j.path) → s.fs j.path = fs j.path ∨ ((∃ j ∈ js, JobOf src D j c) ∧ (s.fs j.path = none ∨
          ∃ k m, s.fs j.path = some (.file (c.2.1.take k) m) ∧ (lossy = false → c.2.1.take k = c.2.1))) := by
        rintro ⟨k, m, e, e2⟩
        exact .inr ⟨⟨j, hj, hc'⟩, .inr ⟨k, m, by rw [e, hc'.data], by rw [hc'.data] at e2; exact e2⟩⟩
      have hnone : s.fs j.path = none → s.fs j.path = fs j.path ∨ ((∃ j ∈ js, JobOf src D j c) ∧ (s.fs j.path = none ∨
          ∃ k m, s.fs j.path = some (.file (c.2.1.take k) m) ∧ (lossy = false → c.2.1.take k = c.2.1))) := fun e => .inr ⟨⟨j, hj, hc'⟩, .inl e⟩
      revert hg
      generalize s.pc i = pc
      intro hg
      cases pc with
      | todo =>
        rcases hg with e | ⟨e, -⟩
        · exact .inl e
        · exact absurd e htj
      | opened k => exact .inl (hg.2 htj)
      | closed => exact .inl (hg.2 htj)
      | removed => exact hnone hg.2.2
      | renamed => exact hw hg.1
      | done =>
        obtain ⟨⟨k, hm, e2⟩, -⟩ := hg
        exact hw ⟨k, _, hm, e2⟩
      | failed =>
        rcases hg with e | e | ⟨e, -⟩ | ⟨e, -⟩ | e
        · exact .inl e
        · exact hnone e
        · exact absurd e htj
        · exact absurd e htj
        · exact hw e
    · have := hc'.temp _ e
      exact absurd (append_cancel this) (hsrc.noTemp c hc c' hc'.mem)
  · rcases inv.frame _ htt with e | ⟨e, -⟩
    · exact .inl e
    · exact absurd e hf

/-- C90: a file that is in the destination and patched (no `--whole-file`) has its old content, the client's or is absent, at whatever
point the sync stops. Missing: data lost when the patched file is closed, see `C90_patched_violated`. -/
theorem C90_patched_partial (o : Opts) (dest copyDest : Str) (filter : Str → Bool) (src : Source) (fs fs' : Fs)
    (hwf : fs.WF) (hd : DirString dest) (hn : NoLinks fs (posix dest)) (hsrc : src.OK)
    (h : Stopped false o dest copyDest filter src fs fs') (hw : o.whole = false) (path : Path) (content : List UInt8) (mtime : Int)
    (hf : (path, content, mtime) ∈ src.files) (hseen : Seen o filter path) (oldData : List UInt8) (oldTime : Int)
    (hold : fs (posix dest ++ path) = some (.file oldData oldTime)) :
    fs' (posix dest ++ path) = some (.file oldData oldTime) ∨ fs' (posix dest ++ path) = none ∨
      ∃ m, fs' (posix dest ++ path) = some (.file content m) := by
  have hdel : ∀ {r : Result} {dirs : List Dir} {js1 js2 : List Job} {fs1 : Fs}, Setup o dest copyDest filter src fs r dirs js1 js2 →
      ∀ {ops : List (Str × Bool)}, (∀ op ∈ ops, op ∈ deletionOps r dirs) → DeleteAll dest ops fs fs1 →
      fs1 (posix dest ++ path) = some (.file oldData oldTime) := by
    intro r dirs js1 js2 fs1 hs ops hops hda
    have hp := setup_parts hwf hd hsrc hs
    rw [deleteAll_eq hda]
    refine (if_neg ?_).trans hold
    intro hm
    obtain ⟨op, hop, e⟩ := List.mem_map.mp hm
    obtain ⟨p, e', -, hne⟩ := deletion_ops hd hp.lists hs.sorted op (hops op hop)
    rw [e'] at e
    exact hne _ hf _ _ hold (append_cancel e)
  have hdel2 : ∀ {r : Result} {dirs : List Dir} {js1 js2 : List Job} {fs1 : Fs}, Setup o dest copyDest filter src fs r dirs js1 js2 →
      (o.delete = true → DeleteAll dest (deletionOps r dirs) fs fs1) → (o.delete = false → fs1 = fs) →
      fs1 (posix dest ++ path) = some (.file oldData oldTime) ∧ NoLinks fs1 (posix dest) := by
    intro r dirs js1 js2 fs1 hs h1 h2
    have hp := setup_parts hwf hd hsrc hs
    by_cases hdl : o.delete = true
    · refine ⟨hdel hs (fun _ h => h) (h1 hdl), (deleting_after (src := src) hwf hn ?_ (h1 hdl)).nolinks⟩
      intro op hop
      obtain ⟨p, e, hp', -⟩ := deletion_ops hd hp.lists hs.sorted op hop
      exact ⟨p, e, hp'⟩
    · rw [h2 (by simpa using hdl)]; exact ⟨hold, hn⟩
  have hnotdir : ∀ {r : Result} {js1 js2 : List Job}, Parts o dest copyDest filter src fs r js1 js2 →
      ∀ d ∈ r.missingDirs, posix dest ++ path ≠ posix (Text.Path.join false dest d.path) := by
    intro r js1 js2 hp d hd' e
    obtain ⟨c, hc, e'⟩ := hp.dirs d hd'
    rw [e'] at e
    exact hsrc.disjoint _ hf (by rw [append_cancel e]; exact hc)
  have hcreate : ∀ {r : Result} {js1 js2 : List Job}, Parts o dest copyDest filter src fs r js1 js2 → ∀ {l : List Dir} {fs1 fs2 : Fs},
      (∀ d ∈ l, d ∈ r.missingDirs) → CreateDirs dest l fs1 fs2 → fs1 (posix dest ++ path) = some (.file oldData oldTime) →
      fs2 (posix dest ++ path) = some (.file oldData oldTime) := by
    intro r js1 js2 hp l fs1 fs2 hl hc e
    rcases (createDirs_spec hc).2.1 (posix dest ++ path) (by
      rintro ⟨d, hd', e⟩
      exact hnotdir hp d (hl d hd') e) with e' | ⟨e', -⟩
    · rw [e']; exact e
    · rw [e] at e'; cases e'
  cases h with
  | @deleting r dirs js1 js2 n _ hs h1 h2 => exact .inl (hdel hs (fun op hop => List.mem_of_mem_take hop) h2)
  | @making r dirs js1 js2 n d q fs1 fs2 fs3 fs4 hs h1 h2 h3 h4 h5 h6 h7 =>
    have hp := setup_parts hwf hd hsrc hs
    obtain ⟨e1, n1⟩ := hdel2 hs h1 h2
    have e2 := hcreate hp (fun d hd' => List.mem_of_mem_take hd') h3 e1
    have e3 : fs3 (posix dest ++ path) = some (.file oldData oldTime) := by
      rcases h5 with rfl | h5
      · exact e2
      · rw [removes_eq h5, set_ne (hnotdir hp d h4)]; exact e2
    left
    rcases h7 with rfl | h7
    · exact e3
    · rcases (mkdir_spec h7).2 (posix dest ++ path) (by simp) with e | ⟨e, -⟩
      · rw [e]; exact e3
      · rw [e3] at e; cases e
  | @copying r dirs js1 js2 fs1 fs2 s hs h1 h2 h3 h4 =>
    have hp := setup_parts hwf hd hsrc hs
    obtain ⟨e1, n1⟩ := hdel2 hs h1 h2
    have e2 := hcreate hp (fun _ h => h) h3 e1
    have n2 := (createDirs_spec h3).2.2.2 _ n1
    obtain ⟨k1, -⟩ := seen_lists hwf hs hw (c := (path, content, mtime)) hold hseen
    have hno : ∀ j ∈ js1, ¬ JobOf src (posix dest) j (path, content, mtime) := by
      intro j hj hjo
      obtain ⟨c, hc, hm⟩ := hp.jobs1 j hj
      have : c.1 = path := append_cancel (D := posix dest) (by rw [← hc.path, hjo.path])
      rw [this] at hm
      exact k1 hm
    rcases during_kept hsrc (fun j hj => ⟨_, (hp.jobs1 j hj).choose_spec.1⟩) hp.ok1 n2 h4 hf (by rw [e2]; simp) (fun j hj hjo => absurd hjo (hno j hj)) with e | ⟨⟨j, hj, hjo⟩, -⟩
    · left; rw [e]; exact e2
    · exact absurd hjo (hno j hj)
  | @patching r dirs js1 js2 fs1 fs2 s s' hs h1 h2 h3 h4 h5 h6 =>
    have hp := setup_parts hwf hd hsrc hs
    obtain ⟨e1, n1⟩ := hdel2 hs h1 h2
    have e2 := hcreate hp (fun _ h => h) h3 e1
    have n2 := (createDirs_spec h3).2.2.2 _ n1
    obtain ⟨k1, k2⟩ := seen_lists hwf hs hw (c := (path, content, mtime)) hold hseen
    have hno : ∀ j ∈ js1, ¬ JobOf src (posix dest) j (path, content, mtime) := by
      intro j hj hjo
      obtain ⟨c, hc, hm⟩ := hp.jobs1 j hj
      have : c.1 = path := append_cancel (D := posix dest) (by rw [← hc.path, hjo.path])
      rw [this] at hm
      exact k1 hm
    have n3 := (micro_inv hp.ok1 n2 h4).nolinks
    have e3 : s.fs (posix dest ++ path) = some (.file oldData oldTime) := by
      rcases during_kept hsrc (fun j hj => ⟨_, (hp.jobs1 j hj).choose_spec.1⟩) hp.ok1 n2 h4 hf (by rw [e2]; simp) (fun j hj hjo => absurd hjo (hno j hj)) with e | ⟨⟨j, hj, hjo⟩, -⟩
      · rw [e]; exact e2
      · exact absurd hjo (hno j hj)
    have ht : ∀ j ∈ js2, JobOf src (posix dest) j (path, content, mtime) → j.temp ≠ none := by
      intro j hj hjo
      obtain ⟨f, hf', c, hc, e, hb⟩ := hp.jobs2 j hj
      have : c.1 = path := append_cancel (D := posix dest) (by rw [← hc.path, hjo.path])
      rw [this] at e
      exact hb (k2 f hf' e)
    have hjo2 : ∀ j ∈ js2, ∃ c, JobOf src (posix dest) j c := by
      intro j hj
      obtain ⟨f, -, c, hc, -⟩ := hp.jobs2 j hj
      exact ⟨c, hc⟩
    rcases during_kept hsrc hjo2 hp.ok2 n3 h6 hf (by rw [e3]; simp) ht with e | ⟨-, e | ⟨k, m, e, e'⟩⟩
    · left; rw [e]; exact e3
    · exact .inr (.inl e)
    · refine .inr (.inr ⟨m, ?_⟩)
      have e'' := e' rfl
      simp only at e'' e
      rw [e, e'']

/-! ## C59 -/

/-- C59: if the transfers of a sync end without an error and nothing is lost when a file is closed, every missing and every changed file
has the client's content and modification time, and the temporary files are gone. Missing: data lost when a file is closed. -/
theorem C59_success_means_written_partial (o : Opts) (dest copyDest : Str) (filter : Str → Bool) (src : Source) (fs fs2 : Fs) (r : Result)
    (dirs : List Dir) (js1 js2 : List Job) (s s' : MState)
    (hwf : fs.WF) (hd : DirString dest) (hsrc : src.OK) (hs : Setup o dest copyDest filter src fs r dirs js1 js2) (hn : NoLinks fs2 (posix dest))
    (h1 : During false js1 fs2 s) (h1' : AllDone js1 s) (h2 : During false js2 s.fs s') (h2' : AllDone js2 s') :
    ∀ f ∈ src.files, render f.1 ∈ r.missing.map File.path ∨ render f.1 ∈ r.changed.map Changed.path →
      s'.fs (posix dest ++ f.1) = some (.file f.2.1 f.2.2) ∧
      (render f.1 ∈ r.changed.map Changed.path → (∃ x ∈ r.changed, x.path = render f.1 ∧ x.base ≠ .copyDest) → s'.fs (posix dest ++ tempOf f.1) = none) := by
  have hp := setup_parts hwf hd hsrc hs
  have i1 := micro_inv hp.ok1 hn h1
  have i2 := micro_inv hp.ok2 i1.nolinks h2
  have hfin : ∀ {js : List Job} {old : Fs} {st : MState}, MicroInv false (posix dest) js old st → AllDone js st → ∀ j ∈ js,
      st.fs j.path = some (.file j.data j.mtime) ∧ (j.temp ≠ none → st.fs j.dst = none) := by
    intro js old st inv hall j hj
    obtain ⟨i, hi⟩ := List.mem_iff_getElem?.mp hj
    have hg := inv.good i j hi
    rw [hall i (List.getElem?_eq_some_iff.mp hi).1] at hg
    obtain ⟨⟨k, e1, e2⟩, e3⟩ := hg
    rw [e2 rfl] at e1
    exact ⟨e1, e3⟩
  intro f hf hm
  have hnd := List.nodup_append.mp hp.lists.nodup
  by_cases hch : render f.1 ∈ r.changed.map Changed.path
  · obtain ⟨x, hx, ex⟩ := List.mem_map.mp hch
    obtain ⟨j, hj, hjc⟩ := forall₂_left hs.changed x hx
    obtain ⟨c, hc, e, -, hb⟩ := changedJob_of hd hsrc (hp.lists.changed x hx) hjc
    have : c = f := List.inj_on_of_nodup_map hsrc.nodup hc.mem hf
      (render_inj (hsrc.validFiles c hc.mem).1 (hsrc.validFiles f hf).1 (by rw [← e, ex]))
    subst this
    obtain ⟨e1, e2⟩ := hfin i2 h2' j hj
    refine ⟨by rw [← hc.path, e1, hc.data, hc.mtime], fun _ ⟨y, hy, ey, hyb⟩ => ?_⟩
    have hxy : x = y := List.inj_on_of_nodup_map hnd.2.1 hx hy (by rw [ex, ey])
    subst hxy
    have ht := hb hyb
    rcases dst_cases j with ⟨h, -⟩ | h
    · exact absurd h ht
    · rw [← hc.temp _ h]; exact e2 ht
  · have hmi := hm.resolve_right hch
    refine ⟨?_, fun h => absurd h hch⟩
    obtain ⟨x, hx, ex⟩ := List.mem_map.mp hmi
    obtain ⟨j, hj, hjc⟩ := forall₂_left hs.missing x hx
    obtain ⟨c, hc, e, -⟩ := missingJob_of hd hsrc (hp.lists.missing x hx) hjc
    have : c = f := List.inj_on_of_nodup_map hsrc.nodup hc.mem hf
      (render_inj (hsrc.validFiles c hc.mem).1 (hsrc.validFiles f hf).1 (by rw [← e, ex]))
    subst this
    obtain ⟨e1, -⟩ := hfin i1 h1' j hj
    have hnt : ¬ Touched js2 (posix dest ++ c.1) := by
      rintro ⟨k, hk, hkc⟩
      obtain ⟨y, hy, c', hc', ey, -⟩ := hp.jobs2 k hk
      rcases hkc with hkc | hkc
      · have : c.1 = c'.1 := append_cancel (D := posix dest) (by rw [hkc, hc'.path])
        exact hch (List.mem_map.mpr ⟨y, hy, by rw [ey, this]⟩)
      · exact absurd (append_cancel (hc'.temp _ hkc)) (hsrc.noTemp c hf c' hc'.mem)
    rcases i2.frame _ hnt with e | ⟨e, -⟩
    · rw [e, ← hc.path, e1, hc.data, hc.mtime]
    · rw [← hc.path, e1] at e; cases e

end Verif.Sync
