import Verif.Updater.Heal
import Verif.Updater.MountedExample

/-! # Example: a disturbed update, an interrupted one and an undisturbed one (C122-C124) -/
namespace Verif.Updater
open Verif.Manifest

/-- The source directory is `A` before the time `k` and then `B`; the files in `bad` and the directories in `badDirs` cannot be read. -/
def changing (A B : Node) (k : Nat) (bad badDirs : List (List Name)) : World where
  dir := fun t => if t < k then A else B
  reads := fun t p c => ∃ m, (if t < k then A else B).at p = some (.file m c)
  fails := fun t p => p ∈ bad ∨ ∀ m c, (if t < k then A else B).at p ≠ some (.file m c)
  unlisted := fun t p => p ∈ badDirs ∨ ∀ m es, (if t < k then A else B).at p ≠ some (.dir m es)

section
variable (A B : Node) (k : Nat) (bad : List (List Name)) (badDirs : List (List Name))

/-- Processes assets in order, one at each moment. -/
def roughExec (P : Env) : Nat → Nat → Builder → Todo → Option (Nat × Builder)
  | 0, _, _, _ => none
  | _ + 1, t, b, [] => some (t, b)
  | n + 1, t, b, (p, .directory) :: q =>
    match (if t + 1 < k then A else B).at p with
    | some (.dir _ es) => if p ∈ badDirs then
        (match scanFailed P.cfg p b with
        | .ok b' => roughExec P n (t + 1) b' q
        | .error _ => none)
      else match scanDir P.cfg (es.map fun e => e.2.info e.1) p b with
        | .ok (b', new) => roughExec P n (t + 1) b' (q ++ new)
        | .error _ => none
    | _ => match scanFailed P.cfg p b with
      | .ok b' => roughExec P n (t + 1) b' q
      | .error _ => none
  | n + 1, t, b, (p, .file) :: q =>
    if p ∈ bad then
      match editAsset P.cfg .file false p.dropLast (p.getLastD []) (onInfo failed) b with
      | .ok b' => roughExec P n (t + 1) b' q
      | .error _ => none
    else match (if t + 1 < k then A else B).at p with
    | some (.file _ c) => match editAsset P.cfg .file false p.dropLast (p.getLastD []) (onInfo (chunked P c)) b with
      | .ok b' => roughExec P n (t + 1) b' q
      | .error _ => none
    | _ => match editAsset P.cfg .file false p.dropLast (p.getLastD []) (onInfo failed) b with
      | .ok b' => roughExec P n (t + 1) b' q
      | .error _ => none
  | _ + 1, _, _, _ :: _ => none

variable {A B k bad badDirs}

theorem roughExec_rough (hA : A.Proper) (hB : B.Proper) {P : Env} {t0 : Nat} {b0 : Builder} (n : Nat) : ∀ {b b' : Builder} {q : Todo} {t t' : Nat}, (∀ e ∈ q, e.2 = .file → e.1 ≠ []) →
    Rough P (changing A B k bad badDirs) t0 b0 b q t → roughExec A B k bad badDirs P n t b q = some (t', b') → Rough P (changing A B k bad badDirs) t0 b0 b' [] t' := by
  induction n with
  | zero => intro b b' q t t' _ _ h; cases h
  | succ n ih =>
    intro b b' q t t' hne hr h
    rcases q with _ | ⟨⟨p, kind⟩, q⟩
    · rw [roughExec] at h; cases h; exact hr
    have hq : ∀ e ∈ q, e.2 = .file → e.1 ≠ [] := fun e he => hne e (List.mem_cons_of_mem _ he)
    cases kind with
    | unknown => cases h
    | symlink => cases h
    | directory =>
      have hfail : (changing A B k bad badDirs).unlisted (t + 1) p → ∀ b1, scanFailed P.cfg p b = .ok b1 → roughExec A B k bad badDirs P n (t + 1) b1 q = some (t', b') → Rough P (changing A B k bad badDirs) t0 b0 b' [] t' := by
        intro hun b1 h1 h2
        refine ih hq ?_ h2
        have := hr.scanFails p (t + 1) (Nat.le_succ _) List.mem_cons_self hun h1
        rw [List.erase_cons_head] at this; exact this
      rw [roughExec] at h
      split at h
      · rename_i m es hs
        split at h
        · rename_i hbd
          split at h
          · rename_i hd; exact hfail (.inl hbd) _ hd h
          · cases h
        · split at h
          · rename_i b1 new hd
            have hp : (if t + 1 < k then A else B).Proper := by split <;> assumption
            have hrs := hr.scan p (t + 1) (Nat.le_succ _) List.mem_cons_self (listing := es.map fun e => e.2.info e.1) (by
                rw [List.map_map]; exact hp p m es hs) (by
                intro i hi
                obtain ⟨⟨n, y⟩, h2, rfl⟩ := List.mem_map.mp hi
                refine ⟨t + 1, y, Nat.le_succ _, Nat.le_refl _, ?_, rfl⟩
                show (if t + 1 < k then A else B).at (p ++ [n]) = _
                rw [at_entry hp hs h2 []]; cases y <;> rfl) (by
                intro n hn
                have h2 := hn (t + 1) (Nat.le_succ _) (Nat.le_refl _)
                have h2 : (if t + 1 < k then A else B).at (p ++ [n]) ≠ none := h2
                refine Decidable.byContradiction (dec := Classical.propDecidable _) fun hno => h2 ?_
                refine at_no_entry hs (fun e he hen => hno ?_) []
                exact ⟨_, List.mem_map.mpr ⟨e, he, rfl⟩, hen⟩) hd
            rw [List.erase_cons_head] at hrs
            refine ih ?_ hrs h
            have hnew : ∀ e ∈ new, e.1 ≠ [] := by
              intro e he
              have : ∀ (ops : List Oper) (b b' : Builder) (q q' : Todo), addAll P.cfg p ops b q = .ok (b', q') → (∀ e ∈ q, e.1 ≠ []) → ∀ e ∈ q', e.1 ≠ [] := by
                intro ops
                have hone : ∀ i, ∀ e ∈ toQueueAt p i, e.1 ≠ [] := by
                  intro i e he
                  unfold toQueueAt at he
                  split at he
                  · rw [List.mem_singleton] at he; rw [he]; simp
                  · cases he
                induction ops with
                | nil => intro b b' q q' h hq; cases h; exact hq
                | cons o ops ih =>
                  intro b b' q q' h hq
                  cases o with
                  | add i =>
                    rw [addAll] at h
                    split at h
                    · cases h
                    · refine ih _ _ _ _ h fun e he => ?_
                      rcases List.mem_append.mp he with h1 | h1
                      · exact hq e h1
                      · exact hone i e h1
                  | update i =>
                    rw [addAll] at h
                    split at h
                    · cases h
                    · refine ih _ _ _ _ h fun e he => ?_
                      rcases List.mem_append.mp he with h1 | h1
                      · exact hq e h1
                      · exact hone i e h1
                  | delete i => exact ih _ _ _ _ h hq
                  | keep i => exact ih _ _ _ _ h hq
              unfold scanDir at hd
              split at hd
              · cases hd
              split at hd
              · cases hd
              dsimp only at hd
              split at hd
              · cases hd
              split at hd
              · cases hd
              split at hd
              · cases hd
              rename_i h4
              split at hd
              · cases hd
              cases hd
              exact this _ _ _ _ _ h4 (fun e he => nomatch he) e he
            intro e he hk
            rcases List.mem_append.mp he with h1 | h1
            · exact hq e h1 hk
            · exact hnew e h1
          · cases h
      · rename_i hnd
        split at h
        · rename_i hd; exact hfail (.inr fun m es => hnd m es) _ hd h
        · cases h
    | file =>
      have hp0 := hne _ List.mem_cons_self rfl
      rcases List.eq_nil_or_concat p with rfl | ⟨p', x, rfl⟩
      · exact absurd rfl hp0
      rw [List.concat_eq_append] at *
      rw [roughExec, show (p' ++ [x]).dropLast = p' by simp, show (p' ++ [x]).getLastD [] = x by simp] at h
      have hfail : (changing A B k bad badDirs).fails (t + 1) (p' ++ [x]) → ∀ b1, editAsset P.cfg .file false p' x (onInfo failed) b = .ok b1 →
          roughExec A B k bad badDirs P n (t + 1) b1 q = some (t', b') → Rough P (changing A B k bad badDirs) t0 b0 b' [] t' := by
        intro hf b1 h1 h2
        refine ih hq ?_ h2
        have := hr.fileFails p' x (t + 1) (Nat.le_succ _) List.mem_cons_self hf h1
        rw [List.erase_cons_head] at this; exact this
      split at h
      · rename_i hb
        split at h
        · rename_i hd; exact hfail (.inl hb) _ hd h
        · cases h
      · split at h
        · rename_i m c hs
          split at h
          · rename_i b1 hd
            have := hr.file p' x (t + 1) (Nat.le_succ _) List.mem_cons_self ⟨m, hs⟩ hd
            rw [List.erase_cons_head] at this
            exact ih hq this h
          · cases h
        · rename_i hs
          split at h
          · rename_i hd; exact hfail (.inr fun m c => hs m c) _ hd h
          · cases h

/-- The update as a whole. -/
def roughOnce (A B : Node) (k : Nat) (bad badDirs : List (List Name)) (P : Env) (t0 : Nat) (b0 : Builder) : Option (Nat × Id × Builder) :=
  match (if t0 < k then A else B) with
  | .dir m _ => match begin_ P.cfg m b0 with
    | .ok b => match roughExec A B k bad badDirs P 100 t0 b [([], .directory)] with
      | some (t, b) => (flush P.cfg 50 b).map fun r => (t, r.1, r.2)
      | none => none
    | .error _ => none
  | .file _ _ => none

theorem roughOnce_rough (hA : A.Proper) (hB : B.Proper) {P : Env} {t0 t : Nat} {b0 b' : Builder} {id : Id} (h : roughOnce A B k bad badDirs P t0 b0 = some (t, id, b')) :
    ∃ b, Rough P (changing A B k bad badDirs) t0 b0 b [] t ∧ flush P.cfg 50 b = some (id, b') := by
  unfold roughOnce at h
  split at h
  · rename_i hd
    split at h
    · rename_i hb
      split at h
      · rename_i he
        obtain ⟨r, h1, h2⟩ := Option.map_eq_some_iff.mp h
        cases h2
        refine ⟨_, roughExec_rough (badDirs := badDirs) hA hB 100 ?_ (Rough.start t0 (Nat.le_refl _) hd hb) he, h1⟩
        intro e he hk
        rw [List.mem_singleton] at he
        rw [he] at hk; cases hk
      · cases h
    · cases h
  · cases h

end

/-! ### Checking the assumptions -/

/-- All that the manifest may get. -/
def candidates (A B : Node) : List (List Name × Kind × Int × Nat) :=
  [A, B].flatMap fun v => v.all.flatMap fun e => (e.1, e.2.kind, e.2.mtime, e.2.size) :: (if e.2.kind = .file then (e.1, .file, e.2.mtime, 0) ::
    [A, B].flatMap fun w => (w.all.filter fun e' => e'.1 = e.1).map fun e' => (e.1, .file, e.2.mtime, e'.2.size) else [])

theorem known_candidates {A B : Node} {k : Nat} {bad badDirs : List (List Name)} {t : Nat} {p : List Name} {kind : Kind} {m : Int} {s : Nat}
    (h : Known (changing A B k bad badDirs) t B p kind m s) : (p, kind, m, s) ∈ candidates A B := by
  have hdir : ∀ s p x, ((changing A B k bad badDirs).dir s).at p = some x → ∃ v ∈ [A, B], (p, x) ∈ v.all := by
    intro s p x hx
    have hx : (if s < k then A else B).at p = some x := hx
    split at hx
    · exact ⟨A, by simp, mem_all p hx⟩
    · exact ⟨B, by simp, mem_all p hx⟩
  unfold candidates
  rcases h with ⟨v, hv, x, h1, rfl, rfl, rfl⟩ | ⟨s0, x, -, h1, rfl, rfl, h4⟩
  · rw [List.mem_singleton] at hv
    subst hv
    exact List.mem_flatMap.mpr ⟨v, by simp, List.mem_flatMap.mpr ⟨_, mem_all p h1, List.mem_cons_self⟩⟩
  · obtain ⟨v, hv, hx⟩ := hdir s0 p x h1
    refine List.mem_flatMap.mpr ⟨v, hv, List.mem_flatMap.mpr ⟨_, hx, ?_⟩⟩
    rcases h4 with rfl | ⟨hk, s', -, h5⟩
    · exact List.mem_cons_self
    · refine List.mem_cons_of_mem _ ?_
      rw [if_pos hk, hk]
      rcases h5 with ⟨c, ⟨m', h5⟩, rfl⟩ | ⟨-, rfl⟩
      · refine List.mem_cons_of_mem _ ?_
        obtain ⟨w, hw, hy⟩ := hdir s' p (.file m' c) h5
        exact List.mem_flatMap.mpr ⟨w, hw, List.mem_map.mpr ⟨_, List.mem_filter.mpr ⟨hy, by simp⟩, rfl⟩⟩
      · exact List.mem_cons_self

theorem apart_changing {A B : Node} {k : Nat} {bad badDirs : List (List Name)} {t : Nat} (h : ∀ e ∈ candidates A B, ∀ e' ∈ candidates A B, e.1 ≠ [] → e'.1 ≠ [] →
    e.1.getLast? = e'.1.getLast? → e.2 = e'.2 → e.1.dropLast = e'.1.dropLast) {S : List Stored} : Apart S (Known (changing A B k bad badDirs) t B) := by
  refine apart_of_stamps ?_
  intro p q n kind m s h1 h2
  have := h _ (known_candidates h1) _ (known_candidates h2) (by simp) (by simp) (by simp) rfl
  simpa using this

theorem reads_changing {A B : Node} {k : Nat} {bad badDirs : List (List Name)} (h : Detects A B) : ∀ p s s' m c0 c c', s ≤ s' →
    ((changing A B k bad badDirs).dir s).at p = some (.file m c0) → (changing A B k bad badDirs).reads s' p c → B.at p = some (.file m c') → c.length = c'.length → c = c' := by
  intro p s s' m c0 c c' hss h1 ⟨m', h2⟩ h3 h4
  have h1 : (if s < k then A else B).at p = some (.file m c0) := h1
  by_cases hs : s' < k
  · rw [if_pos hs] at h2
    rw [if_pos (Nat.lt_of_le_of_lt hss hs), h2] at h1
    cases h1
    exact h p _ _ _ h2 h3 h4
  · rw [if_neg hs, h3] at h2
    cases h2; rfl

theorem empty_changing {A B : Node} {k : Nat} {bad badDirs : List (List Name)} (h : ∀ e ∈ B.all, e.2.kind = .file → e.2.size = 0 → e.1 ∉ bad ∧ ∃ m c, A.at e.1 = some (.file m c)) : ∀ p s s' m c0, s ≤ s' →
    ((changing A B k bad badDirs).dir s).at p = some (.file m c0) → (changing A B k bad badDirs).fails s' p → B.at p ≠ some (.file m []) := by
  intro p s s' m c0 _ _ hf hB
  obtain ⟨h1, m', c', h2⟩ := h _ (mem_all p hB) rfl rfl
  rcases hf with hf | hf
  · exact h1 hf
  · split at hf
    · exact hf _ _ h2
    · exact hf _ _ hB

/-! ### The example -/

namespace Ex
open Reflush (longName)

/-- The update of `src1`; the directory becomes `src2` at the time 6. One file cannot be read, and neither can an empty directory. -/
def r1 := (roughOnce src1 src2 6 [[[98]]] [[[101]]] P 0 { root := newAsset P.cfg [] .directory, store := [] }).getD (0, [], { root := newAsset P.cfg [] .directory, store := [] })
/-- It is interrupted afterwards; some chunks are left behind. -/
def junk : List Stored := [.assets [], .chunks []]
def rl := (loadManifest P.cfg (r1.2.2.store ++ junk) r1.2.1).getD r1.2.2
def r2 := (updateOnce P src2 rl).getD ([], rl)

theorem getD_triple {α β γ : Type} {o : Option (α × β × γ)} {d : α × β × γ} (h : o.isSome = true) : o = some ((o.getD d).1, (o.getD d).2.1, (o.getD d).2.2) := by
  cases o with
  | none => cases h
  | some => rfl

set_option maxRecDepth 20000 in
theorem rough1 : roughOnce src1 src2 6 [[[98]]] [[[101]]] P 0 { root := newAsset P.cfg [] .directory, store := [] } = some (r1.1, r1.2.1, r1.2.2) := by
  unfold r1
  exact getD_triple (by decide +kernel)

set_option maxRecDepth 20000 in
theorem roughTime : r1.1 = 13 := by decide +kernel

set_option maxRecDepth 20000 in
theorem roughLoaded : loadManifest P.cfg (r1.2.2.store ++ junk) r1.2.1 = some rl := by
  have h : (loadManifest P.cfg (r1.2.2.store ++ junk) r1.2.1).isSome = true := by decide +kernel
  unfold rl
  generalize loadManifest P.cfg (r1.2.2.store ++ junk) r1.2.1 = o at h
  exact Alias.getD_some h

set_option maxRecDepth 20000 in
theorem healed : updateOnce P src2 rl = some (r2.1, r2.2) := by
  unfold r2
  exact getD_pair (by decide +kernel)

set_option maxRecDepth 20000 in
theorem healNoCollision : NoCollision P.cfg.hash r2.2.store := by
  have h : ∀ p ∈ r2.2.store, ∀ q ∈ r2.2.store, hash p = hash q → p = q := by decide +kernel
  exact fun p q hp hq e => h p hp q hq e

set_option maxRecDepth 20000 in
theorem roughNoCollision : NoCollision P.cfg.hash r1.2.2.store := by
  have h : ∀ p ∈ r1.2.2.store, ∀ q ∈ r1.2.2.store, hash p = hash q → p = q := by decide +kernel
  exact fun p q hp hq e => h p hp q hq e

set_option maxRecDepth 20000 in
theorem candidatesApart : ∀ e ∈ candidates src1 src2, ∀ e' ∈ candidates src1 src2, e.1 ≠ [] → e'.1 ≠ [] →
    e.1.getLast? = e'.1.getLast? → e.2 = e'.2 → e.1.dropLast = e'.1.dropLast := by decide +kernel

def isFile : Option Node → Bool
  | some (.file _ _) => true
  | _ => false

theorem isFile_iff {o : Option Node} (h : isFile o = true) : ∃ m c, o = some (.file m c) := by
  unfold isFile at h
  split at h
  · exact ⟨_, _, rfl⟩
  · cases h

end Ex
open Ex
open Reflush (longName)

/-- C122 for this example: the source directory changes during the update, a file and a directory cannot be read, the next update is interrupted and leaves chunks behind. -/
theorem C122_example : ∃ S id b0 b b', Past P (changing src1 src2 6 [[[98]]] [[[101]]]) 20 S (some id) ∧ opens P.cfg S (some id) = some b0 ∧ Run P src2 b0 b [] ∧
    src2.Proper ∧ Apart b'.store (Known (changing src1 src2 6 [[[98]]] [[[101]]]) 20 src2) ∧ Settled (changing src1 src2 6 [[[98]]] [[[101]]]) 20 src2 ∧ (∃ new, flush P.cfg 50 b = some (new, b')) ∧
    NoCollision P.cfg.hash b'.store := by
  obtain ⟨v1, -, v4, v5, -⟩ := versions []
  obtain ⟨b1, h1, f1⟩ := roughOnce_rough v5 v1 rough1
  obtain ⟨b2, h2, f2⟩ := updateOnce_run healed
  rw [roughTime] at h1
  refine ⟨_, _, rl, b2, r2.2, .interrupted 20 junk (.update 50 (.init []) rfl h1 f1) (by decide), roughLoaded, h2, v1, apart_changing candidatesApart, ⟨?_, ?_⟩, ⟨_, f2⟩, healNoCollision⟩
  · intro p s s' m c0 c c' hs _
    exact reads_changing v4 p s s' m c0 c c' hs
  · intro p s s' m c0 hs _
    refine empty_changing ?_ p s s' m c0 hs
    have h : ∀ e ∈ src2.all, e.2.kind = .file → e.2.size = 0 → e.1 ∉ [[[98]]] ∧ isFile (src1.at e.1) = true := by decide +kernel
    intro e he hk hz
    obtain ⟨k1, k2⟩ := h e he hk hz
    exact ⟨k1, isFile_iff k2⟩

/-- A file that is the same all the time. -/
theorem stays_changing {A B : Node} {k : Nat} {bad badDirs : List (List Name)} {t0 t : Nat} {p : List Name} {a : Int} {c : List UInt8} (hA : A.at p = some (.file a c))
    (hB : B.at p = some (.file a c)) (h1 : p ∉ bad) (h2 : ∀ d, d <+: p → d ∉ badDirs) : Stays (changing A B k bad badDirs) t0 t p (.file a c) := by
  have hat : ∀ s, ((changing A B k bad badDirs).dir s).at p = some (.file a c) := by
    intro s
    show (if s < k then A else B).at p = _
    split <;> assumption
  have hrd : ∀ s c', (changing A B k bad badDirs).reads s p c' → c' = c := by
    rintro s c' ⟨m, h⟩
    have := hat s
    have h : ((changing A B k bad badDirs).dir s).at p = _ := h
    rw [this] at h; cases h; rfl
  have hok : ∀ s, ¬ (changing A B k bad badDirs).fails s p := by
    rintro s (h | h)
    · exact h1 h
    · exact h _ _ (hat s)
  refine ⟨fun s _ _ => ⟨_, hat s, rfl, rfl, fun _ => rfl⟩, ?_, ?_, fun s _ _ => hok s, ?_, fun s s' a c0 _ _ _ h => absurd h (hok s')⟩
  · rintro s d - - hd hf (h | h)
    · exact h2 d hd h
    · obtain ⟨r, rfl⟩ := hd
      cases r with
      | nil =>
        rw [List.append_nil] at hf
        cases hf rfl
      | cons n r =>
        obtain ⟨⟨a', es, h3⟩, -⟩ := at_above (hat s)
        exact h _ _ h3
  · intro s c' _ _ h a' c'' e
    cases e
    exact hrd s c' h
  · intro s s' a' c0 c' c'' _ _ _ h e _
    cases e
    exact hrd s' c' h

theorem absent_changing {A B : Node} {k : Nat} {bad badDirs : List (List Name)} {t0 t : Nat} {d : List Name} {n : Name}
    (hA : ∃ a es, A.at d = some (.dir a es) ∧ A.at (d ++ [n]) = none) (hB : ∃ a es, B.at d = some (.dir a es) ∧ B.at (d ++ [n]) = none)
    (h2 : ∀ d', d' <+: d → d' ∉ badDirs) : Absent (changing A B k bad badDirs) t0 t d n := by
  have hat : ∀ s, ∃ a es, ((changing A B k bad badDirs).dir s).at d = some (.dir a es) ∧ ((changing A B k bad badDirs).dir s).at (d ++ [n]) = none := by
    intro s
    show ∃ a es, (if s < k then A else B).at d = some (.dir a es) ∧ (if s < k then A else B).at (d ++ [n]) = none
    split <;> assumption
  refine ⟨fun s _ _ => hat s, ?_⟩
  rintro s d' - - hd (h | h)
  · exact h2 d' hd h
  · obtain ⟨a, es, h3, -⟩ := hat s
    obtain ⟨r, rfl⟩ := hd
    cases r with
    | nil =>
      rw [List.append_nil] at h3
      exact h _ _ h3
    | cons n r =>
      obtain ⟨⟨a', es', h3⟩, -⟩ := at_above h3
      exact h _ _ h3

/-- C123 and C124 for this example: the first update, during which the directory changes from `src1` to `src2`; one file is the same all the time. -/
theorem C124_example : ∃ b0 b b' id, Past P (changing src1 src2 6 [[[98]]] [[[101]]]) 0 [] none ∧ opens P.cfg [] none = some b0 ∧
    Rough P (changing src1 src2 6 [[[98]]] [[[101]]]) 0 b0 b [] 13 ∧ flush P.cfg 50 b = some (id, b') ∧ NoCollision P.cfg.hash b'.store ∧
    Apart b'.store (Seen (changing src1 src2 6 [[[98]]] [[[101]]]) 13) ∧ Stays (changing src1 src2 6 [[[98]]] [[[101]]]) 0 13 [[100], longName 7] (.file 5 (content 20)) ∧
    Absent (changing src1 src2 6 [[[98]]] [[[101]]]) 0 13 [[100]] [122] ∧ (changing src1 src2 6 [[[98]]] [[[101]]]).dir 0 ≠ (changing src1 src2 6 [[[98]]] [[[101]]]).dir 13 := by
  obtain ⟨v1, -, v4, v5, -⟩ := versions []
  obtain ⟨b1, h1, f1⟩ := roughOnce_rough v5 v1 rough1
  rw [roughTime] at h1
  refine ⟨_, b1, _, _, .init [], rfl, h1, f1, roughNoCollision, (apart_changing candidatesApart).seen, stays_changing (by rfl) (by rfl) (by decide) ?_, absent_changing ⟨_, _, rfl, by decide +kernel⟩ ⟨_, _, rfl, by decide +kernel⟩ ?_, ?_⟩
  · intro d hd hh
    rw [List.mem_singleton] at hh
    subst hh
    exact absurd hd (by decide)
  · intro d hd hh
    rw [List.mem_singleton] at hh
    subst hh
    exact absurd hd (by decide)
  · intro h
    have h : src1.at [[115]] = src2.at [[115]] := congrArg (fun x => Node.at x [[115]]) h
    cases h

/-! ### An empty file that could not be read -/

namespace Ex

def srcE : Node := .dir 1 [([102], .file 5 [])]
def e1 := (roughOnce srcE srcE 0 [[[102]]] [] P 0 { root := newAsset P.cfg [] .directory, store := [] }).getD (0, [], { root := newAsset P.cfg [] .directory, store := [] })
def el := (loadManifest P.cfg e1.2.2.store e1.2.1).getD e1.2.2
def e2 := (updateOnce P srcE el).getD ([], el)
def ef := (loadManifest P.cfg e2.2.store e2.1).getD el

theorem emptyRough : roughOnce srcE srcE 0 [[[102]]] [] P 0 { root := newAsset P.cfg [] .directory, store := [] } = some (e1.1, e1.2.1, e1.2.2) := by
  unfold e1
  exact getD_triple (by decide +kernel)

theorem emptyLoaded : loadManifest P.cfg e1.2.2.store e1.2.1 = some el := by
  have h : (loadManifest P.cfg e1.2.2.store e1.2.1).isSome = true := by decide +kernel
  unfold el
  generalize loadManifest P.cfg e1.2.2.store e1.2.1 = o at h
  exact Alias.getD_some h

theorem emptyUpdated : updateOnce P srcE el = some (e2.1, e2.2) := by
  unfold e2
  exact getD_pair (by decide +kernel)

theorem emptyFinal : loadManifest P.cfg e2.2.store e2.1 = some ef := by
  have h : (loadManifest P.cfg e2.2.store e2.1).isSome = true := by decide +kernel
  unfold ef
  generalize loadManifest P.cfg e2.2.store e2.1 = o at h
  exact Alias.getD_some h

end Ex

/-- C122 does not hold for empty files: a file could not be read once; it is empty. After the next, undisturbed update it is still in the manifest with the permissions that are meant for the time
while it is processed, so that it is executable: its time and size are as on disk. -/
theorem C122_empty_file_violated : ∃ W t S id src b0 b b' new r, Past P W t S (some id) ∧ (∀ s, W.dir s = src) ∧ src.Proper ∧ Apart b'.store (Known W t src) ∧
    opens P.cfg S (some id) = some b0 ∧ Run P src b0 b [] ∧ flush P.cfg 50 b = some (new, b') ∧ NoCollision P.cfg.hash b'.store ∧
    loadManifest P.cfg b'.store new = some r ∧ (∃ m, Has P.cfg.hash b'.store r.root [[102]] m ∧ m.perms = 0o755) ∧ ∃ m, want P src [[102]] = some m ∧ m.perms = 0o644 := by
  have hp : srcE.Proper := proper_of (by decide +kernel)
  obtain ⟨b1, h1, f1⟩ := roughOnce_rough hp hp emptyRough
  obtain ⟨b2, h2, f2⟩ := updateOnce_run emptyUpdated
  refine ⟨changing srcE srcE 0 [[[102]]] [], _, _, _, srcE, el, b2, e2.2, _, ef, .update 50 (.init []) rfl h1 f1, ?_, hp, apart_changing (by decide +kernel), emptyLoaded, h2, f2, ?_, emptyFinal, ?_, ?_⟩
  · intro s; rfl
  · have h : ∀ p ∈ e2.2.store, ∀ q ∈ e2.2.store, hash p = hash q → p = q := by decide +kernel
    exact fun p q hp hq e => h p hp q hq e
  · have h : (allAt P.cfg.hash e2.2.store ef.root [[102]]).any (fun m => m.perms == 0o755) = true := by decide +kernel
    obtain ⟨m, k1, k2⟩ := List.any_eq_true.mp h
    exact ⟨m, (has_iff _ _ _ _ _).mpr k1, by simpa using k2⟩
  · exact ⟨_, rfl, by decide⟩

end Verif.Updater
