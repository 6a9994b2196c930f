import Verif.Store.Model
import Mathlib.Data.List.Nodup

namespace Verif.Store

/-! ## Hex -/

theorem hexToInt_intToHex : ∀ n, n < 16 → hexToInt (intToHex n) = some n := by decide

theorem intToHex_not_sep : ∀ n, n < 16 → (intToHex n == '/' || intToHex n == '\\') = false := by decide

theorem intToHex_mem : ∀ n, n < 16 → intToHex n ∈ kDirNames := by decide

theorem char_eq_of_toNat {c d : Char} (h : c.toNat = d.toNat) : c = d := by
  apply Char.ext
  exact UInt32.toNat_inj.mp h

theorem hexToInt_some {c : Char} {n : Nat} (h : hexToInt c = some n) : n < 16 ∧ intToHex n = c := by
  have le : ∀ a b : Char, a ≤ b ↔ a.toNat ≤ b.toNat := fun a b => Iff.rfl
  have e0 : '0'.toNat = 48 := rfl
  have e9 : '9'.toNat = 57 := rfl
  have ea : 'a'.toNat = 97 := rfl
  have ef : 'f'.toNat = 102 := rfl
  unfold hexToInt at h
  simp only [le, e0, e9, ea, ef] at h
  split at h
  · rename_i hc
    cases h
    refine ⟨by omega, ?_⟩
    unfold intToHex
    rw [if_pos (by omega), e0]
    rw [show 48 + (c.toNat - 48) = c.toNat by omega]
    exact Char.ofNat_toNat c
  · split at h
    · rename_i hc
      cases h
      refine ⟨by omega, ?_⟩
      unfold intToHex
      rw [if_neg (by omega), if_pos (by omega), ea]
      rw [show 97 + (c.toNat - 97 + 10) - 10 = c.toNat by omega]
      exact Char.ofNat_toNat c
    · cases h

theorem hexToInt_isSome_iff (c : Char) : (hexToInt c).isSome ↔ c ∈ kDirNames := by
  constructor
  · intro h
    obtain ⟨n, hn⟩ := Option.isSome_iff_exists.mp h
    obtain ⟨h1, h2⟩ := hexToInt_some hn
    rw [← h2]; exact intToHex_mem n h1
  · intro h
    have : ∀ c ∈ kDirNames, (hexToInt c).isSome := by decide
    exact this c h

theorem byte_split (b : UInt8) : UInt8.ofNat (((b.toNat >>> 4) <<< 4) + (b.toNat &&& 0xf)) = b := by
  apply UInt8.toNat_inj.mp
  have := b.toNat_lt
  have h1 : b.toNat &&& 0xf = b.toNat % 16 := Nat.and_two_pow_sub_one_eq_mod _ 4
  rw [UInt8.toNat_ofNat', h1, Nat.shiftLeft_eq, Nat.shiftRight_eq_div_pow]
  omega

theorem hi_lt (b : UInt8) : b.toNat >>> 4 < 16 := by
  have := b.toNat_lt
  rw [Nat.shiftRight_eq_div_pow]; omega

theorem lo_lt (b : UInt8) : b.toNat &&& 0xf < 16 := by
  have h1 : b.toNat &&& 0xf = b.toNat % 16 := Nat.and_two_pow_sub_one_eq_mod _ 4
  omega

theorem toHex_length (id : Id) : (toHex id).length = 2 * id.length := by
  induction id with
  | nil => rfl
  | cons b bs ih => simp [toHex, ih]; omega

theorem fromHexLoop_toHex (id : Id) : fromHexLoop (toHex id) = some id := by
  induction id with
  | nil => rfl
  | cons b bs ih =>
    simp only [toHex, fromHexLoop, hexToInt_intToHex _ (hi_lt b), hexToInt_intToHex _ (lo_lt b), ih, byte_split]
    rfl

theorem fromHexLoop_some : ∀ (s : Str) (id : Id), fromHexLoop s = some id → toHex id = s ∧ s.length = 2 * id.length
  | [], id, h => by cases h; exact ⟨rfl, rfl⟩
  | [_], id, h => by cases h
  | a :: b :: rest, id, h => by
    simp only [fromHexLoop] at h
    split at h
    · rename_i hi lo h1 h2
      cases hr : fromHexLoop rest with
      | none => rw [hr] at h; cases h
      | some r =>
        rw [hr] at h
        cases h
        obtain ⟨i1, i2⟩ := fromHexLoop_some rest r hr
        obtain ⟨l1, e1⟩ := hexToInt_some h1
        obtain ⟨l2, e2⟩ := hexToInt_some h2
        have hb : (UInt8.ofNat ((hi <<< 4) + lo)).toNat = 16 * hi + lo := by
          rw [UInt8.toNat_ofNat', Nat.shiftLeft_eq]; omega
        have h3 : ∀ n, n &&& 0xf = n % 16 := fun n => Nat.and_two_pow_sub_one_eq_mod n 4
        constructor
        · simp only [toHex, hb, i1, h3, Nat.shiftRight_eq_div_pow]
          rw [show (16 * hi + lo) / 2 ^ 4 = hi by omega, show (16 * hi + lo) % 16 = lo by omega, e1, e2]
        · simp [i2]; omega
    · cases h

theorem fromHexLoop_isSome : ∀ (s : Str), (fromHexLoop s).isSome ↔ s.length % 2 = 0 ∧ ∀ c ∈ s, c ∈ kDirNames
  | [] => by simp [fromHexLoop]
  | [_] => by simp [fromHexLoop]
  | a :: b :: rest => by
    have ih := fromHexLoop_isSome rest
    have ha := hexToInt_isSome_iff a
    have hb := hexToInt_isSome_iff b
    simp only [fromHexLoop]
    cases h1 : hexToInt a with
    | none => rw [h1] at ha; simp at ha; simp [ha]
    | some x =>
      cases h2 : hexToInt b with
      | none => rw [h2] at hb; simp at hb; simp [hb]
      | some y =>
        rw [h1] at ha; rw [h2] at hb
        simp at ha hb
        simp only [Option.isSome_map, ih, List.length_cons, List.mem_cons, forall_eq_or_imp, ha, hb, true_and]
        constructor
        · rintro ⟨h, h'⟩; exact ⟨by omega, h'⟩
        · rintro ⟨h, h'⟩; exact ⟨by omega, h'⟩

theorem toHex_chars (id : Id) : ∀ c ∈ toHex id, c ∈ kDirNames := by
  induction id with
  | nil => simp [toHex]
  | cons b bs ih =>
    intro c hc
    simp only [toHex, List.mem_cons] at hc
    rcases hc with rfl | rfl | hc
    · exact intToHex_mem _ (hi_lt b)
    · exact intToHex_mem _ (lo_lt b)
    · exact ih c hc

/-! ## Paths -/

theorem addSepLoop_filter (d : Nat) (f : Char → Bool) (hf : f '/' = false) : ∀ (n : Nat) (s : Str),
    (∀ c ∈ s, f c = true) → (addSepLoop d n s).filter f = s
  | 0, s, h => by simpa [addSepLoop, List.filter_eq_self] using h
  | n + 1, s, h => by
    simp only [addSepLoop]
    split
    · rename_i e; subst e; rfl
    · rw [List.filter_append, List.filter_cons, if_neg (by simp [hf]),
        addSepLoop_filter d f hf n _ (fun c hc => h c (List.drop_subset _ _ hc)),
        List.filter_eq_self.mpr (fun c hc => h c (List.take_subset _ _ hc))]
      exact List.take_append_drop d s

theorem notSep_of_mem : ∀ c ∈ kDirNames, (!(c == '/' || c == '\\')) = true := by decide

theorem filter_cachePath (depth : Nat) (id : Id) :
    (cachePath depth id).filter (fun c => !(c == '/' || c == '\\')) = toHex id := by
  have h : ∀ c ∈ toHex id, (!(c == '/' || c == '\\')) = true := fun c hc => notSep_of_mem c (toHex_chars id c hc)
  unfold cachePath addPathSeparators
  split
  · exact List.filter_eq_self.mpr h
  · exact addSepLoop_filter 2 _ (by decide) _ _ h

theorem toHex_inj {a b : Id} (h : toHex a = toHex b) : a = b := by
  have := fromHexLoop_toHex a
  rw [h, fromHexLoop_toHex] at this
  exact (Option.some.inj this).symm

theorem cachePath_inj {depth : Nat} {a b : Id} (h : cachePath depth a = cachePath depth b) : a = b := by
  apply toHex_inj
  rw [← filter_cachePath depth a, h, filter_cachePath]

theorem parsePath_cachePath (depth : Nat) (id : Id) :
    parsePath depth (cachePath depth id) = if id.length = kHashSize then some id else none := by
  have e : (if depth > 0 then (cachePath depth id).filter (fun c => !(c == '/' || c == '\\')) else cachePath depth id)
      = toHex id := by
    split
    · exact filter_cachePath depth id
    · rename_i h
      have : depth = 0 := by omega
      subst this
      simp [cachePath, addPathSeparators]
  unfold parsePath
  rw [e]
  unfold fromHex
  rw [toHex_length]
  split
  · rename_i h; rw [if_neg (by omega)]
  · rename_i h; rw [if_pos (by omega), fromHexLoop_toHex]

/-! ## File lists -/

theorem find_writeFile (fs : List File) (f : File) (p : Str) :
    (writeFile fs f).find? (fun g => g.path = p) = if f.path = p then some f else fs.find? (fun g => g.path = p) := by
  unfold writeFile
  rw [List.find?_append, List.find?_filter]
  split
  · rename_i h
    subst h
    have : fs.find? (fun a => decide (decide (a.path ≠ f.path) = true ∧ decide (a.path = f.path) = true)) = none := by
      rw [List.find?_eq_none]; intro x _; simp
    rw [this]; simp
  · rename_i h
    have : (fun a : File => decide (decide (a.path ≠ f.path) = true ∧ decide (a.path = p) = true)) =
        fun a => decide (a.path = p) := by
      funext a
      by_cases hp : a.path = p
      · simp [hp, Ne.symm h]
      · simp [hp]
    rw [this]
    simp [h]

theorem find_filter_path (fs : List File) (P : Str → Bool) (p : Str) :
    (fs.filter (fun g => P g.path)).find? (fun g => g.path = p) =
      if P p then fs.find? (fun g => g.path = p) else none := by
  induction fs with
  | nil => simp
  | cons f fs ih =>
    rw [List.filter_cons]
    by_cases h1 : P f.path
    · rw [if_pos h1, List.find?_cons, List.find?_cons, ih]
      by_cases h2 : f.path = p
      · subst h2; simp [h1]
      · simp [h2]
    · rw [if_neg h1, ih, List.find?_cons]
      by_cases h2 : f.path = p
      · subst h2; simp [h1]
      · simp [h2]

theorem find_touch (fs : List File) (q : Str) (now : Nat) (p : Str) :
    ((touch fs q now).find? (fun g => g.path = p)).map File.data =
      (fs.find? (fun g => g.path = p)).map File.data := by
  induction fs with
  | nil => rfl
  | cons f fs ih =>
    simp only [touch, List.map_cons, List.find?_cons]
    by_cases h : f.path = q
    · simp only [h, if_true]
      by_cases h2 : q = p
      · simp [h2]
      · simp only [h2, decide_false]; exact ih
    · simp only [h, if_false]
      by_cases h2 : f.path = p
      · simp [h2]
      · simp only [h2, decide_false]; exact ih

theorem touch_paths (fs : List File) (q : Str) (now : Nat) : (touch fs q now).map File.path = fs.map File.path := by
  simp only [touch, List.map_map]
  congr 1
  funext f
  simp only [Function.comp]
  split <;> rfl

theorem touch_total (fs : List File) (q : Str) (now : Nat) : totalSize (touch fs q now) = totalSize fs := by
  unfold totalSize touch
  rw [List.map_map]
  congr 1; congr 1
  funext f
  simp only [Function.comp]
  split <;> rfl

@[simp] theorem totalSize_nil : totalSize [] = 0 := rfl
@[simp] theorem totalSize_cons (f : File) (fs : List File) : totalSize (f :: fs) = f.data.length + totalSize fs := by
  simp [totalSize]
theorem totalSize_append (a b : List File) : totalSize (a ++ b) = totalSize a + totalSize b := by
  simp [totalSize]
theorem totalSize_perm {a b : List File} (h : a.Perm b) : totalSize a = totalSize b := by
  unfold totalSize; exact (h.map _).sum_nat
theorem totalSize_filter_le (a : List File) (P : File → Bool) : totalSize (a.filter P) ≤ totalSize a := by
  induction a with
  | nil => simp
  | cons f fs ih => rw [List.filter_cons]; split <;> simp <;> omega

theorem totalSize_filter_split (a : List File) (P : File → Bool) :
    totalSize (a.filter P) + totalSize (a.filter (fun f => !P f)) = totalSize a := by
  induction a with
  | nil => simp
  | cons f fs ih =>
    rw [List.filter_cons, List.filter_cons]
    cases h : P f <;> simp <;> omega

/-- Well-formed disk: distinct paths, files that parse as a chunk are where the chunk belongs,
and no files without a root directory. -/
structure WF (depth : Nat) (s : Disk) : Prop where
  nodup : (s.files.map File.path).Nodup
  canon : ∀ f ∈ s.files, ∀ id, parsePath depth f.path = some id → f.path = cachePath depth id
  root : s.rootExists = false → s.files = []

theorem wf_filter {depth : Nat} {s s' : Disk} (h : WF depth s) (P : File → Bool)
    (e : s'.files = s.files.filter P) (er : s'.rootExists = s.rootExists) : WF depth s' where
  nodup := by rw [e]; exact (List.filter_sublist.map _).nodup h.nodup
  canon := by rw [e]; intro f hf; exact h.canon f (List.mem_filter.mp hf).1
  root := by rw [e, er]; intro hr; rw [h.root hr]; rfl

theorem parsePath_cachePath_some {depth : Nat} {id id' : Id} (h : parsePath depth (cachePath depth id) = some id') :
    cachePath depth id = cachePath depth id' := by
  rw [parsePath_cachePath] at h
  split at h
  · cases h; rfl
  · cases h

theorem wf_write {depth : Nat} {s : Disk} (h : WF depth s) (id : Id) (d : Bytes) (now n : Nat) :
    WF depth { s with files := writeFile s.files ⟨cachePath depth id, d, now⟩, size := n, rootExists := true } where
  nodup := by
    simp only [writeFile, List.map_append, List.map_cons, List.map_nil]
    rw [List.nodup_append]
    refine ⟨(List.filter_sublist.map _).nodup h.nodup, by simp, ?_⟩
    intro a ha b hb
    simp only [List.mem_singleton] at hb
    subst hb
    simp only [List.mem_map, List.mem_filter, decide_eq_true_eq] at ha
    obtain ⟨f, ⟨_, hf⟩, rfl⟩ := ha
    exact hf
  canon := by
    intro f hf id' hp
    simp only [writeFile, List.mem_append, List.mem_filter, List.mem_singleton] at hf
    rcases hf with hf | rfl
    · exact h.canon f hf.1 id' hp
    · exact parsePath_cachePath_some hp
  root := by simp

theorem wf_touch {depth : Nat} {s : Disk} (h : WF depth s) (q : Str) (now : Nat) :
    WF depth { s with files := touch s.files q now } where
  nodup := by simp only [touch_paths]; exact h.nodup
  canon := by
    intro f hf
    simp only [touch, List.mem_map] at hf
    obtain ⟨g, hg, rfl⟩ := hf
    split
    · exact h.canon g hg
    · exact h.canon g hg
  root := by intro hr; simp [touch, h.root hr]

theorem totalSize_write_le (fs : List File) (f : File) : totalSize (writeFile fs f) ≤ totalSize fs + f.data.length := by
  unfold writeFile
  rw [totalSize_append]
  have := totalSize_filter_le fs (fun g => decide (g.path ≠ f.path))
  simp only [totalSize_cons, totalSize_nil]; omega

/-! ## Prune -/

/-- The files of `l` that prune should delete. -/
def toDrop (depth : Nat) (keep : List Id) (l : List File) : List File :=
  l.filter fun f => match parsePath depth f.path with
    | none => false
    | some id => decide (id ∉ keep)

theorem removeFile_removeAll (fs : List File) (p : Str) (D : List Str) :
    (removeFile fs p).filter (fun f => decide (f.path ∉ D)) = fs.filter (fun f => decide (f.path ∉ p :: D)) := by
  unfold removeFile
  rw [List.filter_filter]
  congr 1
  funext f
  simp [Bool.and_comm]
  

theorem pruneLoop_spec (depth : Nat) (fails : Str → Bool) : ∀ (l : List File) (s : Disk) (keep : List Id),
    (l.map File.path).Nodup →
    (∀ f ∈ l, ∀ id, parsePath depth f.path = some id → f.path = cachePath depth id) →
    ∃ D, D <+: toDrop depth keep l ∧
      (pruneLoop depth fails l s keep).1.files = s.files.filter (fun f => decide (f.path ∉ D.map File.path)) ∧
      (pruneLoop depth fails l s keep).1.size = s.size - totalSize D ∧
      (pruneLoop depth fails l s keep).1.sizeInit = s.sizeInit ∧
      (pruneLoop depth fails l s keep).1.rootExists = s.rootExists ∧
      ((pruneLoop depth fails l s keep).2.2 = true →
        D = toDrop depth keep l ∧
        (pruneLoop depth fails l s keep).2.1 =
          keep.filter (fun id => decide (∀ f ∈ l, parsePath depth f.path ≠ some id))) ∧
      ((∀ p, fails p = false) → (pruneLoop depth fails l s keep).2.2 = true)
  | [], s, keep, _, _ => by
    refine ⟨[], by simp [toDrop], ?_, ?_, rfl, rfl, ?_, fun _ => rfl⟩
    · exact (List.filter_eq_self.mpr (by simp)).symm
    · simp [pruneLoop]
    · intro _; refine ⟨by simp [toDrop], ?_⟩; exact (List.filter_eq_self.mpr (by simp)).symm
  | f :: fs, s, keep, hn, hc => by
    rw [List.map_cons, List.nodup_cons] at hn
    have hc' : ∀ g ∈ fs, ∀ id, parsePath depth g.path = some id → g.path = cachePath depth id :=
      fun g hg => hc g (by simp [hg])
    unfold pruneLoop
    cases hp : parsePath depth f.path with
    | none =>
      simp only
      obtain ⟨D, d1, d2, d3, d4, d4r, d5, d6⟩ := pruneLoop_spec depth fails fs s keep hn.2 hc'
      refine ⟨D, ?_, d2, d3, d4, d4r, ?_, d6⟩
      · simpa [toDrop, hp] using d1
      · intro h
        obtain ⟨h1, h2⟩ := d5 h
        refine ⟨by rw [h1]; simp [toDrop, hp], ?_⟩
        rw [h2]; simp [hp]
    | some id =>
      have hfp := hc f (by simp) id hp
      -- later files have other ids
      have hne : ∀ g ∈ fs, parsePath depth g.path ≠ some id := by
        intro g hg e
        exact hn.1 (by rw [hfp, ← hc' g hg id e]; exact List.mem_map_of_mem hg)
      simp only
      split
      · rename_i hk
        obtain ⟨D, d1, d2, d3, d4, d4r, d5, d6⟩ :=
          pruneLoop_spec depth fails fs s (keep.filter (· ≠ id)) hn.2 hc'
        have ht : toDrop depth (keep.filter (· ≠ id)) fs = toDrop depth keep fs := by
          unfold toDrop
          apply List.filter_congr
          intro g hg
          cases hg' : parsePath depth g.path with
          | none => rfl
          | some id' =>
            have : id' ≠ id := fun e => hne g hg (by rw [hg', e])
            simp [this]
        have ht2 : toDrop depth keep (f :: fs) = toDrop depth keep fs := by
          simp [toDrop, hp, hk]
        rw [ht] at d1 d5
        refine ⟨D, by rw [ht2]; exact d1, d2, d3, d4, d4r, ?_, d6⟩
        intro h
        obtain ⟨h1, h2⟩ := d5 h
        refine ⟨by rw [ht2]; exact h1, ?_⟩
        rw [h2, List.filter_filter]
        congr 1
        funext i
        simp only [List.mem_cons, forall_eq_or_imp, hp]
        by_cases e : i = id
        · simp [e]
        · simp [e, Ne.symm e]
      · rename_i hk
        have ht2 : toDrop depth keep (f :: fs) = f :: toDrop depth keep fs := by
          simp [toDrop, hp, hk]
        split
        · rename_i hf
          refine ⟨[], by simp, (List.filter_eq_self.mpr (by simp)).symm, by simp, rfl, rfl, by simp, ?_⟩
          intro h; rw [h] at hf; cases hf
        · obtain ⟨D, d1, d2, d3, d4, d4r, d5, d6⟩ :=
            pruneLoop_spec depth fails fs { s.remove depth id with size := s.size - f.data.length } keep hn.2 hc'
          refine ⟨f :: D, ?_, ?_, ?_, d4, d4r, ?_, d6⟩
          · rw [ht2]; exact (List.cons_prefix_cons).mpr ⟨rfl, d1⟩
          · rw [d2]
            simp only [Disk.remove, ← hfp, List.map_cons]
            exact removeFile_removeAll s.files f.path _
          · rw [d3]; simp; omega
          · intro h
            obtain ⟨h1, h2⟩ := d5 h
            refine ⟨by rw [ht2, h1], ?_⟩
            rw [h2]
            apply List.filter_congr
            intro i hi
            have : i ≠ id := fun e => hk (e ▸ hi)
            simp [hp, Ne.symm this]

theorem filter_not_mem_toDrop (depth : Nat) (keep : List Id) (fs l : List File) (hl : l.Perm fs) :
    fs.filter (fun f => decide (f.path ∉ (toDrop depth keep l).map File.path)) =
      fs.filter (fun f => match parsePath depth f.path with
        | none => true
        | some id => decide (id ∈ keep)) := by
  apply List.filter_congr
  intro f hf
  have : f.path ∈ (toDrop depth keep l).map File.path ↔ ∃ id, parsePath depth f.path = some id ∧ id ∉ keep := by
    constructor
    · intro h
      obtain ⟨g, hg, e⟩ := List.mem_map.mp h
      unfold toDrop at hg
      rw [List.mem_filter] at hg
      rw [← e]
      split at hg
      · cases hg.2
      · rename_i id hid; exact ⟨id, hid, by simpa using hg.2⟩
    · rintro ⟨id, h1, h2⟩
      refine List.mem_map.mpr ⟨f, ?_, rfl⟩
      unfold toDrop
      rw [List.mem_filter]
      exact ⟨hl.mem_iff.mpr hf, by simp [h1, h2]⟩
  cases hp : parsePath depth f.path with
  | none => simp [this, hp]
  | some id => simp [this, hp]

theorem totalSize_filter_removed (fs D : List File) (hs : ∀ f ∈ D, f ∈ fs) (hd : D.Nodup)
    (hn : (fs.map File.path).Nodup) :
    totalSize (fs.filter (fun f => decide (f.path ∉ D.map File.path))) + totalSize D = totalSize fs := by
  have hinj : ∀ f ∈ fs, ∀ g ∈ fs, f.path = g.path → f = g := by
    intro f hf g hg e
    exact List.inj_on_of_nodup_map hn hf hg e
  have hfn : fs.Nodup := List.Nodup.of_map _ hn
  have hsplit := totalSize_filter_split fs (fun f => decide (f.path ∉ D.map File.path))
  have hperm : (fs.filter (fun f => !decide (f.path ∉ D.map File.path))).Perm D := by
    rw [List.perm_ext_iff_of_nodup (hfn.filter _) hd]
    intro f
    simp only [List.mem_filter, Bool.not_eq_true', decide_eq_false_iff_not, Decidable.not_not, List.mem_map]
    constructor
    · rintro ⟨hf, g, hg, e⟩
      rw [← hinj g (hs g hg) f hf e]; exact hg
    · intro hf; exact ⟨hs f hf, f, hf, rfl⟩
  rw [totalSize_perm hperm] at hsplit
  exact hsplit

end Verif.Store
