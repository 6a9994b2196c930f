import Verif.Asset.Read
import Mathlib.Data.List.Nodup

/-! # C26: directory lookups see every child -/
namespace Verif.Asset
open Verif.Manifest

/-! ### Specification -/

/-- `es` are all entries of the directory: the direct ones and those in the indirect lists, which are all in the
store. -/
def Entries (S : Store) (proto : Manifest.Asset) (es : List Manifest.Asset) : Prop :=
  ∃ lists : List (List Manifest.Asset), proto.indirect.map S.assetLists = lists.map some ∧
    es = proto.children ++ lists.flatten

/-! ### The lookup table -/

theorem find_setLookup (l : List (Name × Manifest.Asset)) (a : Manifest.Asset) (n : Name) :
    ((setLookup l a).find? fun e => e.1 = n) = if n = a.name then some (a.name, a) else l.find? fun e => e.1 = n := by
  unfold setLookup
  split
  · rename_i h
    induction l with
    | nil => simp at h
    | cons e es ih =>
      rw [List.map_cons, List.find?_cons, List.find?_cons]
      by_cases e1 : e.1 = a.name
      · rw [if_pos e1]
        by_cases e2 : n = a.name
        · simp [e2]
        · have h3 : a.name ≠ n := fun e => e2 e.symm
          have h4 : e.1 ≠ n := by rw [e1]; exact h3
          simp only [h3, decide_false, h4]
          rw [if_neg e2]
          by_cases hh : es.any (fun e => decide (e.1 = a.name)) = true
          · rw [ih hh, if_neg e2]
          · have hn : ∀ x ∈ es, x.1 ≠ a.name := by
              intro x hx he; exact hh (List.any_eq_true.mpr ⟨x, hx, by simpa using he⟩)
            congr 1
            conv_rhs => rw [← List.map_id es]
            exact List.map_congr_left fun x hx => by rw [if_neg (hn x hx)]; rfl
      · rw [if_neg e1]
        have h' : es.any (fun e => decide (e.1 = a.name)) = true := by simpa [e1] using h
        by_cases e2 : e.1 = n
        · have : n ≠ a.name := by rw [← e2]; exact e1
          simp [e2, this]
        · simp only [e2, decide_false]
          exact ih h'
  · rename_i h
    have hn : ∀ x ∈ l, x.1 ≠ a.name := by
      intro x hx he; exact h (List.any_eq_true.mpr ⟨x, hx, by simpa using he⟩)
    rw [List.find?_append]
    by_cases e2 : n = a.name
    · have : l.find? (fun e => e.1 = n) = none := by
        rw [List.find?_eq_none]; intro x hx; simp [e2, hn x hx]
      rw [this, if_pos e2]; simp [e2]
    · rw [if_neg e2]
      have : a.name ≠ n := fun e => e2 e.symm
      simp [this]

/-- The table holds, for each name, the last entry with that name. -/
theorem find_updateLookup (as : List Manifest.Asset) : ∀ (l : List (Name × Manifest.Asset)) (n : Name),
    ((updateLookup l as).find? fun e => e.1 = n).map Prod.snd =
      (as.reverse.find? fun a => a.name = n).or ((l.find? fun e => e.1 = n).map Prod.snd) := by
  induction as with
  | nil => intro l n; simp [updateLookup]
  | cons a as ih =>
    intro l n
    have := ih (setLookup l a) n
    unfold updateLookup at this ⊢
    rw [List.foldl_cons, this, find_setLookup, List.reverse_cons, List.find?_append, Option.or_assoc]
    congr 1
    by_cases e : n = a.name
    · simp [e]
    · rw [if_neg e]
      have : a.name ≠ n := fun h => e h.symm
      simp [this]

theorem updateLookup_nodup (as : List Manifest.Asset) : ∀ (l : List (Name × Manifest.Asset)),
    (l.map Prod.fst ++ as.map Asset.name).Nodup → updateLookup l as = l ++ as.map fun a => (a.name, a) := by
  induction as with
  | nil => intro l _; simp [updateLookup]
  | cons a as ih =>
    intro l hn
    have hs : setLookup l a = l ++ [(a.name, a)] := by
      unfold setLookup
      rw [if_neg]
      intro h
      obtain ⟨x, hx, e⟩ := List.any_eq_true.mp h
      have := (List.nodup_append.mp hn).2.2 x.1 (List.mem_map_of_mem hx) a.name (by simp)
      exact this (by simpa using e)
    have := ih (l ++ [(a.name, a)]) (by simpa using hn)
    unfold updateLookup at this ⊢
    rw [List.foldl_cons, hs, this]
    simp

theorem length_other {S : Store} {proto : Manifest.Asset} {s s' : State} (ho : Other S proto s s') :
    s.dirLists.length ≤ s'.dirLists.length := by
  induction ho with
  | refl => exact Nat.le_refl _
  | chunks i r _ hf _ ih =>
    refine Nat.le_trans (Nat.le_of_eq ?_) ih
    unfold fetchChunkList at hf
    dsimp only at hf
    split at hf
    · rw [hf.2]
    · rcases hf with ⟨_, _, rfl⟩ | ⟨_, _, _, _, _, rfl⟩ <;> rfl
  | dirs r hf _ ih =>
    refine Nat.le_trans ?_ ih
    unfold fetchDirList at hf
    split at hf
    · rw [hf.2]; exact Nat.le_refl _
    · rcases hf with ⟨_, _, rfl⟩ | ⟨_, _, _, _, _, rfl⟩ <;> simp

/-! ### Proofs -/

section
variable {S : Store} {proto : Manifest.Asset}

/-- State invariant and a lower bound on the number of lists loaded. -/
def Loaded (S : Store) (proto : Manifest.Asset) (k : Nat) (s : State) : Prop :=
  StateOk S proto s ∧ k ≤ s.dirLists.length

theorem sat_atomic_loaded {k : Nat} {α : Type} {step : State → α → State → Prop} {Q : α → State → Prop}
    (h : ∀ s a s', Loaded S proto k s → step s a s' → Q a s') : Sat (Loaded S proto k) (atomic S proto step) Q := by
  rintro s a s'' hs ⟨s', ho, hstep⟩
  refine h s' a s'' ?_ hstep
  rcases ho with rfl | ⟨_, ho⟩
  · exact hs
  · exact ⟨stateOk_other hs.1 ho, Nat.le_trans hs.2 (length_other ho)⟩

/-- The loaded lists are a prefix of all lists, so what is loaded is a prefix of the entries. -/
theorem loaded_prefix {s : State} (h : StateOk S proto s) {lists : List (List Manifest.Asset)}
    (hl : proto.indirect.map S.assetLists = lists.map some) : s.dirLists = lists.take s.dirLists.length := by
  have h1 := h.dirs
  rw [List.map_take, hl, ← List.map_take] at h1
  exact List.map_injective_iff.mpr (fun _ _ => Option.some.inj) h1

theorem sat_fetchNext (k : Nat) {lists : List (List Manifest.Asset)}
    (hl : proto.indirect.map S.assetLists = lists.map some) :
    Sat (Loaded S proto k) (fetchNext S proto) fun r s => Loaded S proto k s ∧
      match r with
      | none => S.fails
      | some false => proto.indirect.length ≤ s.dirLists.length
      | some true => k + 1 ≤ s.dirLists.length := by
  unfold fetchNext
  refine sat_bind (fun (r : Bool) s => Loaded S proto k s ∧ (r = true → proto.indirect.length ≤ s.dirLists.length)) ?_ ?_
  · apply sat_atomic_loaded
    rintro s r s' hs ⟨rfl, rfl⟩
    exact ⟨hs, fun h => by simpa using h⟩
  · intro r
    cases r with
    | true => exact sat_pure _ fun s hs => ⟨hs.1, hs.2 rfl⟩
    | false =>
      refine Sat.pre (P := Loaded S proto k) ?_ fun s hs => hs.1
      rw [if_neg (by simp)]
      apply sat_atomic_loaded
      intro s r s' hs hf
      have hok := stateOk_fetchDirList hs.1 hf
      unfold fetchDirList at hf
      split at hf
      · rename_i hle
        obtain ⟨rfl, rfl⟩ := hf
        exact ⟨hs, hle⟩
      · rename_i hlt
        rcases hf with ⟨hfail, rfl, rfl⟩ | ⟨id, as, h1, h2, rfl, rfl⟩
        · refine ⟨hs, ?_⟩
          rcases hfail with h | h
          · exact h
          · have hi : s'.dirLists.length < lists.length := by
              have := congrArg List.length hl
              simp only [List.length_map] at this; omega
            have := congrArg (fun l => l[s'.dirLists.length]?) hl
            simp only [List.getElem?_map, List.getElem?_eq_getElem hi, Option.map_some] at this
            cases hx : proto.indirect[s'.dirLists.length]? with
            | none => rw [hx] at this; cases this
            | some x => rw [hx] at this h; simp only [Option.map_some, Option.some.injEq, Option.bind_some] at this h
                        rw [this] at h; cases h
        · refine ⟨⟨hok, ?_⟩, ?_⟩
          · have := hs.2; simp; omega
          · have := hs.2; simp; omega

theorem mem_of_lookup {s : State} (h : StateOk S proto s) {es : List Manifest.Asset} (he : Entries S proto es)
    {n : Name} {a : Manifest.Asset} (ha : (s.lookup.find? fun e => e.1 = n).map Prod.snd = some a) :
    a ∈ es ∧ a.name = n := by
  obtain ⟨lists, hl, rfl⟩ := he
  rw [h.lookup, find_updateLookup] at ha
  simp only [List.find?_nil, Option.map_none, Option.or_none] at ha
  have h1 := List.mem_reverse.mp (List.mem_of_find?_eq_some ha)
  have h2 := List.find?_some ha
  refine ⟨?_, by simpa using h2⟩
  rcases List.mem_append.mp h1 with h1 | h1
  · exact List.mem_append_left _ h1
  · refine List.mem_append_right _ ?_
    rw [loaded_prefix h hl] at h1
    obtain ⟨l, hl1, hl2⟩ := List.mem_flatten.mp h1
    exact List.mem_flatten.mpr ⟨l, List.mem_of_mem_take hl1, hl2⟩

theorem not_mem_of_lookup {s : State} (h : StateOk S proto s) {es : List Manifest.Asset} (he : Entries S proto es)
    (hall : proto.indirect.length ≤ s.dirLists.length) {n : Name}
    (ha : (s.lookup.find? fun e => e.1 = n).map Prod.snd = none) : ∀ a ∈ es, a.name ≠ n := by
  obtain ⟨lists, hl, rfl⟩ := he
  have hlen : lists.length = proto.indirect.length := by
    have := congrArg List.length hl
    simpa using this.symm
  have hp := loaded_prefix h hl
  rw [List.take_of_length_le (by omega)] at hp
  rw [h.lookup, find_updateLookup, hp] at ha
  simp only [List.find?_nil, Option.map_none, Option.or_none, List.find?_eq_none] at ha
  intro a hm
  have := ha a (List.mem_reverse.mpr hm)
  simpa using this

/-- What a lookup may return; a claim that there is no entry is only known to be right without other threads. -/
def LookupOk (S : Store) (es : List Manifest.Asset) (n : Name) : DirRes (Option Manifest.Asset) → Prop
  | .error => S.fails
  | .ok (some a) => a ∈ es ∧ a.name = n
  | .ok none => ¬ S.conc → ∀ a ∈ es, a.name ≠ n
  | .diverged => False

/-- Without other threads, fetching that reports that all is loaded leaves the state alone. -/
theorem fetchNext_alone (hc : ¬ S.conc) {s s' : State} (h : fetchNext S proto s (some false) s') :
    s' = s ∧ proto.indirect.length ≤ s.dirLists.length := by
  obtain ⟨all, s1, ⟨s2, ho, hall, e1⟩, h2⟩ := h
  have e2 : s2 = s := ho.resolve_right fun h => hc h.1
  subst e1 e2
  cases all with
  | true =>
    obtain ⟨_, rfl⟩ := h2
    exact ⟨rfl, by simpa using hall.symm⟩
  | false =>
    obtain ⟨s3, ho, hf⟩ := h2
    have e3 : s3 = _ := ho.resolve_right fun h => hc h.1
    subst e3
    unfold fetchDirList at hf
    split at hf
    · rename_i hle; exact ⟨hf.2, hle⟩
    · rcases hf with ⟨_, h, _⟩ | ⟨_, _, _, _, h, _⟩ <;> cases h

theorem sat_lookupLoop {es : List Manifest.Asset} (he : Entries S proto es) (n : Name) :
    ∀ (k j : Nat), proto.indirect.length < j + k →
      Sat (fun s => Loaded S proto j s ∧ s.dirLists.length ≤ proto.indirect.length) (lookupLoop S proto n k) fun r _ =>
        LookupOk S es n r := by
  have hmax : ∀ s, StateOk S proto s → s.dirLists.length ≤ proto.indirect.length := by
    intro s hs
    have := congrArg List.length hs.dirs
    simp only [List.length_map, List.length_take] at this
    omega
  obtain ⟨lists, hl, hes⟩ := id he
  intro k
  induction k with
  | zero =>
    intro j hj
    refine sat_fact (A := False) ?_ fun h => h.elim
    intro s hs
    have := hs.1.2; have := hs.2; omega
  | succ k ih =>
    intro j hj
    rintro s r s' ⟨hs, _⟩ ⟨a, s1, ha, h⟩
    have hfind : Loaded S proto j s1 ∧ a = (s1.lookup.find? fun e => e.1 = n).map Prod.snd := by
      refine sat_atomic_loaded (Q := fun a s1 => Loaded S proto j s1 ∧ a = (s1.lookup.find? fun e => e.1 = n).map Prod.snd)
        ?_ s a s1 hs ha
      rintro t b t' ht ⟨rfl, rfl⟩
      exact ⟨ht, rfl⟩
    obtain ⟨hs1, hae⟩ := hfind
    cases a with
    | some a =>
      obtain ⟨rfl, rfl⟩ := h
      exact mem_of_lookup hs1.1 he hae.symm
    | none =>
      obtain ⟨f, s2, hf, h⟩ := h
      obtain ⟨hs2, hf2⟩ := sat_fetchNext j hl s1 f s2 hs1 hf
      cases f with
      | none => obtain ⟨rfl, rfl⟩ := h; exact hf2
      | some b =>
        cases b with
        | false =>
          obtain ⟨rfl, rfl⟩ := h
          intro hc
          obtain ⟨_, h2⟩ := fetchNext_alone hc hf
          exact not_mem_of_lookup hs1.1 he h2 hae.symm
        | true =>
          exact ih (j + 1) (by omega) s2 r s' ⟨⟨hs2.1, hf2⟩, hmax s2 hs2.1⟩ h

theorem sat_fetchAll {lists : List (List Manifest.Asset)} (hl : proto.indirect.map S.assetLists = lists.map some) :
    ∀ (k j : Nat), proto.indirect.length < j + k →
      Sat (Loaded S proto j) (fetchAll S proto k) fun r s =>
        match r with
        | .error => S.fails
        | .ok () => Loaded S proto proto.indirect.length s
        | .diverged => False := by
  have hmax : ∀ s, StateOk S proto s → s.dirLists.length ≤ proto.indirect.length := by
    intro s hs
    have := congrArg List.length hs.dirs
    simp only [List.length_map, List.length_take] at this
    omega
  intro k
  induction k with
  | zero =>
    intro j hj
    refine sat_fact (A := False) ?_ fun h => h.elim
    intro s hs
    have := hs.2; have := hmax s hs.1; omega
  | succ k ih =>
    intro j hj
    unfold fetchAll
    refine sat_bind _ (sat_fetchNext j hl) fun r => ?_
    cases r with
    | none => exact sat_pure _ fun s hs => hs.2
    | some b =>
      cases b with
      | false => exact sat_pure _ fun s hs => ⟨hs.1.1, hs.2⟩
      | true => exact Sat.pre (ih (j + 1) (by omega)) fun s hs => ⟨hs.1.1, hs.2⟩

theorem stateOk_le {s : State} (hs : Other S proto (initial proto) s) :
    Loaded S proto 0 s ∧ s.dirLists.length ≤ proto.indirect.length := by
  have h := stateOk_other (stateOk_initial S proto) hs
  refine ⟨⟨h, Nat.zero_le _⟩, ?_⟩
  have := congrArg List.length h.dirs
  simp only [List.length_map, List.length_take] at this
  omega

end

/-! ### Results -/

/-- **C26, lookup.** For every directory, however its entries are spread over direct and indirect lists,
every state after any history of calls by any number of threads, and other threads running at the same time:
a lookup terminates, fails only if the data store fails, and an entry it returns is an entry of the directory
with that name. If no other thread runs at the same time, then it says that there is no entry only if there is none
(with other threads: `C86_lookup_race_violated`). -/
theorem C26_lookup (S : Store) (proto : Manifest.Asset) (hd : proto.info.kind = .directory)
    (es : List Manifest.Asset) (he : Entries S proto es) (name : Name)
    (s s' : State) (hs : Other S proto (initial proto) s) (r : DirRes (Option Manifest.Asset))
    (h : lookup S proto name s r s') :
    (∀ a, r = .ok (some a) → a ∈ es ∧ a.name = name) ∧
    (¬ S.conc → r = .ok none → ∀ a ∈ es, a.name ≠ name) ∧
    (r = .error → S.fails) ∧ r ≠ .diverged := by
  unfold lookup at h
  rw [if_neg (by simp [hd])] at h
  have := sat_lookupLoop he name _ 0 (by omega) s r s' (stateOk_le hs) h
  refine ⟨?_, ?_, ?_, ?_⟩
  · rintro a rfl; exact this
  · rintro hc rfl; exact this hc
  · rintro rfl; exact this
  · rintro rfl; exact this

/-- **C26, independence.** If the names in the directory are distinct, the result of a lookup without other threads is
determined by the directory alone: it does not depend on what was looked up before. -/
theorem C26_lookup_independent_of_history (S : Store) (proto : Manifest.Asset) (hd : proto.info.kind = .directory)
    (es : List Manifest.Asset) (he : Entries S proto es) (hn : (es.map Asset.name).Nodup) (name : Name)
    (hc : ¬ S.conc) (hf : ¬ S.fails)
    (s s' : State) (hs : Other S proto (initial proto) s) (r : DirRes (Option Manifest.Asset))
    (h : lookup S proto name s r s') : r = .ok (es.find? fun a => a.name = name) := by
  obtain ⟨h1, h2, h3, h4⟩ := C26_lookup S proto hd es he name s s' hs r h
  cases r with
  | error => exact absurd (h3 rfl) hf
  | diverged => exact absurd rfl h4
  | ok o =>
    congr 1
    cases o with
    | none =>
      refine (List.find?_eq_none.mpr ?_).symm
      intro a ha
      simpa using h2 hc rfl a ha
    | some a =>
      obtain ⟨ha, hna⟩ := h1 a rfl
      cases hfd : es.find? fun a => a.name = name with
      | none =>
        have := List.find?_eq_none.mp hfd a ha
        simp [hna] at this
      | some b =>
        have hb := List.find?_some hfd
        simp only [decide_eq_true_eq] at hb
        rw [List.inj_on_of_nodup_map hn ha (List.mem_of_find?_eq_some hfd) (hna.trans hb.symm)]

/-- **C26, listing.** Listing a directory with distinct names returns each of its entries exactly once, whatever was
loaded before and whatever other threads do; it fails only if the data store fails. -/
theorem C26_listing_complete (S : Store) (proto : Manifest.Asset) (hd : proto.info.kind = .directory)
    (es : List Manifest.Asset) (he : Entries S proto es) (hn : (es.map Asset.name).Nodup)
    (s s' : State) (hs : Other S proto (initial proto) s) (r : DirRes (List Manifest.Asset))
    (h : allChildren S proto s r s') :
    (∀ l, r = .ok l → l.Perm es) ∧ (r = .error → S.fails) ∧ r ≠ .diverged := by
  obtain ⟨lists, hl, hes⟩ := id he
  have key : Sat (Loaded S proto 0) (allChildren S proto) fun r _ =>
      match r with
      | .error => S.fails
      | .ok l => l.Perm es
      | .diverged => False := by
    unfold allChildren
    rw [if_neg (by simp [hd])]
    refine sat_bind _ (sat_fetchAll hl _ 0 (by omega)) fun r => ?_
    cases r with
    | error => exact sat_pure _ fun s hs => hs
    | diverged => exact sat_pure _ fun s hs => hs
    | ok u =>
      refine sat_bind (fun (l : List Manifest.Asset) _ => l.Perm es) ?_ fun l => sat_pure _ fun s hs => hs
      apply sat_atomic_loaded
      rintro t l t' ht ⟨rfl, rfl⟩
      have hp := loaded_prefix ht.1 hl
      have hlen : lists.length = proto.indirect.length := by
        have := congrArg List.length hl
        simpa using this.symm
      rw [List.take_of_length_le (by have := ht.2; omega)] at hp
      rw [ht.1.lookup, hp, ← hes, updateLookup_nodup es [] (by simpa using hn), List.nil_append, List.map_map]
      exact .of_eq (List.map_id es)
  have := key s r s' (stateOk_le hs).1 h
  refine ⟨?_, ?_, ?_⟩
  · rintro l rfl; exact this
  · rintro rfl; exact this
  · rintro rfl; exact this

/-! ### The race -/

def demoFile (n : UInt8) : Manifest.Asset := .mk { name := [n], kind := .file } [] []

def demoDir : Manifest.Asset := .mk { name := [], kind := .directory } [demoFile 97] [[50]]

def demoDirStore (conc : Prop) : Store where
  chunkLists := fun _ => none
  assetLists := fun id => if id = [50] then some [demoFile 98, demoFile 99] else none
  fails := False
  conc := conc

/-- Directory entries a (direct) and b, c (indirect). -/
example (conc : Prop) : Entries (demoDirStore conc) demoDir [demoFile 97, demoFile 98, demoFile 99] ∧
    ([demoFile 97, demoFile 98, demoFile 99].map Asset.name).Nodup :=
  ⟨⟨[[demoFile 98, demoFile 99]], rfl, rfl⟩, by decide⟩

/-- The state after the only indirect list was loaded. -/
def demoLoaded : State :=
  { dirLists := [[demoFile 98, demoFile 99]],
    lookup := [([97], demoFile 97), ([98], demoFile 98), ([99], demoFile 99)] }

theorem demo_fetch (conc : Prop) : fetchDirList (demoDirStore conc) demoDir (initial demoDir) (some true) demoLoaded :=
  .inr ⟨[50], _, rfl, rfl, rfl, rfl⟩

/-- A lookup of b without other threads: the list is loaded and b is found. -/
example : lookup (demoDirStore False) demoDir [98] (initial demoDir) (.ok (some (demoFile 98))) demoLoaded :=
  ⟨none, initial demoDir, ⟨_, .inl rfl, rfl, rfl⟩, some true, demoLoaded,
    ⟨false, initial demoDir, ⟨_, .inl rfl, rfl, rfl⟩, _, .inl rfl, demo_fetch _⟩,
    some (demoFile 98), demoLoaded, ⟨_, .inl rfl, rfl, rfl⟩, rfl, rfl⟩

/-- **C86 is false of the code with other threads.** Two threads look up the same existing name in a fresh directory: the
first finds it not loaded yet; the second then loads the only indirect list; the first sees that there is
nothing left to load and reports that the name does not exist. -/
theorem C86_lookup_race_violated :
    ∃ (S : Store) (proto : Manifest.Asset) (es : List Manifest.Asset) (a : Manifest.Asset) (s' : State),
      proto.info.kind = .directory ∧ Entries S proto es ∧ (es.map Asset.name).Nodup ∧ ¬ S.fails ∧ a ∈ es ∧
      lookup S proto a.name (initial proto) (.ok none) s' := by
  refine ⟨demoDirStore True, demoDir, [demoFile 97, demoFile 98, demoFile 99], demoFile 98, demoLoaded, rfl,
    ⟨[[demoFile 98, demoFile 99]], rfl, rfl⟩, by decide, id, by simp, ?_⟩
  exact ⟨none, initial demoDir, ⟨_, .inl rfl, rfl, rfl⟩, some false, demoLoaded,
    ⟨true, demoLoaded, ⟨demoLoaded, .inr ⟨trivial, .dirs _ (demo_fetch _) (.refl _)⟩, rfl, rfl⟩, rfl, rfl⟩, rfl, rfl⟩

/-- **C86, what holds.** With any other threads running: a lookup never reports a name as missing that is in the
directory itself or in an indirect list that was loaded when the lookup began (by whomever); in particular
lookups are complete once all lists are loaded. Missing: lists that are loaded by another thread while the lookup runs,
see `C86_lookup_race_violated`. -/
theorem C86_loaded_partial (S : Store) (proto : Manifest.Asset) (hd : proto.info.kind = .directory)
    (es : List Manifest.Asset) (he : Entries S proto es) (name : Name)
    (s s' : State) (hs : Other S proto (initial proto) s) (r : DirRes (Option Manifest.Asset))
    (h : lookup S proto name s r s') (a : Manifest.Asset) (ha : a ∈ proto.children ++ s.dirLists.flatten)
    (hn : a.name = name) : ∃ b, r = .ok (some b) ∧ b ∈ es ∧ b.name = name := by
  unfold lookup at h
  rw [if_neg (by simp [hd])] at h
  obtain ⟨x, s1, hx, h⟩ := h
  obtain ⟨t, ht, rfl, rfl⟩ := hx
  have hok := (stateOk_le hs).1.1
  obtain ⟨lists, hl, hes⟩ := id he
  have hot : StateOk S proto s1 ∧ s.dirLists.length ≤ s1.dirLists.length := by
    rcases ht with rfl | ⟨_, ho⟩
    · exact ⟨hok, Nat.le_refl _⟩
    · exact ⟨stateOk_other hok ho, length_other ho⟩
  have hmem : a ∈ proto.children ++ s1.dirLists.flatten := by
    rcases List.mem_append.mp ha with h1 | h1
    · exact List.mem_append_left _ h1
    · refine List.mem_append_right _ ?_
      have p1 := loaded_prefix hok hl
      have p2 := loaded_prefix hot.1 hl
      obtain ⟨l, hl1, hl2⟩ := List.mem_flatten.mp h1
      refine List.mem_flatten.mpr ⟨l, ?_, hl2⟩
      rw [p2]
      rw [p1] at hl1
      exact (List.take_prefix_take_left hot.2).subset hl1
  have hfound : ∃ b, (s1.lookup.find? fun e => e.1 = name).map Prod.snd = some b := by
    rw [hot.1.lookup, find_updateLookup]
    simp only [List.find?_nil, Option.map_none, Option.or_none]
    cases hf : (proto.children ++ s1.dirLists.flatten).reverse.find? fun a => a.name = name with
    | some b => exact ⟨b, rfl⟩
    | none =>
      have := List.find?_eq_none.mp hf a (List.mem_reverse.mpr hmem)
      simp [hn] at this
  obtain ⟨b, hb⟩ := hfound
  rw [hb] at h
  obtain ⟨rfl, rfl⟩ := h
  exact ⟨b, rfl, mem_of_lookup hot.1 he hb⟩

/-- The case is met: b is found in a loaded directory with other threads running. -/
example : ∃ a, Other (demoDirStore True) demoDir (initial demoDir) demoLoaded ∧
    a ∈ demoDir.children ++ demoLoaded.dirLists.flatten ∧ a.name = [98] ∧
    lookup (demoDirStore True) demoDir [98] demoLoaded (.ok (some (demoFile 98))) demoLoaded :=
  ⟨demoFile 98, .dirs _ (demo_fetch _) (.refl _), by simp [demoLoaded], rfl,
    some (demoFile 98), demoLoaded, ⟨_, .inl rfl, rfl, rfl⟩, rfl, rfl⟩

end Verif.Asset
