import Verif.Sync.Diff

/-! # C34: classification of files and directories -/
namespace Verif.Sync
open Verif.Text.Path (Str)

/-- The server's file for a path, as a function. -/
def onServer (cfg : Cfg) (server : List File) (path : Str) : Option File :=
  match server.find? (·.path == path) with
  | some s => some s
  | none => doubleCheck cfg path

theorem doubleCheck_path {cfg : Cfg} {p : Str} {f : File} (h : doubleCheck cfg p = some f) : f.path = p := by
  unfold doubleCheck at h
  split at h
  · split at h
    · next g hg =>
      cases h
      obtain ⟨x, -, rfl⟩ := Option.map_eq_some_iff.mp hg
      rfl
    · split at h
      · obtain ⟨x, -, rfl⟩ := Option.map_eq_some_iff.mp h
        rfl
      · cases h
  · cases h

theorem onServer_spec (cfg : Cfg) (server : List File) (p : Str) : ServerHas cfg server p (onServer cfg server p) := by
  unfold onServer
  cases hf : server.find? (·.path == p) with
  | some s => exact .listed (List.mem_of_find?_eq_some hf) (by simpa using List.find?_some hf)
  | none =>
    have hn : ∀ s ∈ server, s.path ≠ p := fun s hs => by simpa using List.find?_eq_none.mp hf s hs
    dsimp only
    unfold doubleCheck
    by_cases hd : cfg.doubleCheck = true
    · rw [if_pos hd]
      unfold findFile
      cases h1 : cfg.stat .dest p with
      | some x => exact .found hn hd h1
      | none =>
        dsimp only [Option.map]
        by_cases hc : cfg.copyDest = true
        · rw [if_pos hc]
          cases h2 : cfg.stat .copyDest p with
          | some x => exact .foundCopy hn hd h1 hc h2
          | none => exact .absent hn fun _ => ⟨h1, fun _ => h2⟩
        · rw [if_neg hc]
          exact .absent hn fun _ => ⟨h1, fun h => absurd h hc⟩
    · rw [if_neg hd]
      exact .absent hn fun h => absurd h hd

theorem serverHas_iff {cfg : Cfg} {server : List File} (hs : (server.map File.path).Nodup) {p : Str} {o : Option File} :
    ServerHas cfg server p o ↔ onServer cfg server p = o := by
  constructor
  · intro h
    have h2 := onServer_spec cfg server p
    generalize onServer cfg server p = o' at h2
    cases h <;> cases h2 <;> try rfl
    case listed.listed h1 h2 _ h3 h4 =>
      rw [List.inj_on_of_nodup_map hs h3 h1 (h4.trans h2.symm)]
    all_goals simp_all
  · rintro rfl; exact onServer_spec _ _ _

/-- The classification, path by path. -/
def classify (cfg : Cfg) (client server : List File) : Result where
  missing := client.filter fun c => (onServer cfg server c.path).isNone
  matching := client.filter fun c => match onServer cfg server c.path with
    | some s => filesMatch cfg c s
    | none => false
  changed := client.filterMap fun c => match onServer cfg server c.path with
    | some s => if filesMatch cfg c s then none else some (Changed.mk' s c)
    | none => none
  extraneous := server.filter fun s => client.all fun c => c.path != s.path

theorem onServer_absent {cfg : Cfg} {server : List File} {p : Str} (h : ∀ s ∈ server, s.path ≠ p) : onServer cfg server p = doubleCheck cfg p := by
  unfold onServer
  rw [List.find?_eq_none.mpr (fun s hs => by simpa using h s hs)]

theorem onServer_cons_ne {cfg : Cfg} {server : List File} {s : File} {p : Str} (h : p ≠ s.path) :
    onServer cfg (s :: server) p = onServer cfg server p := by
  unfold onServer
  rw [List.find?_cons]
  have : (s.path == p) = false := by simpa using Ne.symm h
  rw [this]

theorem onServer_cons_eq {cfg : Cfg} {server : List File} {s : File} {p : Str} (h : p = s.path) :
    onServer cfg (s :: server) p = some s := by
  unfold onServer
  rw [List.find?_cons]
  have : (s.path == p) = true := by simpa using h.symm
  rw [this]

theorem classify_cons_left {cfg : Cfg} {c : File} {cs server : List File} (h : ∀ s ∈ server, s.path ≠ c.path) :
    classify cfg (c :: cs) server = bucket cfg c (onServer cfg server c.path) (classify cfg cs server) := by
  have he : (server.filter fun s => (c :: cs).all fun c => c.path != s.path) = server.filter fun s => cs.all fun c => c.path != s.path := by
    apply List.filter_congr
    intro s hs
    have : (c.path != s.path) = true := by simpa using (h s hs).symm
    simp [this]
  unfold classify bucket
  rw [he]
  simp only [List.filter_cons, List.filterMap_cons]
  cases onServer cfg server c.path with
  | none => simp
  | some s => by_cases hm : filesMatch cfg c s = true <;> simp [hm]

theorem classify_cons_right {cfg : Cfg} {s : File} {client ss : List File} (h : ∀ c ∈ client, c.path ≠ s.path) :
    classify cfg client (s :: ss) = { classify cfg client ss with extraneous := s :: (classify cfg client ss).extraneous } := by
  have h1 : (client.all fun c => c.path != s.path) = true := by
    rw [List.all_eq_true]; intro c hc; simpa using h c hc
  have h2 : ∀ c ∈ client, onServer cfg (s :: ss) c.path = onServer cfg ss c.path := fun c hc => onServer_cons_ne (h c hc)
  have e1 : (client.filter fun c => (onServer cfg (s :: ss) c.path).isNone) = client.filter fun c => (onServer cfg ss c.path).isNone :=
    List.filter_congr fun x hx => by rw [h2 x hx]
  have e2 : (client.filter fun c => match onServer cfg (s :: ss) c.path with
    | some s => filesMatch cfg c s
    | none => false) = client.filter fun c => match onServer cfg ss c.path with
    | some s => filesMatch cfg c s
    | none => false := List.filter_congr fun x hx => by rw [h2 x hx]
  have e3 : (client.filterMap fun c => match onServer cfg (s :: ss) c.path with
    | some s => if filesMatch cfg c s then none else some (Changed.mk' s c)
    | none => none) = client.filterMap fun c => match onServer cfg ss c.path with
    | some s => if filesMatch cfg c s then none else some (Changed.mk' s c)
    | none => none := List.filterMap_congr fun x hx => by rw [h2 x hx]
  have e4 : ((s :: ss).filter fun s => client.all fun c => c.path != s.path) = s :: ss.filter fun s => client.all fun c => c.path != s.path :=
    List.filter_cons_of_pos (p := fun s : File => client.all fun c => c.path != s.path) h1
  unfold classify
  rw [e1, e2, e3, e4]

theorem classify_both {cfg : Cfg} {c s : File} {cs ss : List File} (he : c.path = s.path) (hc : ∀ x ∈ cs, x.path ≠ s.path)
    (hs : ∀ x ∈ ss, x.path ≠ c.path) :
    classify cfg (c :: cs) (s :: ss) = bucket cfg c (some s) (classify cfg cs ss) := by
  have h1 : ((c :: cs).all fun x => x.path != s.path) = false := by simp [he]
  have h2 : (ss.filter fun s => (c :: cs).all fun c => c.path != s.path) = ss.filter fun s => cs.all fun c => c.path != s.path := by
    apply List.filter_congr
    intro s hs'
    have : (c.path != s.path) = true := by simpa using (hs s hs').symm
    simp [this]
  have h3 : ∀ x ∈ cs, onServer cfg (s :: ss) x.path = onServer cfg ss x.path := fun x hx => onServer_cons_ne (hc x hx)
  have h4 := onServer_cons_eq (cfg := cfg) (server := ss) he
  have e1 : (cs.filter fun c => (onServer cfg (s :: ss) c.path).isNone) = cs.filter fun c => (onServer cfg ss c.path).isNone :=
    List.filter_congr fun x hx => by rw [h3 x hx]
  have e2 : (cs.filter fun c => match onServer cfg (s :: ss) c.path with
    | some s => filesMatch cfg c s
    | none => false) = cs.filter fun c => match onServer cfg ss c.path with
    | some s => filesMatch cfg c s
    | none => false := List.filter_congr fun x hx => by rw [h3 x hx]
  have e3 : (cs.filterMap fun c => match onServer cfg (s :: ss) c.path with
    | some s => if filesMatch cfg c s then none else some (Changed.mk' s c)
    | none => none) = cs.filterMap fun c => match onServer cfg ss c.path with
    | some s => if filesMatch cfg c s then none else some (Changed.mk' s c)
    | none => none := List.filterMap_congr fun x hx => by rw [h3 x hx]
  unfold classify bucket
  rw [List.filter_cons_of_neg (p := fun s : File => (c :: cs).all fun c => c.path != s.path) (by rw [h1]; simp), h2]
  simp only [List.filter_cons, List.filterMap_cons, h4, e1, e2, e3]
  by_cases hm : filesMatch cfg c s = true <;> simp [hm]

/-- Strictly sorted by path. -/
def Strict (l : List File) : Prop := l.Pairwise fun a b => Util.ltBytes a.path b.path = true

theorem diffFiles_eq {cfg : Cfg} {client server : List File} (hc : Strict client) (hs : Strict server) :
    diffFiles cfg client server = classify cfg client server := by
  fun_induction diffFiles cfg client server with
  | case1 => rfl
  | case2 s ss r ih =>
    have := ih hc (List.pairwise_cons.mp hs).2
    simp only [r]
    rw [this, classify_cons_right (by simp)]
  | case3 c cs ih =>
    rw [ih (List.pairwise_cons.mp hc).2 hs, classify_cons_left (by simp), onServer_absent (by simp)]
  | case4 c cs s ss hlt ih =>
    have hne : ∀ x ∈ s :: ss, x.path ≠ c.path := by
      intro x hx
      rcases List.mem_cons.mp hx with rfl | hx
      · exact (Util.ltBytes_ne hlt).symm
      · exact (Util.ltBytes_ne (Util.ltBytes_trans hlt ((List.pairwise_cons.mp hs).1 x hx))).symm
    rw [ih (List.pairwise_cons.mp hc).2 hs, classify_cons_left hne, onServer_absent hne]
  | case5 c cs s ss hlt hgt r ih =>
    have hne : ∀ x ∈ c :: cs, x.path ≠ s.path := by
      intro x hx
      rcases List.mem_cons.mp hx with rfl | hx
      · exact (Util.ltBytes_ne hgt).symm
      · exact (Util.ltBytes_ne (Util.ltBytes_trans hgt ((List.pairwise_cons.mp hc).1 x hx))).symm
    have := ih hc (List.pairwise_cons.mp hs).2
    simp only [r]
    rw [this, classify_cons_right hne]
  | case6 c cs s ss hlt hgt ih =>
    have he : c.path = s.path := by
      rcases Util.ltBytes_trichotomy c.path s.path with h | h | h
      · exact absurd h hlt
      · exact h
      · exact absurd h hgt
    rw [ih (List.pairwise_cons.mp hc).2 (List.pairwise_cons.mp hs).2, classify_both he]
    · intro x hx; rw [← he]; exact (Util.ltBytes_ne ((List.pairwise_cons.mp hc).1 x hx)).symm
    · intro x hx; rw [he]; exact (Util.ltBytes_ne ((List.pairwise_cons.mp hs).1 x hx)).symm

/-! ### Directories -/

def serverDir (server : List Dir) (p : Str) : Option Dir := server.find? (·.path == p)

def onlyInCopyDest (cfg : Cfg) (d : Option Dir) : Bool := match d with
  | none => true
  | some s => cfg.copyDest && s.base == .copyDest

def classifyDirs (cfg : Cfg) (client server : List Dir) (r : Result) : Result :=
  { r with
    missingDirs := client.filter (fun c => onlyInCopyDest cfg (serverDir server c.path)) ++ r.missingDirs
    matchingDirs := client.filter (fun c => ! onlyInCopyDest cfg (serverDir server c.path)) ++ r.matchingDirs
    extraneousDirs := server.filter (fun s => client.all fun c => c.path != s.path) ++ r.extraneousDirs }

def StrictDirs (l : List Dir) : Prop := l.Pairwise fun a b => Util.ltBytes a.path b.path = true

theorem serverDir_cons_ne {server : List Dir} {s : Dir} {p : Str} (h : p ≠ s.path) : serverDir (s :: server) p = serverDir server p := by
  unfold serverDir
  rw [List.find?_cons]
  have : (s.path == p) = false := by simpa using Ne.symm h
  rw [this]

theorem serverDir_cons_eq {server : List Dir} {s : Dir} {p : Str} (h : p = s.path) : serverDir (s :: server) p = some s := by
  unfold serverDir
  rw [List.find?_cons]
  have : (s.path == p) = true := by simpa using h.symm
  rw [this]

theorem filter_all_cons {c : Dir} {cs l : List Dir} (h : ∀ s ∈ l, s.path ≠ c.path) :
    (l.filter fun s => (c :: cs).all fun c => c.path != s.path) = l.filter fun s => cs.all fun c => c.path != s.path := by
  apply List.filter_congr
  intro s hs
  have : (c.path != s.path) = true := by simpa using (h s hs).symm
  simp [this]

theorem diffDirs_eq {cfg : Cfg} {client server : List Dir} {r : Result} (hc : StrictDirs client) (hs : StrictDirs server) :
    diffDirs cfg client server r = classifyDirs cfg client server r := by
  fun_induction diffDirs cfg client server r with
  | case1 r => simp [classifyDirs]
  | case2 s ss r r' ih =>
    have := ih hc (List.pairwise_cons.mp hs).2
    simp only [r']
    rw [this]
    simp [classifyDirs]
  | case3 c cs r r' ih =>
    have := ih (List.pairwise_cons.mp hc).2 hs
    simp only [r']
    rw [this]
    simp [classifyDirs, serverDir, onlyInCopyDest]
  | case4 c cs s ss r hlt r' ih =>
    have hne : ∀ x ∈ s :: ss, x.path ≠ c.path := by
      intro x hx
      rcases List.mem_cons.mp hx with rfl | hx
      · exact (Util.ltBytes_ne hlt).symm
      · exact (Util.ltBytes_ne (Util.ltBytes_trans hlt ((List.pairwise_cons.mp hs).1 x hx))).symm
    have hn : serverDir (s :: ss) c.path = none := List.find?_eq_none.mpr fun x hx => by simpa using hne x hx
    have := ih (List.pairwise_cons.mp hc).2 hs
    simp only [r']
    rw [this]
    unfold classifyDirs
    rw [filter_all_cons hne,
      List.filter_cons_of_pos (p := fun c : Dir => onlyInCopyDest cfg (serverDir (s :: ss) c.path)) (a := c) (l := cs) (by rw [hn]; rfl),
      List.filter_cons_of_neg (p := fun c : Dir => ! onlyInCopyDest cfg (serverDir (s :: ss) c.path)) (a := c) (l := cs) (by rw [hn]; simp [onlyInCopyDest])]
    rfl
  | case5 c cs s ss r hlt hgt r' ih =>
    have hne : ∀ x ∈ c :: cs, x.path ≠ s.path := by
      intro x hx
      rcases List.mem_cons.mp hx with rfl | hx
      · exact (Util.ltBytes_ne hgt).symm
      · exact (Util.ltBytes_ne (Util.ltBytes_trans hgt ((List.pairwise_cons.mp hc).1 x hx))).symm
    have := ih hc (List.pairwise_cons.mp hs).2
    simp only [r']
    rw [this]
    unfold classifyDirs
    have h1 : ((c :: cs).all fun c => c.path != s.path) = true := by
      rw [List.all_eq_true]; intro x hx; simpa using hne x hx
    rw [List.filter_cons_of_pos (p := fun s : Dir => (c :: cs).all fun c => c.path != s.path) h1,
      List.filter_congr (l := c :: cs) (p := fun c => onlyInCopyDest cfg (serverDir (s :: ss) c.path)) fun x hx => by rw [serverDir_cons_ne (hne x hx)],
      List.filter_congr (l := c :: cs) (p := fun c => ! onlyInCopyDest cfg (serverDir (s :: ss) c.path)) fun x hx => by rw [serverDir_cons_ne (hne x hx)]]
    rfl
  | case6 c cs s ss r hlt hgt r' hb ih | case7 c cs s ss r hlt hgt r' hb ih =>
    have he : c.path = s.path := by
      rcases Util.ltBytes_trichotomy c.path s.path with h | h | h
      · exact absurd h hlt
      · exact h
      · exact absurd h hgt
    have h1 := (List.pairwise_cons.mp hc)
    have h2 := (List.pairwise_cons.mp hs)
    have hc' : ∀ x ∈ cs, x.path ≠ s.path := fun x hx => by rw [← he]; exact (Util.ltBytes_ne (h1.1 x hx)).symm
    have hs' : ∀ x ∈ ss, x.path ≠ c.path := fun x hx => by rw [he]; exact (Util.ltBytes_ne (h2.1 x hx)).symm
    have h4 : serverDir (s :: ss) c.path = some s := serverDir_cons_eq he
    have := ih h1.2 h2.2
    simp only [r']
    rw [this]
    unfold classifyDirs
    have h5 : ((c :: cs).all fun x => x.path != s.path) = false := by simp [he]
    rw [List.filter_cons_of_neg (p := fun s : Dir => (c :: cs).all fun c => c.path != s.path) (by rw [h5]; simp), filter_all_cons hs',
      List.filter_cons (x := c) (xs := cs) (p := fun c : Dir => onlyInCopyDest cfg (serverDir (s :: ss) c.path)),
      List.filter_cons (x := c) (xs := cs) (p := fun c : Dir => ! onlyInCopyDest cfg (serverDir (s :: ss) c.path)),
      List.filter_congr (l := cs) (p := fun c => onlyInCopyDest cfg (serverDir (s :: ss) c.path)) fun x hx => by rw [serverDir_cons_ne (hc' x hx)],
      List.filter_congr (l := cs) (p := fun c => ! onlyInCopyDest cfg (serverDir (s :: ss) c.path)) fun x hx => by rw [serverDir_cons_ne (hc' x hx)],
      h4]
    simp [onlyInCopyDest, hb]

/-! ### The properties -/

theorem strict_unique {l l' : List File} (h : Sorts File.path l l') : Strict (uniqueBy File.path l') := (uniqueBy_spec h.sorted).1

theorem mem_unique_path {α : Type} {path : α → Str} {l l' : List α} (h : Sorts path l l') (p : Str) :
    p ∈ (uniqueBy path l').map path ↔ p ∈ l.map path := by
  constructor
  · rintro hp
    obtain ⟨a, ha, rfl⟩ := List.mem_map.mp hp
    exact List.mem_map_of_mem (h.perm.mem_iff.mp (uniqueBy_subset ha))
  · intro hp
    obtain ⟨a, ha, rfl⟩ := List.mem_map.mp hp
    have ha' := h.perm.mem_iff.mpr ha
    cases hf : l'.find? (fun b => path b == path a) with
    | none => exact absurd (by simp) (List.find?_eq_none.mp hf a ha')
    | some b =>
      have hb : path b = path a := by simpa using List.find?_some hf
      rw [← hb]
      exact List.mem_map_of_mem (((uniqueBy_spec h.sorted).2 b).mpr (by rw [hb]; exact hf))

theorem sorts_strict {α : Type} {path : α → Str} {l l' : List α} (h : Sorts path l l') (hn : (l.map path).Nodup) :
    l'.Pairwise fun a b => Util.ltBytes (path a) (path b) = true := by
  have h2 : (l'.map path).Nodup := ((h.perm.map path).nodup_iff).mpr hn
  have h3 := List.pairwise_map.mp h2
  exact (h.sorted.and h3).imp fun h => Util.ltBytes_of_le_ne h.1 h.2

theorem onServer_perm {cfg : Cfg} {l l' : List File} (h : Sorts File.path l l') (hn : (l.map File.path).Nodup) (p : Str) :
    onServer cfg l' p = onServer cfg l p := by
  rw [← serverHas_iff (((h.perm.map File.path).nodup_iff).mpr hn)]
  have := onServer_spec cfg l p
  generalize onServer cfg l p = o at this
  cases this with
  | listed h1 h2 => exact .listed (h.perm.mem_iff.mpr h1) h2
  | found h1 h2 h3 => exact .found (fun s hs => h1 s (h.perm.mem_iff.mp hs)) h2 h3
  | foundCopy h1 h2 h3 h4 h5 => exact .foundCopy (fun s hs => h1 s (h.perm.mem_iff.mp hs)) h2 h3 h4 h5
  | absent h1 h2 => exact .absent (fun s hs => h1 s (h.perm.mem_iff.mp hs)) h2

theorem filesMatch_iff {cfg : Cfg} {c s : File} (hb : s.base = .dest ∨ (s.base = .copyDest ∧ cfg.copyDest = true)) :
    filesMatch cfg c s = true ↔ s.base = .dest ∧ s.size = c.size ∧ s.mtime = c.mtime := by
  unfold filesMatch
  rcases hb with hb | ⟨hb, hc⟩
  · simp only [hb, Bool.and_eq_true, beq_iff_eq]
    constructor
    · rintro ⟨⟨h1, h2⟩, -⟩; exact ⟨trivial, h1.symm, h2.symm⟩
    · rintro ⟨-, h1, h2⟩; exact ⟨⟨h1.symm, h2.symm⟩, by simp⟩
  · simp [hb, hc]

/-- The bases the server's files can have. -/
def Bases (cfg : Cfg) (server : List File) : Prop := ∀ s ∈ server, s.base = .dest ∨ (s.base = .copyDest ∧ cfg.copyDest = true)

theorem onServer_base {cfg : Cfg} {server : List File} (hb : Bases cfg server) {p : Str} {s : File} (h : onServer cfg server p = some s) :
    s.base = .dest ∨ (s.base = .copyDest ∧ cfg.copyDest = true) := by
  have := onServer_spec cfg server p
  rw [h] at this
  cases this with
  | listed h1 _ => exact hb s h1
  | found => exact .inl rfl
  | foundCopy _ _ _ hc _ => exact .inr ⟨rfl, hc⟩

theorem keepCopyDest_files (cfg : Cfg) (r : Result) : (keepCopyDest cfg r).missing = r.missing ∧ (keepCopyDest cfg r).matching = r.matching ∧
    (keepCopyDest cfg r).changed = r.changed ∧ (keepCopyDest cfg r).missingDirs = r.missingDirs ∧ (keepCopyDest cfg r).matchingDirs = r.matchingDirs ∧
    (keepCopyDest cfg r).extraneous = r.extraneous.filter (fun s => ! (cfg.copyDest && s.base == .copyDest)) ∧
    (keepCopyDest cfg r).extraneousDirs = r.extraneousDirs.filter (fun s => ! (cfg.copyDest && s.base == .copyDest)) := by
  have ht : ∀ {α : Type} (l : List α), l.filter (fun _ => true) = l := fun l => by simp
  unfold keepCopyDest
  by_cases h : cfg.copyDest = true
  · rw [if_pos h]
    rw [h]
    exact ⟨rfl, rfl, rfl, rfl, rfl, rfl, rfl⟩
  · rw [if_neg h]
    have h' : cfg.copyDest = false := by simpa using h
    simp only [h', Bool.false_and, Bool.not_false, ht, and_self]

theorem changed_paths (cfg : Cfg) (server : List File) (client : List File) :
    ((classify cfg client server).changed.map Changed.path) =
      (client.filter fun c => match onServer cfg server c.path with
        | some s => ! filesMatch cfg c s
        | none => false).map File.path := by
  show (client.filterMap _).map _ = _
  induction client with
  | nil => rfl
  | cons c cs ih =>
    rw [List.filterMap_cons, List.filter_cons]
    cases onServer cfg server c.path with
    | none => simpa using ih
    | some s =>
      by_cases hm : filesMatch cfg c s = true
      · simpa [hm] using ih
      · simp only [hm]
        simpa [Changed.mk'] using ih

/-- C34: every client file is in exactly one of the lists of missing, matching and changed files. Missing files are those the server
does not have, matching files are in the destination directory with the same size and modification time, changed files are all
others. Extraneous files are the files in the destination directory (never those in the copy-dest directory) for which there
is no client file. -/
theorem C34_files_classified (cfg : Cfg) (client server : List File) (clientDirs serverDirs : List Dir) (r : Result)
    (hs : (server.map File.path).Nodup) (hb : Bases cfg server) (h : Generate cfg client server clientDirs serverDirs r) :
    Partition client r ∧
    (∀ c ∈ r.missing, c ∈ client ∧ ServerHas cfg server c.path none) ∧
    (∀ c ∈ r.matching, c ∈ client ∧ ∃ o, ServerHas cfg server c.path o ∧ HasSame o c) ∧
    (∀ x ∈ r.changed, ∃ c ∈ client, ∃ s, ServerHas cfg server c.path (some s) ∧ ¬ HasSame (some s) c ∧
      x = ⟨c.path, c.mtime, c.size, s.size, c.index, s.base⟩) ∧
    (∀ s, s ∈ r.extraneous ↔ s ∈ server ∧ s.base = .dest ∧ s.path ∉ client.map File.path) ∧
    (r.extraneous.map File.path).Nodup := by
  cases h with
  | @mk c s cd sd hc hss hcd hsd =>
    have hst := strict_unique hc
    have hcl := diffFiles_eq (cfg := cfg) hst (sorts_strict hss hs)
    have hpar : ∀ (C S : List Dir) (r : Result), (diffDirs cfg C S r).missing = r.missing ∧ (diffDirs cfg C S r).matching = r.matching ∧
        (diffDirs cfg C S r).changed = r.changed ∧ (diffDirs cfg C S r).extraneous = r.extraneous := by
      intro C S r
      fun_induction diffDirs cfg C S r <;> first | exact ⟨rfl, rfl, rfl, rfl⟩ | assumption
    obtain ⟨k1, k2, k3, -, -, k6, -⟩ := keepCopyDest_files cfg (diffDirs cfg (uniqueBy Dir.path cd) sd (diffFiles cfg (uniqueBy File.path c) s))
    obtain ⟨d1, d2, d3, d4⟩ := hpar (uniqueBy Dir.path cd) sd (diffFiles cfg (uniqueBy File.path c) s)
    rw [d1] at k1; rw [d2] at k2; rw [d3] at k3; rw [d4] at k6
    generalize keepCopyDest cfg (diffDirs cfg (uniqueBy Dir.path cd) sd (diffFiles cfg (uniqueBy File.path c) s)) = r at k1 k2 k3 k6 ⊢
    rw [hcl] at k1 k2 k3 k6
    have hon := onServer_perm (cfg := cfg) hss hs
    have hsub : ∀ x ∈ uniqueBy File.path c, x ∈ client := fun x hx => hc.perm.mem_iff.mp (uniqueBy_subset hx)
    have hinj : ∀ x ∈ uniqueBy File.path c, ∀ y ∈ uniqueBy File.path c, x.path = y.path → x = y :=
      fun x hx y hy e => List.inj_on_of_nodup_map (nodup_of_strict hst) hx hy e
    have hlast : ∀ x, x ∈ r.extraneous ↔ x ∈ server ∧ x.base = .dest ∧ x.path ∉ client.map File.path := by
      intro x
      rw [k6]
      simp only [classify, List.mem_filter, List.all_eq_true, bne_iff_ne, ne_eq]
      rw [hss.perm.mem_iff]
      constructor
      · rintro ⟨⟨h1, h2⟩, h3⟩
        refine ⟨h1, ?_, fun h => ?_⟩
        · rcases hb x h1 with h | ⟨h, h'⟩
          · exact h
          · simp [h, h'] at h3
        · rw [← mem_unique_path hc] at h
          obtain ⟨y, hy, e⟩ := List.mem_map.mp h
          exact h2 y hy e
      · rintro ⟨h1, h2, h3⟩
        refine ⟨⟨h1, fun y hy e => h3 ?_⟩, by simp [h2]⟩
        rw [← e]
        exact List.mem_map_of_mem (hsub y hy)
    refine ⟨⟨?_, ?_⟩, ?_, ?_, ?_, hlast, ?_⟩
    · have hnd := nodup_of_strict hst
      rw [k1, k2, k3, changed_paths]
      have sub : ∀ f : File → Bool, (((uniqueBy File.path c).filter f).map File.path).Nodup := fun f =>
        hnd.sublist (List.filter_sublist.map _)
      have dis : ∀ f g : File → Bool, (∀ x, f x = true → g x = true → False) →
          List.Disjoint (((uniqueBy File.path c).filter f).map File.path) (((uniqueBy File.path c).filter g).map File.path) := by
        intro f g hfg p h1 h2
        obtain ⟨x, hx, rfl⟩ := List.mem_map.mp h1
        obtain ⟨y, hy, e⟩ := List.mem_map.mp h2
        rw [List.mem_filter] at hx hy
        have := hinj y hy.1 x hx.1 e
        subst this
        exact hfg y hx.2 hy.2
      refine List.Nodup.append (List.Nodup.append (sub _) (sub _) (dis _ _ ?_)) (sub _) ?_
      · intro x h1 h2
        cases ho : onServer cfg s x.path <;> simp [ho] at h1 h2
      · intro p h1 h2
        rcases List.mem_append.mp h1 with h1 | h1
        · refine dis _ _ ?_ h1 h2
          intro x h1 h2
          cases ho : onServer cfg s x.path <;> simp [ho] at h1 h2
        · refine dis _ _ ?_ h1 h2
          intro x h1 h2
          cases ho : onServer cfg s x.path <;> simp [ho] at h1 h2
          rw [h1] at h2; cases h2
    · intro p
      rw [← mem_unique_path hc, k1, k2, k3, changed_paths]
      simp only [classify, List.mem_append, List.mem_map, List.mem_filter]
      constructor
      · rintro ((⟨x, hx, rfl⟩ | ⟨x, hx, rfl⟩) | ⟨x, hx, rfl⟩) <;> exact ⟨x, hx.1, rfl⟩
      · rintro ⟨x, hx, rfl⟩
        cases ho : onServer cfg s x.path with
        | none => exact .inl (.inl ⟨x, ⟨hx, by rw [ho]; rfl⟩, rfl⟩)
        | some y =>
          by_cases hm : filesMatch cfg x y = true
          · exact .inl (.inr ⟨x, ⟨hx, by rw [ho]; exact hm⟩, rfl⟩)
          · exact .inr ⟨x, ⟨hx, by rw [ho]; simp [hm]⟩, rfl⟩
    · intro x hx
      rw [k1] at hx
      simp only [classify, List.mem_filter] at hx
      refine ⟨hsub x hx.1, ?_⟩
      rw [serverHas_iff hs, ← hon]
      simpa using hx.2
    · intro x hx
      rw [k2] at hx
      simp only [classify, List.mem_filter] at hx
      refine ⟨hsub x hx.1, _, onServer_spec _ _ _, ?_⟩
      rw [← hon]
      cases ho : onServer cfg s x.path with
      | none => rw [ho] at hx; exact absurd hx.2 (by simp)
      | some y =>
        rw [ho] at hx
        refine ⟨y, rfl, (filesMatch_iff ?_).mp hx.2⟩
        rw [hon] at ho
        exact onServer_base hb ho
    · intro x hx
      rw [k3] at hx
      simp only [classify, List.mem_filterMap] at hx
      obtain ⟨y, hy, e⟩ := hx
      cases ho : onServer cfg s y.path with
      | none => rw [ho] at e; cases e
      | some z =>
        rw [ho] at e
        dsimp only at e
        by_cases hm : filesMatch cfg y z = true
        · rw [if_pos hm] at e; cases e
        · rw [if_neg hm] at e
          cases e
          rw [hon] at ho
          refine ⟨y, hsub y hy, z, (serverHas_iff hs).mpr ho, ?_, rfl⟩
          rintro ⟨w, e, hw⟩
          cases e
          exact hm ((filesMatch_iff (onServer_base hb ho)).mpr hw)
    · rw [k6]
      have : (s.map File.path).Nodup := (hss.perm.map _).nodup_iff.mpr hs
      exact this.sublist ((List.filter_sublist.trans List.filter_sublist).map _)

/-- C34 for directories: a client directory is created unless it is in the destination directory already. Only directories in the
destination directory without client directory are extraneous. -/
theorem C34_dirs_classified (cfg : Cfg) (client server : List File) (clientDirs serverDirs : List Dir) (r : Result)
    (hs : (serverDirs.map Dir.path).Nodup) (hb : ∀ s ∈ serverDirs, s.base = .dest ∨ (s.base = .copyDest ∧ cfg.copyDest = true))
    (h : Generate cfg client server clientDirs serverDirs r) :
    (r.missingDirs.map Dir.path ++ r.matchingDirs.map Dir.path).Nodup ∧
    (∀ d ∈ r.missingDirs ++ r.matchingDirs, d ∈ clientDirs) ∧
    (∀ p, p ∈ r.missingDirs.map Dir.path ↔ p ∈ clientDirs.map Dir.path ∧ ∀ s ∈ serverDirs, s.path = p → s.base ≠ .dest) ∧
    (∀ p, p ∈ r.matchingDirs.map Dir.path ↔ p ∈ clientDirs.map Dir.path ∧ ∃ s ∈ serverDirs, s.path = p ∧ s.base = .dest) ∧
    (∀ s, s ∈ r.extraneousDirs ↔ s ∈ serverDirs ∧ s.base = .dest ∧ s.path ∉ clientDirs.map Dir.path) ∧
    (r.missingDirs.Pairwise fun a b => Util.ltBytes a.path b.path = true) ∧ (r.extraneousDirs.map Dir.path).Nodup := by
  cases h with
  | @mk c s cd sd hc hss hcd hsd =>
    have hst : StrictDirs (uniqueBy Dir.path cd) := (uniqueBy_spec hcd.sorted).1
    have hsts : StrictDirs sd := sorts_strict hsd hs
    obtain ⟨-, -, -, k4, k5, -, k7⟩ := keepCopyDest_files cfg (diffDirs cfg (uniqueBy Dir.path cd) sd (diffFiles cfg (uniqueBy File.path c) s))
    have hd0 : ∀ C S, (diffFiles cfg C S).missingDirs = [] ∧ (diffFiles cfg C S).matchingDirs = [] ∧ (diffFiles cfg C S).extraneousDirs = [] := by
      have hbk : ∀ c o (r : Result), (bucket cfg c o r).missingDirs = r.missingDirs ∧ (bucket cfg c o r).matchingDirs = r.matchingDirs ∧
          (bucket cfg c o r).extraneousDirs = r.extraneousDirs := by
        intro c o r
        cases o with
        | none => exact ⟨rfl, rfl, rfl⟩
        | some s => unfold bucket; dsimp only; split <;> exact ⟨rfl, rfl, rfl⟩
      intro C S
      fun_induction diffFiles cfg C S <;> first | exact ⟨rfl, rfl, rfl⟩ | assumption | (rw [(hbk _ _ _).1, (hbk _ _ _).2.1, (hbk _ _ _).2.2]; assumption)
    obtain ⟨e1, e2, e3⟩ := hd0 (uniqueBy File.path c) s
    generalize keepCopyDest cfg (diffDirs cfg (uniqueBy Dir.path cd) sd (diffFiles cfg (uniqueBy File.path c) s)) = r at k4 k5 k7 ⊢
    rw [diffDirs_eq hst hsts] at k4 k5 k7
    simp only [classifyDirs, e1, e2, e3, List.append_nil] at k4 k5 k7
    have hsub : ∀ x ∈ uniqueBy Dir.path cd, x ∈ clientDirs := fun x hx => hcd.perm.mem_iff.mp (uniqueBy_subset hx)
    have hnd := nodup_of_strict hst
    have hinj : ∀ x ∈ uniqueBy Dir.path cd, ∀ y ∈ uniqueBy Dir.path cd, x.path = y.path → x = y :=
      fun x hx y hy e => List.inj_on_of_nodup_map hnd hx hy e
    have hsnd : (sd.map Dir.path).Nodup := (hsd.perm.map _).nodup_iff.mpr hs
    have honly : ∀ p, onlyInCopyDest cfg (serverDir sd p) = true ↔ ∀ s ∈ serverDirs, s.path = p → s.base ≠ .dest := by
      intro p
      unfold serverDir
      cases hf : sd.find? (·.path == p) with
      | none =>
        refine ⟨fun _ s hs e => ?_, fun _ => rfl⟩
        exact absurd (by simpa using e) (List.find?_eq_none.mp hf s (hsd.perm.mem_iff.mpr hs))
      | some x =>
        have hx := List.mem_of_find?_eq_some hf
        have hxp : x.path = p := by simpa using List.find?_some hf
        have hxs := hsd.perm.mem_iff.mp hx
        constructor
        · intro h s hs' e
          have : s = x := List.inj_on_of_nodup_map hs hs' hxs (e.trans hxp.symm)
          subst this
          simp only [onlyInCopyDest, Bool.and_eq_true, beq_iff_eq] at h
          rw [h.2]; simp
        · intro h
          have := h x hxs hxp
          rcases hb x hxs with h' | ⟨h', h''⟩
          · exact absurd h' this
          · simp [onlyInCopyDest, h', h'']
    have hmiss : ∀ p, p ∈ r.missingDirs.map Dir.path ↔ p ∈ clientDirs.map Dir.path ∧ ∀ s ∈ serverDirs, s.path = p → s.base ≠ .dest := by
      intro p
      rw [k4, ← mem_unique_path hcd, ← honly]
      simp only [List.mem_map, List.mem_filter]
      constructor
      · rintro ⟨x, ⟨h1, h2⟩, rfl⟩; exact ⟨⟨x, h1, rfl⟩, h2⟩
      · rintro ⟨⟨x, h1, rfl⟩, h2⟩; exact ⟨x, ⟨h1, h2⟩, rfl⟩
    have hmat : ∀ p, p ∈ r.matchingDirs.map Dir.path ↔ p ∈ clientDirs.map Dir.path ∧ ∃ s ∈ serverDirs, s.path = p ∧ s.base = .dest := by
      intro p
      rw [k5, ← mem_unique_path hcd]
      have : (∃ s ∈ serverDirs, s.path = p ∧ s.base = .dest) ↔ ¬ onlyInCopyDest cfg (serverDir sd p) = true := by
        rw [honly]
        constructor
        · rintro ⟨s, h1, h2, h3⟩ h; exact h s h1 h2 h3
        · intro h
          apply Classical.byContradiction
          intro hn
          exact h fun s h1 h2 h3 => hn ⟨s, h1, h2, h3⟩
      rw [this]
      simp only [List.mem_map, List.mem_filter]
      constructor
      · rintro ⟨x, ⟨h1, h2⟩, rfl⟩; exact ⟨⟨x, h1, rfl⟩, by simpa using h2⟩
      · rintro ⟨⟨x, h1, rfl⟩, h2⟩; exact ⟨x, ⟨h1, by simpa using h2⟩, rfl⟩
    refine ⟨?_, ?_, hmiss, hmat, ?_, ?_, ?_⟩
    · refine List.Nodup.append ?_ ?_ ?_
      · rw [k4]; exact hnd.sublist (List.filter_sublist.map _)
      · rw [k5]; exact hnd.sublist (List.filter_sublist.map _)
      · intro p h1 h2
        obtain ⟨s, hs1, hs2, hs3⟩ := ((hmat p).mp h2).2
        exact ((hmiss p).mp h1).2 s hs1 hs2 hs3
    · intro d hd
      rw [k4, k5] at hd
      rcases List.mem_append.mp hd with h | h <;> exact hsub d (List.mem_filter.mp h).1
    · intro x
      rw [k7]
      simp only [List.mem_filter, List.all_eq_true, bne_iff_ne, ne_eq]
      rw [hsd.perm.mem_iff]
      constructor
      · rintro ⟨⟨h1, h2⟩, h3⟩
        refine ⟨h1, ?_, fun h => ?_⟩
        · rcases hb x h1 with h | ⟨h, h'⟩
          · exact h
          · simp [h, h'] at h3
        · rw [← mem_unique_path hcd] at h
          obtain ⟨y, hy, e⟩ := List.mem_map.mp h
          exact h2 y hy e
      · rintro ⟨h1, h2, h3⟩
        refine ⟨⟨h1, fun y hy e => h3 ?_⟩, by simp [h2]⟩
        rw [← e]
        exact List.mem_map_of_mem (hsub y hy)
    · rw [k4]; exact hst.sublist List.filter_sublist
    · rw [k7]
      exact hsnd.sublist ((List.filter_sublist.trans List.filter_sublist).map _)

/-! ### Options -/

/-- C34: what the options do. Files are copied whole, patched or left alone; with `--checksum` no file is left alone because of
its size and time, with `--whole-file` none is patched, with `--existing` missing files are not copied. -/
theorem C34_options (existing checksum whole : Bool) (r : Result) :
    let r' := adjust existing checksum whole r
    (∀ p, p ∈ r'.missing.map File.path ↔ (existing = false ∧ p ∈ r.missing.map File.path) ∨
      (whole = true ∧ (p ∈ r.changed.map Changed.path ∨ checksum = true ∧ p ∈ r.matching.map File.path))) ∧
    (∀ p, p ∈ r'.changed.map Changed.path ↔ whole = false ∧ (p ∈ r.changed.map Changed.path ∨ checksum = true ∧ p ∈ r.matching.map File.path)) ∧
    (∀ p, p ∈ r'.matching.map File.path ↔ checksum = false ∧ p ∈ r.matching.map File.path) ∧
    (∀ d, d ∈ r'.missingDirs ↔ existing = false ∧ d ∈ r.missingDirs) ∧
    r'.extraneous = r.extraneous ∧ r'.extraneousDirs = r.extraneousDirs ∧
    ((r.missing.map File.path ++ r.matching.map File.path ++ r.changed.map Changed.path).Nodup →
      (r'.missing.map File.path ++ r'.matching.map File.path ++ r'.changed.map Changed.path).Nodup) := by
  have e1 : ∀ l : List File, (l.map fun f => Changed.mk' f f).map Changed.path = l.map File.path := fun l => by
    rw [List.map_map]; rfl
  have e2 : ∀ l : List Changed, (l.map fun c => (⟨c.path, c.mtime, c.size, c.index, .none⟩ : File)).map File.path = l.map Changed.path := fun l => by
    rw [List.map_map]; rfl
  have hperm : ∀ a b c : List Str, (a ++ b ++ c).Nodup → (a ++ (c ++ b)).Nodup := fun a b c h => by
    rw [List.append_assoc] at h
    exact (List.Perm.append_left a List.perm_append_comm).nodup_iff.mp h
  have hbc : ∀ a b c : List Str, (a ++ b ++ c).Nodup → (b ++ c).Nodup := fun a b c h => by
    rw [List.append_assoc] at h; exact h.sublist (List.sublist_append_right _ _)
  have hac : ∀ a b c : List Str, (a ++ b ++ c).Nodup → (c ++ b).Nodup := fun a b c h => by
    exact (hperm a b c h).sublist (List.sublist_append_right _ _)
  have hperm' : ∀ a b c : List Str, (a ++ b ++ c).Nodup → (a ++ c ++ b).Nodup := fun a b c h => by
    rw [List.append_assoc]; exact hperm a b c h
  cases existing <;> cases checksum <;> cases whole <;>
    simp only [adjust, Bool.false_eq_true, if_true, if_false, List.map_append, e1, e2, List.map_nil, List.append_nil, List.nil_append,
      List.mem_append, List.not_mem_nil, true_and, false_and, and_true, and_false, false_or, or_false, iff_self, implies_true, reduceCtorEq, forall_const,
      Bool.true_eq_false]
  all_goals
    first
    | exact fun h => h
    | exact hperm _ _ _
    | exact hbc _ _ _
    | exact hac _ _ _
    | exact hperm' _ _ _

/-! ### `--existing` -/

/-- The file is in the destination directory. -/
def InDestination (cfg : Cfg) (server : List File) (p : Str) : Prop := ∃ s, ServerHas cfg server p (some s) ∧ s.base = .dest

/-- C88: with `--existing` ("skip creating new files on instance") and without copy-dest directory, only files that exist in the
destination are copied or patched, and no directory is created. Missing: runs with a copy-dest directory, for which it is false
(`C88_existing_creates_files_violated`). -/
theorem C88_existing_partial (cfg : Cfg) (client server : List File) (clientDirs serverDirs : List Dir) (r : Result) (checksum whole : Bool)
    (hs : (server.map File.path).Nodup) (hb : Bases cfg server) (h : Generate cfg client server clientDirs serverDirs r)
    (hc : cfg.copyDest = false) :
    let r' := adjust true checksum whole r
    (∀ p, p ∈ r'.missing.map File.path ∨ p ∈ r'.changed.map Changed.path → InDestination cfg server p) ∧ r'.missingDirs = [] := by
  intro r'
  obtain ⟨h1, h2, h3, h4, -⟩ := C34_files_classified cfg client server clientDirs serverDirs r hs hb h
  obtain ⟨a1, a2, -, a4, -⟩ := C34_options true checksum whole r
  have hch : ∀ p ∈ r.changed.map Changed.path, InDestination cfg server p := by
    intro p hp
    obtain ⟨x, hx, rfl⟩ := List.mem_map.mp hp
    obtain ⟨c, -, s, hs1, -, rfl⟩ := h4 x hx
    refine ⟨s, hs1, ?_⟩
    rcases onServer_base hb ((serverHas_iff hs).mp hs1) with h | ⟨-, h⟩
    · exact h
    · rw [hc] at h; cases h
  have hma : ∀ p ∈ r.matching.map File.path, InDestination cfg server p := by
    intro p hp
    obtain ⟨x, hx, rfl⟩ := List.mem_map.mp hp
    obtain ⟨-, o, ho, s, rfl, hs2, -⟩ := h3 x hx
    exact ⟨s, ho, hs2⟩
  refine ⟨fun p hp => ?_, ?_⟩
  · rcases hp with hp | hp
    · rcases (a1 p).mp hp with ⟨h, -⟩ | ⟨-, h | ⟨-, h⟩⟩
      · cases h
      · exact hch p h
      · exact hma p h
    · rcases ((a2 p).mp hp).2 with h | ⟨-, h⟩
      · exact hch p h
      · exact hma p h
  · apply List.eq_nil_iff_forall_not_mem.mpr
    intro d hd
    exact absurd ((a4 d).mp hd).1 (by simp)

namespace Example
def p1 : Str := [100, 47, 97]   -- d/a
def p2 : Str := [98]            -- b
def p3 : Str := [99]            -- c
def noStat : Base → Str → Option (Int × Nat) := fun _ _ => none
/-- The client has d/a and b; the server has c in the destination and d/a in the copy-dest directory. -/
def client : List File := [⟨p1, 7, 3, 0, .none⟩, ⟨p2, 9, 4, 1, .none⟩]
def server : List File := serverFiles (fun _ => true) [⟨[], p3, 1, 1, false⟩, ⟨[], p2, 9, 4, false⟩] [⟨[100], [97], 7, 3, false⟩, ⟨[], p2, 1, 1, false⟩]
def cfg : Cfg := ⟨true, false, noStat⟩
def clientDirs : List Dir := [⟨[100], 0, .none⟩]
def serverDirs : List Dir := Sync.serverDirs (fun _ => true) [] [⟨[], [100], 0, 0, true⟩]

theorem sorts_self {α : Type} (path : α → Str) (l : List α) (h : l.Pairwise fun a b => Util.leBytes (path a) (path b) = true) : Sorts path l l :=
  ⟨.refl _, h⟩

theorem server_eq : server = [⟨p2, 9, 4, invalidIndex, .dest⟩, ⟨p3, 1, 1, invalidIndex, .dest⟩, ⟨p1, 7, 3, invalidIndex, .copyDest⟩] := by
  decide +kernel
theorem serverDirs_eq : serverDirs = [⟨[100], invalidIndex, .copyDest⟩] := by decide +kernel

def result : Result := { matching := [⟨p2, 9, 4, 1, .none⟩], changed := [⟨p1, 7, 3, 3, 0, .copyDest⟩], extraneous := [⟨p3, 1, 1, invalidIndex, .dest⟩],
                         missingDirs := [⟨[100], 0, .none⟩] }

theorem generates : Generate cfg client server clientDirs serverDirs result := by
  have h := Generate.mk (cfg := cfg) (client := client) (server := server) (clientDirs := clientDirs) (serverDirs := serverDirs)
    (c := [⟨p2, 9, 4, 1, .none⟩, ⟨p1, 7, 3, 0, .none⟩]) (s := server) (cd := clientDirs) (sd := serverDirs)
    ⟨List.Perm.swap _ _ _, by decide +kernel⟩ (sorts_self _ _ (by decide +kernel)) (sorts_self _ _ (by decide +kernel)) (sorts_self _ _ (by decide +kernel))
  rw [server_eq, serverDirs_eq] at h ⊢
  have e : keepCopyDest cfg (diffDirs cfg (uniqueBy Dir.path clientDirs) [⟨[100], invalidIndex, .copyDest⟩] (diffFiles cfg
      (uniqueBy File.path [⟨p2, 9, 4, 1, .none⟩, ⟨p1, 7, 3, 0, .none⟩])
      [⟨p2, 9, 4, invalidIndex, .dest⟩, ⟨p3, 1, 1, invalidIndex, .dest⟩, ⟨p1, 7, 3, invalidIndex, .copyDest⟩])) = result := by
    with_unfolding_all rfl
  rwa [e] at h

/-- The hypotheses of the C34 theorems hold of this run. -/
theorem bases : (server.map File.path).Nodup ∧ Bases cfg server := by
  rw [server_eq]
  refine ⟨by decide +kernel, ?_⟩
  intro s hs
  simp only [List.mem_cons, List.not_mem_nil, or_false] at hs
  rcases hs with rfl | rfl | rfl
  · exact .inl rfl
  · exact .inl rfl
  · exact .inr ⟨rfl, rfl⟩

example : (serverDirs.map Dir.path).Nodup ∧ ∀ s ∈ serverDirs, s.base = .dest ∨ (s.base = .copyDest ∧ cfg.copyDest = true) := by
  rw [serverDirs_eq]
  exact ⟨by decide, by intro s hs; simp only [List.mem_cons, List.not_mem_nil, or_false] at hs; subst hs; exact .inr ⟨rfl, rfl⟩⟩
/-- C35 on an instance: b is listed once, from the destination, d/a from the copy-dest directory. -/
example : server.map (fun f => (f.path, f.base)) = [(p2, .dest), (p3, .dest), (p1, .copyDest)] := by rw [server_eq]; rfl
/-- With `-c` and `-W` everything is copied, exactly once. -/
example : (adjust false true true result).missing.map File.path = [p1, p2] := by decide
end Example

/-- C88: with `--existing` a file that exists only in the copy-dest directory is still created in the destination; its directory,
however, is not. -/
theorem C88_existing_creates_files_violated : ∃ (cfg : Cfg) (client server : List File) (clientDirs serverDirs : List Dir) (r : Result),
    (server.map File.path).Nodup ∧ Bases cfg server ∧ Generate cfg client server clientDirs serverDirs r ∧
    ∃ p, p ∈ (adjust true false false r).changed.map Changed.path ∧ ¬ InDestination cfg server p ∧
      r.missingDirs ≠ [] ∧ (adjust true false false r).missingDirs = [] := by
  refine ⟨Example.cfg, Example.client, Example.server, Example.clientDirs, Example.serverDirs, Example.result, Example.bases.1, Example.bases.2,
    Example.generates, Example.p1, ?_, ?_, ?_, ?_⟩
  · decide
  · rintro ⟨s, h1, h2⟩
    have h3 := (serverHas_iff Example.bases.1).mp h1
    rw [Example.server_eq] at h3
    have h4 : s = ⟨Example.p1, 7, 3, invalidIndex, .copyDest⟩ := by
      have : some s = some (⟨Example.p1, 7, 3, invalidIndex, .copyDest⟩ : File) := by rw [← h3]; decide +kernel
      exact Option.some.inj this
    rw [h4] at h2
    cases h2
  · decide
  · rfl

end Verif.Sync
