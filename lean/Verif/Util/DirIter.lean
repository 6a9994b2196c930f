/-! # Iterating over a directory tree (C134, C135)

common/dir_iter.cc. Paths are lists of names here. -/
namespace Verif.DirIter

abbrev Name := List UInt8

/-! ### Model -/

/-- What `opendir` does with a directory: it opens it, or fails with `EACCES` or with another error. -/
inductive OpenResult | ok | denied | error
  deriving DecidableEq, Repr

mutual
/-- What is at a path. A `leaf` is anything but a directory, with its `d_type`. -/
inductive Node where
  | leaf (type : Nat)
  | dir (result : OpenResult) (entries : Entries)
/-- What `readdir` gives, one after the other: entries with their names, then the end or an error. -/
inductive Entries where
  | stop
  | failed
  | cons (name : Name) (node : Node) (rest : Entries)
end

/-- `DT_DIR` is 4, `DT_REG` is 8, `DT_LNK` is 10 (dirent.h). -/
def Node.type : Node → Nat
  | .leaf t => t
  | .dir _ _ => 4

/-- `opendir`; anything but a directory gives `ENOTDIR`. -/
def Node.open : Node → OpenResult × Entries
  | .leaf _ => (.error, .stop)
  | .dir r es => (r, es)

/-- An entry that is returned, `DirectoryEntry::Impl`, dir_iter.cc:50-61. -/
structure Entry where
  relPath : List Name
  name : Name
  type : Nat
  deriving DecidableEq, Repr

/-- An open directory: the pointer, its name and what is still to be read (dir_iter.cc:159-165). -/
structure Opened where
  ptr : Nat
  name : Name
  rest : Entries

/-- `DirectoryIterator::Impl`, dir_iter.cc:180-187. The directory opened last is the first of `dirs`. -/
structure State where
  files : Bool
  dirsWanted : Bool
  recursive : Bool
  ok : Bool := true
  dirs : List Opened
  lastDir : Nat := 0
  relPath : List Name := []

/-- `UpdateRelPath`, dir_iter.cc:167-178. -/
def relPathOf (dirs : List Opened) : List Name := (dirs.reverse.drop 1).map (·.name)

/-- The update at the beginning of `NextDirEntry`, dir_iter.cc:125-132. -/
def State.updated (s : State) (d : Opened) : State :=
  if s.lastDir ≠ d.ptr then { s with relPath := relPathOf s.dirs, lastDir := d.ptr } else s

def dot : Name := [46]
def dotDot : Name := [46, 46]

/-- One pass of the loop of `NextEntry`, dir_iter.cc:235-277. If a directory is opened then its pointer is any one that is not in use, also one that was in use before. -/
inductive Pass : State → Option Entry → State → Prop where
  | pop (s : State) (d : Opened) (ds : List Opened) : s.dirs = d :: ds → d.rest = .stop → Pass s none { s.updated d with dirs := ds }
  | failed (s : State) (d : Opened) (ds : List Opened) : s.dirs = d :: ds → d.rest = .failed → Pass s none { s.updated d with ok := false }
  /-- 247-250 -/
  | dots (s : State) (d : Opened) (ds : List Opened) (n : Name) (x : Node) (es : Entries) : s.dirs = d :: ds → d.rest = .cons n x es → x.type &&& 4 ≠ 0 → (n = dot ∨ n = dotDot) →
      Pass s none { s.updated d with dirs := { d with rest := es } :: ds }
  /-- 252-257, 266-269 -/
  | dirOpened (s : State) (d : Opened) (ds : List Opened) (n : Name) (x : Node) (es es' : Entries) (ptr : Nat) : s.dirs = d :: ds → d.rest = .cons n x es → x.type &&& 4 ≠ 0 → ¬ (n = dot ∨ n = dotDot) →
      s.recursive = true → x.open = (.ok, es') → ptr ≠ 0 → (∀ o ∈ s.dirs, o.ptr ≠ ptr) →
      Pass s (if s.dirsWanted then some ⟨(s.updated d).relPath, n, x.type⟩ else none) { s.updated d with dirs := ⟨ptr, n, es'⟩ :: { d with rest := es } :: ds }
  /-- 258-259, 266-269 -/
  | dirDenied (s : State) (d : Opened) (ds : List Opened) (n : Name) (x : Node) (es es' : Entries) : s.dirs = d :: ds → d.rest = .cons n x es → x.type &&& 4 ≠ 0 → ¬ (n = dot ∨ n = dotDot) →
      s.recursive = true → x.open = (.denied, es') →
      Pass s (if s.dirsWanted then some ⟨(s.updated d).relPath, n, x.type⟩ else none) { s.updated d with dirs := { d with rest := es } :: ds }
  /-- 260-264 -/
  | dirError (s : State) (d : Opened) (ds : List Opened) (n : Name) (x : Node) (es es' : Entries) : s.dirs = d :: ds → d.rest = .cons n x es → x.type &&& 4 ≠ 0 → ¬ (n = dot ∨ n = dotDot) →
      s.recursive = true → x.open = (.error, es') → Pass s none { s.updated d with ok := false, dirs := { d with rest := es } :: ds }
  /-- 266-269 -/
  | dirFlat (s : State) (d : Opened) (ds : List Opened) (n : Name) (x : Node) (es : Entries) : s.dirs = d :: ds → d.rest = .cons n x es → x.type &&& 4 ≠ 0 → ¬ (n = dot ∨ n = dotDot) →
      s.recursive = false → Pass s (if s.dirsWanted then some ⟨(s.updated d).relPath, n, x.type⟩ else none) { s.updated d with dirs := { d with rest := es } :: ds }
  /-- 270-275 -/
  | file (s : State) (d : Opened) (ds : List Opened) (n : Name) (x : Node) (es : Entries) : s.dirs = d :: ds → d.rest = .cons n x es → x.type &&& 4 = 0 →
      Pass s (if x.type &&& 8 ≠ 0 ∧ s.files = true then some ⟨(s.updated d).relPath, n, x.type⟩ else none) { s.updated d with dirs := { d with rest := es } :: ds }

/-- `NextEntry`, dir_iter.cc:229-284: `none` if it returns false. -/
inductive Next : State → Option Entry → State → Prop where
  | bad (s : State) : s.ok = false → Next s none s
  | done (s : State) : s.ok = true → s.dirs = [] → Next s none s
  | found {s s' : State} {e : Entry} : s.ok = true → Pass s (some e) s' → Next s (some e) s'
  | more {s s' s'' : State} {r : Option Entry} : s.ok = true → Pass s none s' → Next s' r s'' → Next s r s''

/-- A loop that calls `NextEntry` until it returns false. -/
inductive Iterated : State → List Entry → State → Prop where
  | last {s s' : State} : Next s none s' → Iterated s [] s'
  | entry {s s' s'' : State} {e : Entry} {l : List Entry} : Next s (some e) s' → Iterated s' l s'' → Iterated s (e :: l) s''

/-- The iterator after `Open` of a directory that can be opened, dir_iter.cc:215-227. `ptr` is the pointer, `name` the last part of the path. -/
def opened (files dirs recursive : Bool) (ptr : Nat) (name : Name) (es : Entries) : State :=
  { files := files, dirsWanted := dirs, recursive := recursive, dirs := [⟨ptr, name, es⟩] }

/-- dir_iter.cc:71 -/
def Entry.isDir (e : Entry) : Bool := e.type &&& 4 ≠ 0
/-- dir_iter.cc:73-75 -/
def Entry.isRegularFile (e : Entry) : Bool := e.type &&& 8 ≠ 0
/-- dir_iter.cc:77 -/
def Entry.isSymlink (e : Entry) : Bool := e.type &&& 10 ≠ 0

/-! ### Specification -/

mutual
/-- There are only regular files, symlinks, FIFOs, character devices and directories. -/
def Node.Kinds : Node → Prop
  | .leaf t => t = 8 ∨ t = 10 ∨ t = 1 ∨ t = 2
  | .dir _ es => es.Kinds
def Entries.Kinds : Entries → Prop
  | .stop => True
  | .failed => True
  | .cons _ x es => x.Kinds ∧ es.Kinds
end

mutual
/-- No directory fails to open, unless because of permissions, and no reading of a directory fails. -/
def Node.Readable : Node → Prop
  | .leaf _ => True
  | .dir r es => r ≠ .error ∧ (r = .ok → es.Readable)
def Entries.Readable : Entries → Prop
  | .stop => True
  | .failed => False
  | .cons n x es => (((n = dot ∨ n = dotDot) ∧ x.type = 4) ∨ x.Readable) ∧ es.Readable
end

mutual
/-- What is to be found: all files (and what is neither a file nor a directory but a symlink) and all directories, as far as wanted, each directory before what is in it; not what is in directories that may not be read. -/
def Node.listing (files dirs recursive : Bool) (path : List Name) (name : Name) : Node → List Entry
  | .leaf t => if files = true ∧ (t = 8 ∨ t = 10) then [⟨path, name, t⟩] else []
  | .dir r es => (if dirs then [⟨path, name, 4⟩] else []) ++ if recursive = true ∧ r = .ok then es.listing files dirs recursive (path ++ [name]) else []
def Entries.listing (files dirs recursive : Bool) (path : List Name) : Entries → List Entry
  | .stop => []
  | .failed => []
  | .cons n x es => (if (n = dot ∨ n = dotDot) ∧ x.type = 4 then [] else x.listing files dirs recursive path n) ++ es.listing files dirs recursive path
end

/-! ### Proofs -/

/-- What is still to be returned. -/
def remaining (files dirs recursive : Bool) : List Opened → List Entry
  | [] => []
  | d :: ds => d.rest.listing files dirs recursive (relPathOf (d :: ds)) ++ remaining files dirs recursive ds

/-- The iterator knows where it is. -/
structure Good (s : State) : Prop where
  ptrs : ∀ o ∈ s.dirs, o.ptr ≠ 0
  distinct : (s.dirs.map (·.ptr)).Nodup
  path : ∀ d ds, s.dirs = d :: ds → s.lastDir = d.ptr → s.relPath = relPathOf s.dirs

theorem relPathOf_push (p : Nat) (n : Name) (es : Entries) (d : Opened) (ds : List Opened) :
    relPathOf (⟨p, n, es⟩ :: d :: ds) = relPathOf (d :: ds) ++ [n] := by
  unfold relPathOf
  rw [List.reverse_cons, List.drop_append_of_le_length (by simp)]
  simp

theorem relPathOf_rest (d : Opened) (es : Entries) (ds : List Opened) : relPathOf ({ d with rest := es } :: ds) = relPathOf (d :: ds) := by
  unfold relPathOf
  rw [List.map_drop, List.map_drop, List.map_reverse, List.map_reverse]
  rfl

theorem updated_spec {s : State} (hg : Good s) {d : Opened} {ds : List Opened} (hd : s.dirs = d :: ds) :
    s.updated d = { s with relPath := relPathOf (d :: ds), lastDir := d.ptr } := by
  unfold State.updated
  split
  · rw [hd]
  · next h =>
    have h : s.lastDir = d.ptr := Decidable.byContradiction h
    have := hg.path d ds hd h
    rw [hd] at this
    rw [← this, ← h]

theorem good_rest {s : State} (hg : Good s) {d : Opened} {ds : List Opened} (hd : s.dirs = d :: ds) (es : Entries) (ok : Bool) :
    Good { s with relPath := relPathOf (d :: ds), lastDir := d.ptr, dirs := { d with rest := es } :: ds, ok := ok } := by
  have h1 := hg.ptrs; have h2 := hg.distinct
  rw [hd] at h1 h2
  refine ⟨fun o ho => ?_, h2, fun d' ds' h _ => (relPathOf_rest d es ds).symm⟩
  rcases List.mem_cons.mp ho with h | h
  · rw [h]; exact h1 d List.mem_cons_self
  · exact h1 o (List.mem_cons_of_mem _ h)

/-- All that is still to be read satisfies `P`. -/
def AllRest (P : Entries → Prop) (s : State) : Prop := ∀ o ∈ s.dirs, P o.rest

theorem all_rest {P : Entries → Prop} {s s' : State} (h : AllRest P s) {d : Opened} {ds : List Opened} (hd : s.dirs = d :: ds) {es : Entries} (he : P es)
    (hs : s'.dirs = { d with rest := es } :: ds := by rfl) : AllRest P s' := by
  intro o ho
  rw [hs] at ho
  rcases List.mem_cons.mp ho with h' | h'
  · rw [h']; exact he
  · exact h o (hd ▸ List.mem_cons_of_mem _ h')

theorem kinds_isDir {x : Node} (hk : x.Kinds) (ht : x.type &&& 4 ≠ 0) : ∃ r es, x = .dir r es := by
  cases x with
  | dir r es => exact ⟨r, es, rfl⟩
  | leaf t =>
    rw [Node.Kinds] at hk
    rcases hk with rfl | rfl | rfl | rfl <;> exact absurd rfl ht

theorem kinds_dir {x : Node} (hk : x.Kinds) (ht : x.type &&& 4 ≠ 0) : x.type = 4 := by
  obtain ⟨r, es, rfl⟩ := kinds_isDir hk ht
  rfl

theorem open_dir {x : Node} {r : OpenResult} {es : Entries} (h : x.open = (r, es)) (hr : r ≠ .error) : x = .dir r es := by
  cases x with
  | leaf t => cases h; exact absurd rfl hr
  | dir r' es' => cases h; rfl

theorem remaining_rest (f dw rc : Bool) (d : Opened) (es : Entries) (ds : List Opened) :
    remaining f dw rc ({ d with rest := es } :: ds) = es.listing f dw rc (relPathOf (d :: ds)) ++ remaining f dw rc ds := by
  rw [remaining, relPathOf_rest]

theorem dir_listing_in {f dw rc : Bool} {p : List Name} {n : Name} {es : Entries} (h : rc = true) :
    Node.listing f dw rc p n (.dir .ok es) = (if dw then some (Entry.mk p n 4) else none).toList ++ es.listing f dw rc (p ++ [n]) := by
  subst h
  rw [Node.listing]
  cases dw <;> rfl

theorem dir_listing_out {f dw rc : Bool} {p : List Name} {n : Name} {r : OpenResult} {es : Entries} (h : ¬ (rc = true ∧ r = .ok)) :
    Node.listing f dw rc p n (.dir r es) = (if dw then some (Entry.mk p n 4) else none).toList := by
  rw [Node.listing, if_neg h]
  cases dw <;> rfl

theorem leaf_listing {f dw rc : Bool} {p : List Name} {n : Name} {t : Nat} (hk : t = 8 ∨ t = 10 ∨ t = 1 ∨ t = 2) :
    Node.listing f dw rc p n (.leaf t) = (if t &&& 8 ≠ 0 ∧ f = true then some (Entry.mk p n t) else none).toList := by
  rw [Node.listing]
  rcases hk with rfl | rfl | rfl | rfl <;> cases f <;> rfl

/-- A pass of the loop returns what is to be returned next, and keeps the rest. -/
theorem pass_spec {s s' : State} {o : Option Entry} (h : Pass s o s') (hg : Good s) (hk : AllRest Entries.Kinds s) :
    Good s' ∧ AllRest Entries.Kinds s' ∧ (s'.files = s.files ∧ s'.dirsWanted = s.dirsWanted ∧ s'.recursive = s.recursive) ∧
    (s'.ok = true → remaining s.files s.dirsWanted s.recursive s.dirs = o.toList ++ remaining s.files s.dirsWanted s.recursive s'.dirs) ∧
    (s'.ok ≠ s.ok → o = none) ∧ (AllRest Entries.Readable s → s'.ok = s.ok ∧ AllRest Entries.Readable s') := by
  cases h with
  | pop d ds hd hr =>
    rw [updated_spec hg hd]
    have h2 := hg.distinct
    rw [hd, List.map_cons, List.nodup_cons] at h2
    refine ⟨⟨fun o ho => hg.ptrs o (hd ▸ List.mem_cons_of_mem _ ho), h2.2, fun d' ds' h h' => ?_⟩, fun o ho => hk o (hd ▸ List.mem_cons_of_mem _ ho), ⟨rfl, rfl, rfl⟩, fun _ => ?_, fun h => absurd rfl h, fun hu => ⟨rfl, fun o ho => hu o (hd ▸ List.mem_cons_of_mem _ ho)⟩⟩
    · have h : ds = d' :: ds' := h
      have h' : d.ptr = d'.ptr := h'
      exact absurd (List.mem_map.mpr ⟨d', h ▸ List.mem_cons_self, h'.symm⟩) h2.1
    · rw [hd, remaining, hr, Entries.listing]; rfl
  | failed d ds hd hr =>
    rw [updated_spec hg hd]
    refine ⟨?_, hk, ⟨rfl, rfl, rfl⟩, fun h => absurd h (by simp), fun _ => rfl, fun hu => ?_⟩
    · have := good_rest hg hd d.rest false
      rw [show ({ d with rest := d.rest } : Opened) = d from rfl, ← hd] at this
      rw [← hd]
      exact this
    · have := hu d (hd ▸ List.mem_cons_self)
      rw [hr] at this
      exact absurd this (by simp [Entries.Readable])
  | dots d ds n x es hd hr ht hn =>
    rw [updated_spec hg hd]
    have hkd := hk d (hd ▸ List.mem_cons_self)
    rw [hr, Entries.Kinds] at hkd
    refine ⟨good_rest hg hd es s.ok, ?_, ⟨rfl, rfl, rfl⟩, fun _ => ?_, fun h => absurd rfl h, fun hu => ⟨rfl, ?_⟩⟩
    · exact all_rest hk hd hkd.2
    · rw [hd, remaining, hr, Entries.listing, if_pos ⟨hn, kinds_dir hkd.1 ht⟩, remaining_rest]; rfl
    · have hud := hu d (hd ▸ List.mem_cons_self)
      rw [hr, Entries.Readable] at hud
      exact all_rest hu hd hud.2
  | dirOpened d ds n x es es' ptr hd hr ht hn hrec ho hp hp' =>
    rw [updated_spec hg hd]
    have hkd := hk d (hd ▸ List.mem_cons_self)
    rw [hr, Entries.Kinds] at hkd
    have hx := open_dir ho (by simp)
    subst hx
    have h1 := hg.ptrs; have h2 := hg.distinct
    rw [hd] at h1 h2 hp'
    refine ⟨⟨fun o ho => ?_, ?_, fun d' ds' h h' => ?_⟩, ?_, ⟨rfl, rfl, rfl⟩, fun _ => ?_, fun h => absurd rfl h, fun hu => ⟨rfl, ?_⟩⟩
    · rcases List.mem_cons.mp ho with h | h
      · rw [h]; exact hp
      · exact (good_rest hg hd es s.ok).ptrs o h
    · refine List.nodup_cons.mpr ⟨fun hm => ?_, (good_rest hg hd es s.ok).distinct⟩
      obtain ⟨o, ho, he⟩ := List.mem_map.mp hm
      rcases List.mem_cons.mp ho with h | h
      · subst h; exact hp' d List.mem_cons_self he
      · exact hp' o (List.mem_cons_of_mem _ h) he
    · cases h
      exact absurd h' (hp' d List.mem_cons_self)
    · intro o ho
      rcases List.mem_cons.mp ho with h | h
      · rw [h]; have := hkd.1; rw [Node.Kinds] at this; exact this
      · exact (all_rest (s' := { s with dirs := { d with rest := es } :: ds }) hk hd hkd.2) o h
    · rw [hd, remaining, hr, Entries.listing, if_neg (fun h => hn h.1), dir_listing_in hrec, remaining, remaining_rest, relPathOf_push, relPathOf_rest d es ds, List.append_assoc, List.append_assoc]
      rfl
    · intro o ho
      have hud := hu d (hd ▸ List.mem_cons_self)
      rw [hr, Entries.Readable, Node.Readable] at hud
      rcases List.mem_cons.mp ho with h | h
      · rw [h]; exact (hud.1.resolve_left fun h => hn h.1).2 rfl
      · exact (all_rest (s' := { s with dirs := { d with rest := es } :: ds }) hu hd hud.2) o h
  | dirDenied d ds n x es es' hd hr ht hn hrec ho =>
    rw [updated_spec hg hd]
    have hkd := hk d (hd ▸ List.mem_cons_self)
    rw [hr, Entries.Kinds] at hkd
    have hx := open_dir ho (by simp)
    subst hx
    refine ⟨good_rest hg hd es s.ok, ?_, ⟨rfl, rfl, rfl⟩, fun _ => ?_, fun h => absurd rfl h, fun hu => ⟨rfl, ?_⟩⟩
    · exact all_rest hk hd hkd.2
    · rw [hd, remaining, hr, Entries.listing, if_neg (fun h => hn h.1), dir_listing_out (fun h => absurd h.2 (by decide)), remaining_rest, List.append_assoc]
      rfl
    · have hud := hu d (hd ▸ List.mem_cons_self)
      rw [hr, Entries.Readable] at hud
      exact all_rest hu hd hud.2
  | dirError d ds n x es es' hd hr ht hn hrec ho =>
    rw [updated_spec hg hd]
    have hkd := hk d (hd ▸ List.mem_cons_self)
    rw [hr, Entries.Kinds] at hkd
    refine ⟨good_rest hg hd es false, all_rest hk hd hkd.2, ⟨rfl, rfl, rfl⟩, fun h => ?_, fun _ => rfl, fun hu => ?_⟩
    · cases h
    · have hud := hu d (hd ▸ List.mem_cons_self)
      rw [hr, Entries.Readable] at hud
      cases x with
      | leaf t =>
        have := kinds_dir hkd.1 ht
        have hk := hkd.1
        rw [Node.Kinds] at hk
        have : t = 4 := this
        omega
      | dir r es =>
        have ho : (r, es) = (.error, es') := ho
        have := hud.1.resolve_left fun h => hn h.1
        rw [Node.Readable] at this
        exact absurd (congrArg Prod.fst ho) this.1
  | dirFlat d ds n x es hd hr ht hn hrec =>
    rw [updated_spec hg hd]
    have hkd := hk d (hd ▸ List.mem_cons_self)
    rw [hr, Entries.Kinds] at hkd
    refine ⟨good_rest hg hd es s.ok, all_rest hk hd hkd.2, ⟨rfl, rfl, rfl⟩, fun _ => ?_, fun h => absurd rfl h, fun hu => ⟨rfl, ?_⟩⟩
    · obtain ⟨r, es0, hx⟩ := kinds_isDir hkd.1 ht
      subst hx
      rw [hd, remaining, hr, Entries.listing, if_neg (fun h => hn h.1), dir_listing_out (fun h => by rw [hrec] at h; exact nomatch h.1), remaining_rest, List.append_assoc]
      rfl
    · have hud := hu d (hd ▸ List.mem_cons_self)
      rw [hr, Entries.Readable] at hud
      exact all_rest hu hd hud.2
  | file d ds n x es hd hr ht =>
    rw [updated_spec hg hd]
    have hkd := hk d (hd ▸ List.mem_cons_self)
    rw [hr, Entries.Kinds] at hkd
    refine ⟨good_rest hg hd es s.ok, all_rest hk hd hkd.2, ⟨rfl, rfl, rfl⟩, fun _ => ?_, fun h => absurd rfl h, fun hu => ⟨rfl, ?_⟩⟩
    · cases x with
      | dir r es' => exact absurd ht (by simp [Node.type])
      | leaf t =>
        have hk := hkd.1
        rw [Node.Kinds] at hk
        have h4 : t ≠ 4 := by omega
        rw [hd, remaining, hr, Entries.listing, if_neg (fun h => h4 h.2), leaf_listing hk, remaining_rest, List.append_assoc]
        rfl
    · have hud := hu d (hd ▸ List.mem_cons_self)
      rw [hr, Entries.Readable] at hud
      exact all_rest hu hd hud.2

theorem pass_ok {s s' : State} {o : Option Entry} (h : Pass s o s') (ho : s'.ok = true) : s.ok = true := by
  have hu : ∀ d, (s.updated d).ok = s.ok := by
    intro d; unfold State.updated; split <;> rfl
  cases h
  case failed => cases ho
  case dirError => cases ho
  all_goals exact (hu _).symm.trans ho

theorem next_ok {s s' : State} {o : Option Entry} (h : Next s o s') (ho : s'.ok = true) : s.ok = true := by
  induction h with
  | bad => exact ho
  | done => exact ho
  | found h _ => exact h
  | more h _ _ _ => exact h

theorem next_spec {s s' : State} {o : Option Entry} (h : Next s o s') (hg : Good s) (hk : AllRest Entries.Kinds s) :
    Good s' ∧ AllRest Entries.Kinds s' ∧ (s'.files = s.files ∧ s'.dirsWanted = s.dirsWanted ∧ s'.recursive = s.recursive) ∧
    (s'.ok = true → remaining s.files s.dirsWanted s.recursive s.dirs = o.toList ++ remaining s.files s.dirsWanted s.recursive s'.dirs) ∧
    (s'.ok = false → o = none) ∧ (AllRest Entries.Readable s → s.ok = true → s'.ok = true ∧ AllRest Entries.Readable s') ∧ (o = none → s'.ok = true → s'.dirs = []) := by
  induction h with
  | bad s hb => exact ⟨hg, hk, ⟨rfl, rfl, rfl⟩, fun _ => rfl, fun _ => rfl, fun hu ho => ⟨ho, hu⟩, fun _ h => by rw [hb] at h; exact nomatch h⟩
  | done s ho hd => exact ⟨hg, hk, ⟨rfl, rfl, rfl⟩, fun _ => rfl, fun _ => rfl, fun hu ho => ⟨ho, hu⟩, fun _ _ => hd⟩
  | found ho hp =>
    obtain ⟨h1, h2, h3, h4, h5, h6⟩ := pass_spec hp hg hk
    refine ⟨h1, h2, h3, h4, fun hf => h5 (by rw [hf, ho]; decide), fun hu _ => ?_, fun h => nomatch h⟩
    exact ⟨(h6 hu).1.trans ho, (h6 hu).2⟩
  | more ho hp hn ih =>
    obtain ⟨h1, h2, h3, h4, h5, h6⟩ := pass_spec hp hg hk
    obtain ⟨k1, k2, k3, k4, k5, k6, k7⟩ := ih h1 h2
    rw [h3.1, h3.2.1, h3.2.2] at k3 k4
    refine ⟨k1, k2, k3, fun hs => ?_, k5, fun hu _ => ?_, k7⟩
    · rw [h4 (next_ok hn hs)]
      exact k4 hs
    · exact k6 (h6 hu).2 ((h6 hu).1.trans ho)

theorem iterated_spec {s s' : State} {l : List Entry} (h : Iterated s l s') (hg : Good s) (hk : AllRest Entries.Kinds s) :
    l <+: remaining s.files s.dirsWanted s.recursive s.dirs ∧ (s'.ok = true → l = remaining s.files s.dirsWanted s.recursive s.dirs) ∧
    (AllRest Entries.Readable s → s.ok = true → s'.ok = true) := by
  induction h with
  | last hn =>
    obtain ⟨h1, h2, h3, h4, h5, h6, h7⟩ := next_spec hn hg hk
    exact ⟨List.nil_prefix, fun ho => by rw [h4 ho, h7 rfl ho]; rfl, fun hu ho => (h6 hu ho).1⟩
  | @entry s s1 s2 e l hn hi ih =>
    obtain ⟨h1, h2, h3, h4, h5, h6, h7⟩ := next_spec hn hg hk
    obtain ⟨k1, k2, k3⟩ := ih h1 h2
    rw [h3.1, h3.2.1, h3.2.2] at k1 k2
    have ho : s1.ok = true := by
      cases ho : s1.ok with
      | true => rfl
      | false => exact absurd (h5 ho) (by simp)
    rw [h4 ho]
    refine ⟨List.prefix_append_right_inj [e] |>.mpr k1, fun hs => ?_, fun hu ho => k3 (h6 hu ho).2 (h6 hu ho).1⟩
    rw [← k2 hs]; rfl

/-- If nothing fails then what was to be read is readable, if what is left is. -/
theorem pass_back {s s' : State} {o : Option Entry} (h : Pass s o s') (hk : AllRest Entries.Kinds s) (hrec : s.recursive = true) (hok : s'.ok = true) (hu : AllRest Entries.Readable s') :
    AllRest Entries.Readable s ∧ s'.recursive = true ∧ AllRest Entries.Kinds s' := by
  have hrc : ∀ d, (s.updated d).recursive = true := by
    intro d; unfold State.updated; split <;> exact hrec
  have back : ∀ (d : Opened) (ds : List Opened) (n : Name) (x : Node) (es : Entries), s.dirs = d :: ds → d.rest = .cons n x es → es.Readable → (((n = dot ∨ n = dotDot) ∧ x.type = 4) ∨ x.Readable) →
      (∀ o ∈ ds, o.rest.Readable) → AllRest Entries.Readable s := by
    intro d ds n x es hd hr h1 h2 h3 o ho
    rw [hd] at ho
    rcases List.mem_cons.mp ho with rfl | ho
    · rw [hr, Entries.Readable]; exact ⟨h2, h1⟩
    · exact h3 o ho
  cases h with
  | pop d ds hd hr =>
    refine ⟨fun o ho => ?_, hrc d, fun o ho => hk o (hd ▸ List.mem_cons_of_mem _ ho)⟩
    rw [hd] at ho
    rcases List.mem_cons.mp ho with rfl | ho
    · rw [hr, Entries.Readable]; trivial
    · exact hu o ho
  | failed => cases hok
  | dirError => cases hok
  | dots d ds n x es hd hr ht hn =>
    have hkd := hk d (hd ▸ List.mem_cons_self)
    rw [hr, Entries.Kinds] at hkd
    exact ⟨back d ds n x es hd hr (hu _ List.mem_cons_self) (.inl ⟨hn, kinds_dir hkd.1 ht⟩) fun o ho => hu o (List.mem_cons_of_mem _ ho), hrc d, all_rest hk hd hkd.2⟩
  | dirOpened d ds n x es es' ptr hd hr ht hn _ ho hp hp' =>
    have hkd := hk d (hd ▸ List.mem_cons_self)
    rw [hr, Entries.Kinds] at hkd
    have hx := open_dir ho (by simp)
    subst hx
    refine ⟨back d ds n _ es hd hr (hu _ (List.mem_cons_of_mem _ List.mem_cons_self)) (.inr ?_) fun o ho => hu o (List.mem_cons_of_mem _ (List.mem_cons_of_mem _ ho)), hrc d, fun o ho => ?_⟩
    · rw [Node.Readable]; exact ⟨by decide, fun _ => hu _ List.mem_cons_self⟩
    · rcases List.mem_cons.mp ho with h | h
      · rw [h]; have := hkd.1; rw [Node.Kinds] at this; exact this
      · exact (all_rest (s' := { s with dirs := { d with rest := es } :: ds }) hk hd hkd.2) o h
  | dirDenied d ds n x es es' hd hr ht hn _ ho =>
    have hkd := hk d (hd ▸ List.mem_cons_self)
    rw [hr, Entries.Kinds] at hkd
    have hx := open_dir ho (by simp)
    subst hx
    refine ⟨back d ds n _ es hd hr (hu _ List.mem_cons_self) (.inr ?_) fun o ho => hu o (List.mem_cons_of_mem _ ho), hrc d, all_rest hk hd hkd.2⟩
    rw [Node.Readable]; exact ⟨by decide, (fun h => nomatch h)⟩
  | dirFlat d ds n x es hd hr ht hn hrec' => rw [hrec] at hrec'; cases hrec'
  | file d ds n x es hd hr ht =>
    have hkd := hk d (hd ▸ List.mem_cons_self)
    rw [hr, Entries.Kinds] at hkd
    refine ⟨back d ds n x es hd hr (hu _ List.mem_cons_self) (.inr ?_) fun o ho => hu o (List.mem_cons_of_mem _ ho), hrc d, all_rest hk hd hkd.2⟩
    cases x with
    | dir r es' => exact absurd ht (by simp [Node.type])
    | leaf t => rw [Node.Readable]; trivial

theorem next_back {s s' : State} {o : Option Entry} (h : Next s o s') (hg : Good s) (hk : AllRest Entries.Kinds s) (hrec : s.recursive = true) (hok : s'.ok = true) (hu : AllRest Entries.Readable s') :
    AllRest Entries.Readable s := by
  induction h with
  | bad => exact hu
  | done => exact hu
  | found _ hp => exact (pass_back hp hk hrec hok hu).1
  | more ho hp hn ih =>
    obtain ⟨h1, h2, h3, h4, h5, h6⟩ := pass_spec hp hg hk
    exact (pass_back hp hk hrec (next_ok hn hok) (ih h1 h2 (h3.2.2.trans hrec) hok hu)).1

theorem iterated_back {s s' : State} {l : List Entry} (h : Iterated s l s') (hg : Good s) (hk : AllRest Entries.Kinds s) (hrec : s.recursive = true) (hok : s'.ok = true) :
    AllRest Entries.Readable s := by
  induction h with
  | last hn => exact next_back hn hg hk hrec hok fun o ho => by rw [(next_spec hn hg hk).2.2.2.2.2.2 rfl hok] at ho; cases ho
  | @entry s s1 s2 e l hn hi ih =>
    obtain ⟨h1, h2, h3, h4, h5, h6, h7⟩ := next_spec hn hg hk
    refine next_back hn hg hk hrec ?_ (ih h1 h2 (h3.2.2.trans hrec) hok)
    cases ho : s1.ok with
    | true => rfl
    | false => exact absurd (h5 ho) (by simp)

theorem opened_good (f dw rc : Bool) (ptr : Nat) (hp : ptr ≠ 0) (name : Name) (es : Entries) : Good (opened f dw rc ptr name es) := by
  refine ⟨fun o ho => ?_, by simp [opened], fun d ds h h' => ?_⟩
  · rw [List.mem_singleton.mp ho]; exact hp
  · cases h
    exact absurd h'.symm hp

/-- C134: an iteration to its end gives each entry of the tree that is wanted, once, with its path, each directory before what is in it; directories that may not be read are left out; and nothing else. This is for trees with only files, symlinks, FIFOs, character devices and directories, where no reading fails. -/
theorem C134_complete_partial (f dw rc : Bool) (ptr : Nat) (hp : ptr ≠ 0) (name : Name) (es : Entries) (hk : es.Kinds) (hr : es.Readable) (l : List Entry) (s : State)
    (h : Iterated (opened f dw rc ptr name es) l s) : l = es.listing f dw rc [] ∧ s.ok = true := by
  have ha : ∀ P : Entries → Prop, P es → AllRest P (opened f dw rc ptr name es) := by
    intro P hP o ho
    rw [List.mem_singleton.mp ho]; exact hP
  obtain ⟨-, h2, h3⟩ := iterated_spec h (opened_good f dw rc ptr hp name es) (ha _ hk)
  have ho := h3 (ha _ hr) rfl
  refine ⟨(h2 ho).trans ?_, ho⟩
  show es.listing f dw rc [] ++ [] = _
  rw [List.append_nil]

/-- C134: whatever fails, what is returned is a beginning of that, and all of it if there is no error at the end. -/
theorem C134_prefix_partial (f dw rc : Bool) (ptr : Nat) (hp : ptr ≠ 0) (name : Name) (es : Entries) (hk : es.Kinds) (l : List Entry) (s : State)
    (h : Iterated (opened f dw rc ptr name es) l s) : l <+: es.listing f dw rc [] ∧ (s.ok = true → l = es.listing f dw rc []) := by
  have ha : AllRest Entries.Kinds (opened f dw rc ptr name es) := by
    intro o ho
    rw [List.mem_singleton.mp ho]; exact hk
  obtain ⟨h1, h2, -⟩ := iterated_spec h (opened_good f dw rc ptr hp name es) ha
  have e : remaining f dw rc (opened f dw rc ptr name es).dirs = es.listing f dw rc [] := by
    show es.listing f dw rc [] ++ [] = _
    rw [List.append_nil]
  exact ⟨e ▸ h1, fun ho => e ▸ h2 ho⟩

/-- C134: an iteration over the whole tree ends with an error if and only if a directory cannot be read for another reason than permissions. -/
theorem C134_error_partial (f dw : Bool) (ptr : Nat) (hp : ptr ≠ 0) (name : Name) (es : Entries) (hk : es.Kinds) (l : List Entry) (s : State)
    (h : Iterated (opened f dw true ptr name es) l s) : s.ok = true ↔ es.Readable := by
  have ha : ∀ {P : Entries → Prop}, P es → AllRest P (opened f dw true ptr name es) := by
    intro P hP o ho
    rw [List.mem_singleton.mp ho]; exact hP
  refine ⟨fun ho => ?_, fun hr => (iterated_spec h (opened_good f dw true ptr hp name es) (ha hk)).2.2 (ha hr) rfl⟩
  exact iterated_back h (opened_good f dw true ptr hp name es) (ha hk) rfl ho _ List.mem_cons_self

mutual
def Node.size : Node → Nat
  | .leaf _ => 0
  | .dir _ es => es.size + 1
def Entries.size : Entries → Nat
  | .stop => 0
  | .failed => 0
  | .cons _ x es => x.size + es.size + 1
end

def State.size (s : State) : Nat := (s.dirs.map fun d => d.rest.size + 1).sum + if s.ok then 1 else 0

theorem pass_size {s s' : State} {o : Option Entry} (ho : s.ok = true) (h : Pass s o s') : s'.size < s.size := by
  have hu : ∀ d, (s.updated d).ok = s.ok ∧ (s.updated d).dirs = s.dirs := by
    intro d; unfold State.updated; split <;> exact ⟨rfl, rfl⟩
  unfold State.size
  cases h
  case failed d ds hd hr => simp [(hu d).2, ho]
  case dirOpened d ds n x es es' ptr hd hr ht hn hrec hx hp hp' =>
    have := open_dir hx (by simp)
    subst this
    simp [(hu d).1, hd, hr, ho, Entries.size, Node.size]; omega
  all_goals
    first
    | simp [(hu _).1, *, Entries.size]; done
    | simp [(hu _).1, *, Entries.size]; omega

theorem pass_next (s : State) (hd : s.dirs ≠ []) : ∃ o s', Pass s o s' := by
  match hd' : s.dirs with
  | [] => exact absurd hd' hd
  | d :: ds =>
    match hr : d.rest with
    | .stop => exact ⟨_, _, .pop s d ds hd' hr⟩
    | .failed => exact ⟨_, _, .failed s d ds hd' hr⟩
    | .cons n x es =>
      by_cases ht : x.type &&& 4 = 0
      · exact ⟨_, _, .file s d ds n x es hd' hr ht⟩
      · by_cases hn : n = dot ∨ n = dotDot
        · exact ⟨_, _, .dots s d ds n x es hd' hr ht hn⟩
        · cases hrec : s.recursive with
          | false => exact ⟨_, _, .dirFlat s d ds n x es hd' hr ht hn hrec⟩
          | true =>
            match hx : x.open with
            | (.denied, es') => exact ⟨_, _, .dirDenied s d ds n x es es' hd' hr ht hn hrec hx⟩
            | (.error, es') => exact ⟨_, _, .dirError s d ds n x es es' hd' hr ht hn hrec hx⟩
            | (.ok, es') =>
              refine ⟨_, _, .dirOpened s d ds n x es es' ((s.dirs.map (·.ptr)).sum + 1) hd' hr ht hn hrec hx (by omega) fun o ho he => ?_⟩
              have : o.ptr ≤ (s.dirs.map (·.ptr)).sum := by
                clear hd' he hd
                generalize s.dirs = l at ho
                induction l with
                | nil => cases ho
                | cons y l ih =>
                  rw [List.map_cons, List.sum_cons]
                  rcases List.mem_cons.mp ho with rfl | h
                  · omega
                  · have := ih h; omega
              omega

/-- C134: every iteration ends, whatever the tree is and whatever fails: there is no endless sequence of passes, and the loop can always go on or return. -/
theorem C134_terminates : (∀ s : State, Acc (fun s' s => s.ok = true ∧ ∃ o, Pass s o s') s) ∧ ∀ s : State, ∃ l s', Iterated s l s' := by
  refine ⟨fun s => ?_, fun s => ?_⟩
  · generalize hn : s.size = n
    induction n using Nat.strongRecOn generalizing s with
    | _ n ih => exact ⟨_, fun s' h => by obtain ⟨ho, o, hp⟩ := h; exact ih s'.size (hn ▸ pass_size ho hp) s' rfl⟩
  · generalize hn : s.size = n
    induction n using Nat.strongRecOn generalizing s with
    | _ n ih =>
      cases ho : s.ok with
      | false => exact ⟨[], s, .last (.bad s ho)⟩
      | true =>
        by_cases hd : s.dirs = []
        · exact ⟨[], s, .last (.done s ho hd)⟩
        · obtain ⟨o, s1, hp⟩ := pass_next s hd
          obtain ⟨l, s2, hi⟩ := ih s1.size (hn ▸ pass_size ho hp) s1 rfl
          cases o with
          | some e => exact ⟨e :: l, s2, .entry (.found ho hp) hi⟩
          | none =>
            cases hi with
            | last h => exact ⟨[], s2, .last (.more ho hp h)⟩
            | entry h h' => exact ⟨_, s2, .entry (.more ho hp h) h'⟩

/-- C134 does not hold for every tree: a socket next to a file, in a search for files in all directories. The iteration ends with an error, before the file. -/
theorem C134_socket_violated : ∃ (es : Entries) (s : State), Iterated (opened true false true 1 [] es) [] s ∧ s.ok = false ∧ es.Readable ∧
    es = .cons [115] (.leaf 12) (.cons [102] (.leaf 8) .stop) := by
  refine ⟨_, _, .last (.more rfl (.dirError _ _ _ [115] (.leaf 12) _ .stop rfl rfl (by decide) (by decide) rfl rfl) (.bad _ rfl)), rfl, ?_, rfl⟩
  simp [Entries.Readable, Node.Readable]

/-- C134 does not hold for every tree: on file systems that do not give the type of an entry (`DT_UNKNOWN`, 0) nothing is found, and there is no error. -/
theorem C134_unknown_violated (f dw rc : Bool) (n n' : Name) : ∃ s, Iterated (opened f dw rc 1 [] (.cons n (.leaf 0) (.cons n' (.leaf 0) .stop))) [] s ∧ s.ok = true := by
  have p1 : Pass (opened f dw rc 1 [] (.cons n (.leaf 0) (.cons n' (.leaf 0) .stop))) none (State.mk f dw rc true [⟨1, [], .cons n' (.leaf 0) .stop⟩] 1 []) :=
    Pass.file (opened f dw rc 1 [] (.cons n (.leaf 0) (.cons n' (.leaf 0) .stop))) ⟨1, [], .cons n (.leaf 0) (.cons n' (.leaf 0) .stop)⟩ [] n (.leaf 0) (.cons n' (.leaf 0) .stop) rfl rfl rfl
  have p2 : Pass (State.mk f dw rc true [⟨1, [], .cons n' (.leaf 0) .stop⟩] 1 []) none (State.mk f dw rc true [⟨1, [], .stop⟩] 1 []) :=
    Pass.file (State.mk f dw rc true [⟨1, [], .cons n' (.leaf 0) .stop⟩] 1 []) ⟨1, [], .cons n' (.leaf 0) .stop⟩ [] n' (.leaf 0) .stop rfl rfl rfl
  have p3 : Pass (State.mk f dw rc true [⟨1, [], .stop⟩] 1 []) none (State.mk f dw rc true [] 1 []) := Pass.pop (State.mk f dw rc true [⟨1, [], .stop⟩] 1 []) ⟨1, [], .stop⟩ [] rfl rfl
  exact ⟨_, .last (.more rfl p1 (.more rfl p2 (.more rfl p3 (.done _ rfl rfl)))), rfl⟩

mutual
theorem node_type (f dw rc : Bool) (e : Entry) : ∀ (x : Node) (p : List Name) (n : Name), e ∈ x.listing f dw rc p n → e.type = 4 ∨ e.type = 8 ∨ e.type = 10
  | .leaf t, p, n, h => by
    rw [Node.listing] at h
    split at h
    · next hc => rw [List.mem_singleton] at h; rw [h]; exact .inr hc.2
    · cases h
  | .dir r es, p, n, h => by
    rw [Node.listing] at h
    rcases List.mem_append.mp h with h | h
    · split at h
      · rw [List.mem_singleton] at h; rw [h]; exact .inl rfl
      · cases h
    · split at h
      · exact entries_type f dw rc e es _ h
      · cases h
theorem entries_type (f dw rc : Bool) (e : Entry) : ∀ (es : Entries) (p : List Name), e ∈ es.listing f dw rc p → e.type = 4 ∨ e.type = 8 ∨ e.type = 10
  | .stop, p, h => by rw [Entries.listing] at h; cases h
  | .failed, p, h => by rw [Entries.listing] at h; cases h
  | .cons n x es, p, h => by
    rw [Entries.listing] at h
    rcases List.mem_append.mp h with h | h
    · split at h
      · cases h
      · exact node_type f dw rc e x p n h
    · exact entries_type f dw rc e es p h
end

/-- C135: what is returned is said to be a directory if and only if it is one. -/
theorem C135_isDir_partial (f dw rc : Bool) (ptr : Nat) (hp : ptr ≠ 0) (name : Name) (es : Entries) (hk : es.Kinds) (l : List Entry) (s : State)
    (h : Iterated (opened f dw rc ptr name es) l s) : ∀ e ∈ l, (e.isDir = true ↔ e.type = 4) ∧ (e.isRegularFile = true ↔ e.type = 8 ∨ e.type = 10) := by
  intro e he
  have : e.type = 4 ∨ e.type = 8 ∨ e.type = 10 := by
    have hm := (C134_prefix_partial f dw rc ptr hp name es hk l s h).1.subset he
    exact entries_type f dw rc e es [] hm
  unfold Entry.isDir Entry.isRegularFile
  rcases this with h | h | h <;> rw [h] <;> decide

/-- C135 does not hold for symlinks and files: `IsSymlink` is true for every regular file, and `IsRegularFile` for every symlink. -/
theorem C135_symlink_violated (p : List Name) (n : Name) : (Entry.mk p n 8).isSymlink = true ∧ (Entry.mk p n 10).isRegularFile = true := by
  unfold Entry.isSymlink Entry.isRegularFile
  refine ⟨?_, ?_⟩
  · exact (by decide : decide ((8 : Nat) &&& 10 ≠ 0) = true)
  · exact (by decide : decide ((10 : Nat) &&& 8 ≠ 0) = true)

/-! ### Example -/

/-- `a/` with the file `x` in `a/b/`, a directory `a/c` that may not be read, and a symlink `a/l`. -/
def exTree : Entries :=
  .cons dot (.dir .ok .stop) (.cons [97] (.dir .ok (.cons [98] (.dir .ok (.cons [120] (.leaf 8) .stop)) (.cons [99] (.dir .denied (.cons [121] (.leaf 8) .stop)) (.cons [108] (.leaf 10) .stop)))) .stop)

/-- C134: the hypotheses are met. -/
theorem C134_example : exTree.Kinds ∧ exTree.Readable ∧
    exTree.listing true true true [] = [⟨[], [97], 4⟩, ⟨[[97]], [98], 4⟩, ⟨[[97], [98]], [120], 8⟩, ⟨[[97]], [99], 4⟩, ⟨[[97]], [108], 10⟩] ∧
    ∃ s, Iterated (opened true true true 1 [] exTree) [⟨[], [97], 4⟩, ⟨[[97]], [98], 4⟩, ⟨[[97], [98]], [120], 8⟩, ⟨[[97]], [99], 4⟩, ⟨[[97]], [108], 10⟩] s := by
  have hk : exTree.Kinds := by simp [exTree, Entries.Kinds, Node.Kinds]
  have hr : exTree.Readable := by simp [exTree, Entries.Readable, Node.Readable]
  have hl : exTree.listing true true true [] = [⟨[], [97], 4⟩, ⟨[[97]], [98], 4⟩, ⟨[[97], [98]], [120], 8⟩, ⟨[[97]], [99], 4⟩, ⟨[[97]], [108], 10⟩] := by
    simp [exTree, Entries.listing, Node.listing, Node.type, dot, dotDot]
  obtain ⟨l, s, h⟩ := C134_terminates.2 (opened true true true 1 [] exTree)
  refine ⟨hk, hr, hl, s, ?_⟩
  have := (C134_complete_partial true true true 1 (by decide) [] exTree hk hr l s h).1
  rw [hl] at this
  rw [← this]
  exact h

end Verif.DirIter
