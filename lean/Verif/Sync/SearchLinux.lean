import Verif.Sync.Sources

/-!
# Finding the files at the destination (`SearchFiles` on Linux, common/path.cc:640-716, and `FileFinder::AddFiles`,
# cdc_rsync_server/file_finder.cc:26-57)

Modelled: the traversal as glibc's `nftw` performs it with `FTW_PHYS | FTW_ACTIONRETVAL` on a tree that does not change: it removes the
slashes at the end of the path, does not follow symlinks, reports a directory before what is in it, and reports a directory that cannot
be read as such (`FTW_DNR`) instead. Taking a substring from beyond the end throws, which nothing catches: the result is `none`.
Not modelled: a directory that is removed during the search, and other failures of `nftw`.
-/
namespace Verif.Sync.SearchLinux
open Verif.Text.Path Verif.Sync.Search

/-- An entry of a directory. Files are all that is neither directory nor symlink. -/
inductive Entry where
  | file (name : Str) (mtime : Int) (size : Nat)
  | link (name : Str)
  | dir (name : Str) (mtime : Int) (readable : Bool) (entries : List Entry)

def Entry.name : Entry → Str
  | .file n _ _ => n
  | .link n => n
  | .dir n _ _ _ => n

/-- What `lstat` says about the path at which the search starts. -/
inductive Root where
  | missing
  | file (mtime : Int) (size : Nat)
  | link
  | dir (readable : Bool) (entries : List Entry)

/-! ## Model -/

/-- `nftw` removes slashes at the end, but not all of the path. -/
def strip (s : Str) : Str := match s with
  | [] => []
  | c :: t => c :: (t.reverse.dropWhile (· = 47)).reverse

/-- The start of the paths of what is in the directory `path`. -/
def inside (path : Str) : Str := if path.getLast? = some 47 then path else path ++ [47]

/-- The reports of `ftw_handler`, common/path.cc:653-687, about what is in the directory `path`. -/
def walkDir (path : Str) (recursive : Bool) : List Entry → List Hit
  | [] => []
  | .file n t s :: es => ⟨inside path, n, t, s, false⟩ :: walkDir path recursive es
  | .link _ :: es => walkDir path recursive es
  | .dir n t r sub :: es =>
    (if r then ⟨inside path, n, t, 0, true⟩ :: (if recursive then walkDir (inside path ++ n) recursive sub else []) else []) ++
      walkDir path recursive es

/-- The part of a path after the last `/` and the part before it: `pathinfo->base`. -/
def lastName (s : Str) : Str × Str :=
  ((s.reverse.dropWhile fun c => c ≠ 47).reverse, (s.reverse.takeWhile fun c => c ≠ 47).reverse)

/-- `SearchFilesLinux`, common/path.cc:691-715. The directory itself (level 0) is not reported; a missing one is fine. -/
def searchLinux (lstat : Str → Root) (dir : Str) (recursive : Bool) : List Hit :=
  match lstat (strip dir) with
  | .missing => []
  | .file t s => [⟨(lastName (strip dir)).1, (lastName (strip dir)).2, t, s, false⟩]
  | .link => []
  | .dir r es => if r then walkDir (strip dir) recursive es else []

/-- What is recorded about a file or directory at the destination. -/
structure Info where
  path : Str
  mtime : Int
  size : Nat
  isDir : Bool
deriving DecidableEq

/-- `FileFinder::AddFiles`, cdc_rsync_server/file_finder.cc:26-57; the handler for all reports. -/
def record (keep : Str → Bool) (base : Str) : List Hit → Option (List Info)
  | [] => some []
  | h :: hs =>
    if base.length ≤ h.dir.length then
      (record keep base hs).map fun l =>
        (if keep (join false (h.dir.drop base.length) h.name) then
          [⟨join false (h.dir.drop base.length) h.name, h.mtime, h.size, h.isDir⟩] else []) ++ l
    else none

def addFiles (lstat : Str → Root) (keep : Str → Bool) (base : Str) (recursive : Bool) : Option (List Info) :=
  record keep base (searchLinux lstat base recursive)

/-! ## Specification -/

/-- The entry `x` in the subdirectory `ds`, reached through directories that can be read. -/
inductive At : List Entry → List Str → Entry → Prop where
  | here {es x} : x ∈ es → At es [] x
  | down {es n t sub ds x} : Entry.dir n t true sub ∈ es → At sub ds x → At es (n :: ds) x

/-- Names joined to a path. -/
def slashPath (names : List Str) : Str := List.intercalate [47] names

/-- What has to be recorded about an entry: nothing for symlinks and for directories that cannot be read. -/
inductive Describes (ds : List Str) : Entry → Info → Prop where
  | file (n t s) : Describes ds (.file n t s) ⟨slashPath (ds ++ [n]), t, s, false⟩
  | dir (n t sub) : Describes ds (.dir n t true sub) ⟨slashPath (ds ++ [n]), t, 0, true⟩

/-- File names of Linux. -/
def NameOk (n : Str) : Prop := n ≠ [] ∧ 47 ∉ n

def NamesOk (es : List Entry) : Prop := ∀ ds x, At es ds x → NameOk x.name

/-- No directory has two entries of the same name. -/
inductive DirIn : List Entry → List Str → List Entry → Prop where
  | here (es) : DirIn es [] es
  | down {es n t sub ds l} : Entry.dir n t true sub ∈ es → DirIn sub ds l → DirIn es (n :: ds) l

def Distinct (es : List Entry) : Prop := ∀ ds l, DirIn es ds l → (l.map Entry.name).Nodup

/-! ## Proof -/

/-- The traversal without strings. -/
def visit (recursive : Bool) : List Entry → List (List Str × Entry)
  | [] => []
  | .file n t s :: es => ([], .file n t s) :: visit recursive es
  | .link _ :: es => visit recursive es
  | .dir n t r sub :: es =>
    (if r then ([], .dir n t r sub) :: (if recursive then (visit recursive sub).map (fun p => (n :: p.1, p.2)) else []) else []) ++
      visit recursive es

def slashes (ds : List Str) : Str := (ds.map (· ++ [47])).flatten

def hit (pre : Str) (p : List Str × Entry) : Hit :=
  match p.2 with
  | .file n t s => ⟨pre ++ slashes p.1, n, t, s, false⟩
  | .link n => ⟨pre ++ slashes p.1, n, 0, 0, false⟩
  | .dir n t _ _ => ⟨pre ++ slashes p.1, n, t, 0, true⟩

theorem hit_cons (pre n : Str) (p : List Str × Entry) : hit pre (n :: p.1, p.2) = hit (pre ++ n ++ [47]) p := by
  obtain ⟨ds, x⟩ := p
  cases x <;> simp [hit, slashes]

theorem inside_name {path n : Str} (hn : NameOk n) : inside (inside path ++ n) = inside path ++ n ++ [47] := by
  have : (inside path ++ n).getLast? ≠ some 47 := by
    intro h
    rw [List.getLast?_append, List.getLast?_eq_some_getLast hn.1] at h
    have h : n.getLast hn.1 = 47 := Option.some.inj h
    exact hn.2 (h ▸ List.getLast_mem hn.1)
  generalize inside path = p at this ⊢
  unfold inside
  rw [if_neg this]

theorem namesOk_tail {e : Entry} {es : List Entry} (h : NamesOk (e :: es)) : NamesOk es := by
  intro ds x hx
  cases hx with
  | here h1 => exact h [] x (.here (List.mem_cons_of_mem _ h1))
  | down h1 h2 => exact h _ x (.down (List.mem_cons_of_mem _ h1) h2)

theorem namesOk_sub {n : Str} {t : Int} {sub es : List Entry} (h : NamesOk (.dir n t true sub :: es)) : NamesOk sub :=
  fun ds x hx => h (n :: ds) x (.down List.mem_cons_self hx)

theorem walkDir_eq (path : Str) (recursive : Bool) : (es : List Entry) → NamesOk es →
    walkDir path recursive es = (visit recursive es).map (hit (inside path))
  | [], _ => by simp [walkDir, visit]
  | .file n t s :: es, h => by
    rw [walkDir, visit, List.map_cons, walkDir_eq path recursive es (namesOk_tail h)]
    simp [hit, slashes]
  | .link n :: es, h => by rw [walkDir, visit, walkDir_eq path recursive es (namesOk_tail h)]
  | .dir n t r sub :: es, h => by
    rw [walkDir, visit, List.map_append, walkDir_eq path recursive es (namesOk_tail h)]
    congr 1
    cases r with
    | false => rfl
    | true =>
      rw [if_pos rfl, if_pos rfl, List.map_cons]
      congr 1
      · simp [hit, slashes]
      · cases recursive with
        | false => rfl
        | true =>
          rw [if_pos rfl, if_pos rfl, walkDir_eq (inside path ++ n) true sub (namesOk_sub h), List.map_map,
            inside_name (n := n) (h [] _ (.here List.mem_cons_self))]
          exact List.map_congr_left fun p _ => (hit_cons _ n p).symm

/-- Files and readable directories. -/
def Shown : Entry → Prop
  | .file .. => True
  | .link _ => False
  | .dir _ _ r _ => r = true

theorem mem_visit (recursive : Bool) (es : List Entry) (ds : List Str) (x : Entry) :
    (ds, x) ∈ visit recursive es ↔ At es ds x ∧ Shown x ∧ (recursive = false → ds = []) := by
  induction ds generalizing es with
  | nil =>
    have hat : ∀ l, At l [] x ↔ x ∈ l := fun l => ⟨fun h => by cases h with | here h => exact h, .here⟩
    rw [hat]
    induction es with
    | nil => simp [visit]
    | cons e es ih =>
      cases e with
      | file n t s =>
        rw [visit, List.mem_cons, List.mem_cons, propext ih]
        constructor
        · rintro (h | ⟨h1, h2⟩)
          · injection h with _ h; subst h; exact ⟨.inl rfl, trivial, fun _ => rfl⟩
          · exact ⟨.inr h1, h2⟩
        · rintro ⟨h1 | h1, h2⟩
          · exact .inl (by rw [h1])
          · exact .inr ⟨h1, h2⟩
      | link n =>
        rw [visit, List.mem_cons, propext ih]
        constructor
        · rintro ⟨h1, h2⟩; exact ⟨.inr h1, h2⟩
        · rintro ⟨h1 | h1, h2⟩
          · subst h1; exact absurd h2.1 id
          · exact ⟨h1, h2⟩
      | dir n t r sub =>
        rw [visit, List.mem_append, List.mem_cons, propext ih]
        constructor
        · rintro (h | ⟨h1, h2⟩)
          · cases r with
            | false => cases h
            | true =>
              rw [if_pos rfl] at h
              rcases List.mem_cons.mp h with h | h
              · injection h with _ h; subst h; exact ⟨.inl rfl, rfl, fun _ => rfl⟩
              · cases recursive with
                | false => cases h
                | true =>
                  rw [if_pos rfl] at h
                  obtain ⟨q, _, e⟩ := List.mem_map.mp h
                  cases e
          · exact ⟨.inr h1, h2⟩
        · rintro ⟨h1 | h1, h2, h3⟩
          · subst h1
            have h2 : r = true := h2
            subst h2
            exact .inl (by rw [if_pos rfl]; exact List.mem_cons_self)
          · exact .inr ⟨h1, h2, h3⟩
  | cons d ds ihd =>
    have hat : ∀ l, At l (d :: ds) x ↔ ∃ t sub, Entry.dir d t true sub ∈ l ∧ At sub ds x := fun l =>
      ⟨fun h => by cases h with | down h1 h2 => exact ⟨_, _, h1, h2⟩, fun ⟨_, _, h1, h2⟩ => .down h1 h2⟩
    rw [hat]
    induction es with
    | nil => simp [visit]
    | cons e es ih =>
      cases e with
      | file n t s =>
        rw [visit, List.mem_cons, propext ih]
        constructor
        · rintro (h | ⟨⟨t', sub, h1, h2⟩, h3⟩)
          · cases h
          · exact ⟨⟨t', sub, List.mem_cons_of_mem _ h1, h2⟩, h3⟩
        · rintro ⟨⟨t', sub, h1, h2⟩, h3⟩
          rcases List.mem_cons.mp h1 with h1 | h1
          · cases h1
          · exact .inr ⟨⟨t', sub, h1, h2⟩, h3⟩
      | link n =>
        rw [visit, propext ih]
        constructor
        · rintro ⟨⟨t', sub, h1, h2⟩, h3⟩
          exact ⟨⟨t', sub, List.mem_cons_of_mem _ h1, h2⟩, h3⟩
        · rintro ⟨⟨t', sub, h1, h2⟩, h3⟩
          rcases List.mem_cons.mp h1 with h1 | h1
          · cases h1
          · exact ⟨⟨t', sub, h1, h2⟩, h3⟩
      | dir n t r sub =>
        rw [visit, List.mem_append, propext ih]
        constructor
        · rintro (h | ⟨⟨t', sub', h1, h2⟩, h3⟩)
          · cases r with
            | false => cases h
            | true =>
              rw [if_pos rfl] at h
              rcases List.mem_cons.mp h with h | h
              · cases h
              · cases recursive with
                | false => cases h
                | true =>
                  rw [if_pos rfl] at h
                  obtain ⟨q, hq, e⟩ := List.mem_map.mp h
                  cases e
                  obtain ⟨g1, g2, _⟩ := (ihd sub).mp (show (q.1, q.2) ∈ _ from hq)
                  exact ⟨⟨t, sub, List.mem_cons_self, g1⟩, g2, fun h => nomatch h⟩
          · exact ⟨⟨t', sub', List.mem_cons_of_mem _ h1, h2⟩, h3⟩
        · rintro ⟨⟨t', sub', h1, h2⟩, h3, h4⟩
          rcases List.mem_cons.mp h1 with h1 | h1
          · cases h1
            cases recursive with
            | false => exact nomatch h4 rfl
            | true =>
              refine .inl ?_
              rw [if_pos rfl, if_pos rfl]
              refine List.mem_cons_of_mem _ (List.mem_map.mpr ⟨(ds, x), (ihd sub).mpr ⟨h2, h3, fun h => nomatch h⟩, rfl⟩)
          · exact .inr ⟨⟨t', sub', h1, h2⟩, h3, h4⟩

theorem head_visit {recursive : Bool} {es : List Entry} {p : List Str × Entry} (h : p ∈ visit recursive es) :
    ∃ x ∈ es, (p.1 ++ [p.2.name]).head? = some x.name := by
  obtain ⟨ds, x⟩ := p
  obtain ⟨h1, _⟩ := (mem_visit recursive es ds x).mp h
  cases h1 with
  | here h1 => exact ⟨x, h1, rfl⟩
  | down h1 h2 => exact ⟨_, h1, rfl⟩

theorem nodup_visit (recursive : Bool) : (es : List Entry) → Distinct es → ((visit recursive es).map fun p => p.1 ++ [p.2.name]).Nodup
  | [], _ => by simp [visit]
  | e :: es, hd => by
    have hn := hd [] _ (.here _)
    rw [List.map_cons, List.nodup_cons] at hn
    have htail : Distinct es := by
      intro ds l h
      cases h with
      | here => exact hn.2
      | down h1 h2 => exact hd _ l (.down (List.mem_cons_of_mem _ h1) h2)
    have ih := nodup_visit recursive es htail
    have hdis : ∀ x ∈ (visit recursive es).map (fun p => p.1 ++ [p.2.name]), x.head? ≠ some e.name := by
      intro x hx he
      obtain ⟨p, hp, rfl⟩ := List.mem_map.mp hx
      obtain ⟨y, hy, hh⟩ := head_visit hp
      rw [hh] at he
      exact hn.1 (List.mem_map.mpr ⟨y, hy, Option.some.inj he⟩)
    have hgo : ∀ b : List (List Str × Entry), (b.map fun p => p.1 ++ [p.2.name]).Nodup →
        (∀ x ∈ b.map (fun p => p.1 ++ [p.2.name]), x.head? = some e.name) →
        ((b ++ visit recursive es).map fun p => p.1 ++ [p.2.name]).Nodup := by
      intro b h1 h2
      rw [List.map_append, List.nodup_append]
      exact ⟨h1, ih, fun x hx y hy e => by subst e; exact hdis _ hy (h2 _ hx)⟩
    cases e with
    | file n t s =>
      rw [visit]
      exact hgo [([], .file n t s)] (by simp) (by simp [Entry.name])
    | link n => rw [visit]; exact ih
    | dir n t r sub =>
      rw [visit]
      apply hgo
      · cases r with
        | false => simp
        | true =>
          rw [if_pos rfl, List.map_cons, List.nodup_cons]
          cases recursive with
          | false => simp
          | true =>
            rw [if_pos rfl, List.map_map]
            have hs := nodup_visit true sub fun ds l h => hd (n :: ds) l (.down List.mem_cons_self h)
            constructor
            · intro hx
              obtain ⟨p, _, he⟩ := List.mem_map.mp hx
              have := congrArg List.length he
              simp at this
            · refine List.pairwise_map.mpr ((List.pairwise_map.mp hs).imp ?_)
              intro p q hne e
              exact hne (List.cons.inj e).2
      · intro x hx
        cases r with
        | false => cases hx
        | true =>
          rw [if_pos rfl, List.map_cons] at hx
          rcases List.mem_cons.mp hx with rfl | hx
          · rfl
          · cases recursive with
            | false => cases hx
            | true =>
              rw [if_pos rfl, List.map_map] at hx
              obtain ⟨p, _, rfl⟩ := List.mem_map.mp hx
              rfl

/-! ### Paths -/

theorem slashPath_concat (ds : List Str) (n : Str) : slashPath (ds ++ [n]) = slashes ds ++ n := Sources.destPath_concat ds n

theorem join_slashes (ds : List Str) {n : Str} (hn : n ≠ []) : join false (slashes ds) n = slashPath (ds ++ [n]) := by
  rw [slashPath_concat]
  unfold join joinWith
  have : needsSep (slashes ds) = false := Sources.needsSep_slashes ds
  rw [if_neg hn, this]
  rfl

def infoOf (p : List Str × Entry) : Info :=
  match p.2 with
  | .file n t s => ⟨slashPath (p.1 ++ [n]), t, s, false⟩
  | .link n => ⟨slashPath (p.1 ++ [n]), 0, 0, false⟩
  | .dir n t _ _ => ⟨slashPath (p.1 ++ [n]), t, 0, true⟩

theorem record_eq (keep : Str → Bool) (pre : Str) (l : List (List Str × Entry)) (hl : ∀ p ∈ l, p.2.name ≠ []) :
    record keep pre (l.map (hit pre)) = some ((l.map infoOf).filter fun i => keep i.path) := by
  induction l with
  | nil => rfl
  | cons p l ih =>
    have ih := ih fun q hq => hl q (List.mem_cons_of_mem _ hq)
    obtain ⟨ds, x⟩ := p
    have hx : x.name ≠ [] := hl _ List.mem_cons_self
    rw [List.map_cons, record]
    have hdir : (hit pre (ds, x)).dir = pre ++ slashes ds := by cases x <;> rfl
    have hname : (hit pre (ds, x)).name = x.name := by cases x <;> rfl
    rw [if_pos (by rw [hdir, List.length_append]; omega), ih, hdir, hname, List.drop_left, join_slashes ds hx, List.map_cons,
      List.filter_cons]
    have hp : (infoOf (ds, x)).path = slashPath (ds ++ [x.name]) := by cases x <;> rfl
    rw [hp]
    by_cases hk : keep (slashPath (ds ++ [x.name])) = true
    · rw [if_pos hk, if_pos hk]
      cases x <;> rfl
    · rw [if_neg hk, if_neg hk]
      rfl

theorem strip_slash {b : Str} (hb : b.getLast? ≠ some 47) (hb0 : b ≠ []) : strip (b ++ [47]) = b ∧ inside b = b ++ [47] := by
  refine ⟨?_, by unfold inside; rw [if_neg hb]⟩
  cases b with
  | nil => exact absurd rfl hb0
  | cons c t =>
    show c :: ((t ++ [47]).reverse.dropWhile (· = 47)).reverse = c :: t
    congr 1
    rw [List.reverse_append]
    show ((47 :: t.reverse).dropWhile (· = 47)).reverse = t
    rw [List.dropWhile_cons_of_pos (by decide)]
    rcases List.eq_nil_or_concat t with rfl | ⟨t', a, rfl⟩
    · rfl
    · have ha : a ≠ 47 := by
        intro e
        apply hb
        rw [e]
        have : c :: t'.concat 47 = (c :: t') ++ [47] := by simp
        rw [this, List.getLast?_concat]
      rw [List.concat_eq_append, List.reverse_append]
      show (List.dropWhile (· = 47) (a :: t'.reverse)).reverse = _
      rw [List.dropWhile_cons_of_neg (by simpa using ha)]
      simp

theorem slashes_flat (ds : List Str) (n : Str) : 47 :: slashPath (ds ++ [n]) = ((ds ++ [n]).flatMap fun k => 47 :: k) := by
  rw [slashPath_concat]
  induction ds with
  | nil => simp [slashes]
  | cons d ds ih =>
    have e : ((d :: ds ++ [n]).flatMap fun k => (47 : UInt8) :: k) = 47 :: (d ++ ((ds ++ [n]).flatMap fun k => 47 :: k)) := by simp
    rw [e, ← ih]
    simp [slashes]

theorem flat47_inj {l l' : List Str} (h1 : ∀ n ∈ l, 47 ∉ n) (h2 : ∀ n ∈ l', 47 ∉ n)
    (h : (l.flatMap fun k => (47 : UInt8) :: k) = l'.flatMap fun k => 47 :: k) : l = l' := by
  have split : ∀ {n n' : Str} {r r' : List Str}, 47 ∉ n → 47 ∉ n' →
      n ++ (r.flatMap fun k => (47 : UInt8) :: k) = n' ++ (r'.flatMap fun k => 47 :: k) →
      n = n' ∧ (r.flatMap fun k => (47 : UInt8) :: k) = r'.flatMap fun k => 47 :: k := by
    intro n
    induction n with
    | nil =>
      intro n' r r' _ h2 h
      cases n' with
      | nil => exact ⟨rfl, h⟩
      | cons c n' =>
        cases r with
        | nil => simp at h
        | cons a r =>
          have h : (47 : UInt8) :: (a ++ (r.flatMap fun k => (47 : UInt8) :: k)) = c :: (n' ++ (r'.flatMap fun k => 47 :: k)) := by
            simpa using h
          injection h with e _
          exact absurd (by rw [← e]; exact List.mem_cons_self) h2
    | cons c n ih =>
      intro n' r r' h1 h2 h
      cases n' with
      | nil =>
        cases r' with
        | nil => simp at h
        | cons a r' =>
          have h : c :: (n ++ (r.flatMap fun k => (47 : UInt8) :: k)) = (47 : UInt8) :: (a ++ (r'.flatMap fun k => 47 :: k)) := by
            simpa using h
          injection h with e _
          exact absurd (by rw [← e]; exact List.mem_cons_self) h1
      | cons c' n' =>
        injection h with e h
        subst e
        obtain ⟨e, hr⟩ := ih (fun h => h1 (List.mem_cons_of_mem _ h)) (fun h => h2 (List.mem_cons_of_mem _ h)) h
        exact ⟨by rw [e], hr⟩
  induction l generalizing l' with
  | nil =>
    cases l' with
    | nil => rfl
    | cons a l' => simp at h
  | cons a l ih =>
    cases l' with
    | nil => simp at h
    | cons b l' =>
      have h : (47 : UInt8) :: (a ++ (l.flatMap fun k => 47 :: k)) = 47 :: (b ++ (l'.flatMap fun k => 47 :: k)) := by simpa using h
      injection h with _ h
      obtain ⟨e, hr⟩ := split (h1 a List.mem_cons_self) (h2 b List.mem_cons_self) h
      rw [e, ih (fun n hn => h1 n (List.mem_cons_of_mem _ hn)) (fun n hn => h2 n (List.mem_cons_of_mem _ hn)) hr]

theorem names_at {es : List Entry} (hn : NamesOk es) {ds : List Str} {x : Entry} (h : At es ds x) : ∀ n ∈ ds ++ [x.name], 47 ∉ n := by
  induction h with
  | here h1 =>
    intro n hm
    simp only [List.nil_append, List.mem_singleton] at hm
    subst hm
    exact (hn [] _ (.here h1)).2
  | @down es n t sub ds x h1 h2 ih =>
    intro k hm
    rcases List.mem_cons.mp hm with rfl | hm
    · exact (hn [] _ (.here h1)).2
    · exact ih (fun ds' y hy => hn (n :: ds') y (.down h1 hy)) k hm

/-! ## C149 -/

/-- **C149** (partial) For a destination that is a directory and is written with one slash at the end, the server's list of files has every
file and every readable directory below it that passes the filter, with its path, time and size, and nothing else (symlinks are not
followed); with the search not recursive, what is directly in the directory. Nothing is listed twice. Missing: destinations with more
than one slash at the end, that are files or symlinks (the violations below). -/
theorem C149_found_partial (lstat : Str → Root) (keep : Str → Bool) (b : Str) (es : List Entry) (recursive : Bool)
    (hb : b.getLast? ≠ some 47) (hb0 : b ≠ []) (hroot : lstat b = .dir true es) (hn : NamesOk es) (hd : Distinct es) :
    ∃ l, addFiles lstat keep (b ++ [47]) recursive = some l ∧
      (∀ i, i ∈ l ↔ ∃ ds x, At es ds x ∧ (recursive = false → ds = []) ∧ Describes ds x i ∧ keep i.path = true) ∧
      (l.map Info.path).Nodup := by
  obtain ⟨h1, h2⟩ := strip_slash hb hb0
  have hsearch : searchLinux lstat (b ++ [47]) recursive = (visit recursive es).map (hit (b ++ [47])) := by
    unfold searchLinux
    rw [h1, hroot]
    dsimp only
    rw [if_pos rfl, walkDir_eq b recursive es hn, h2]
  have hname : ∀ p ∈ visit recursive es, p.2.name ≠ [] := by
    intro p hp
    exact (hn p.1 p.2 ((mem_visit recursive es p.1 p.2).mp hp).1).1
  refine ⟨_, by unfold addFiles; rw [hsearch]; exact record_eq keep _ _ hname, ?_, ?_⟩
  · intro i
    rw [List.mem_filter, List.mem_map]
    constructor
    · rintro ⟨⟨p, hp, rfl⟩, hk⟩
      obtain ⟨ds, x⟩ := p
      obtain ⟨g1, g2, g3⟩ := (mem_visit recursive es ds x).mp hp
      refine ⟨ds, x, g1, g3, ?_, hk⟩
      cases x with
      | file n t s => exact .file n t s
      | link n => exact absurd g2 id
      | dir n t r sub => cases (show r = true from g2); exact .dir n t sub
    · rintro ⟨ds, x, g1, g3, g4, hk⟩
      refine ⟨⟨(ds, x), (mem_visit recursive es ds x).mpr ⟨g1, ?_, g3⟩, ?_⟩, hk⟩
      · cases g4 with
        | file => trivial
        | dir => rfl
      · cases g4 <;> rfl
  · refine List.Pairwise.sublist (List.Sublist.map _ List.filter_sublist) ?_
    rw [List.map_map]
    refine List.pairwise_map.mpr ((List.pairwise_map.mp (nodup_visit recursive es hd)).imp_of_mem ?_)
    intro p q hp hq hne e
    apply hne
    have hpath : ∀ p : List Str × Entry, (infoOf p).path = slashPath (p.1 ++ [p.2.name]) := by
      rintro ⟨ds, x⟩
      cases x <;> rfl
    have e : (infoOf p).path = (infoOf q).path := e
    rw [hpath, hpath] at e
    have e : 47 :: slashPath (p.1 ++ [p.2.name]) = 47 :: slashPath (q.1 ++ [q.2.name]) := by rw [e]
    rw [slashes_flat, slashes_flat] at e
    exact flat47_inj (names_at hn ((mem_visit recursive es p.1 p.2).mp hp).1) (names_at hn ((mem_visit recursive es q.1 q.2).mp hq).1) e

/-- **C149** A destination that does not exist is taken as empty. -/
theorem C149_missing (lstat : Str → Root) (keep : Str → Bool) (b : Str) (recursive : Bool) (hb : b.getLast? ≠ some 47) (hb0 : b ≠ [])
    (hroot : lstat b = .missing) : addFiles lstat keep (b ++ [47]) recursive = some [] := by
  unfold addFiles searchLinux
  rw [(strip_slash hb hb0).1, hroot]
  rfl

/-- **C149** (violated) A destination that is a symlink to a directory is searched as if it were empty: the slash at its end, which would
have made Linux follow the link, is removed before. This is so for all trees the link may lead to. -/
theorem C149_symlink_violated (lstat : Str → Root) (keep : Str → Bool) (b : Str) (recursive : Bool) (hb : b.getLast? ≠ some 47)
    (hb0 : b ≠ []) (hroot : lstat b = .link) : addFiles lstat keep (b ++ [47]) recursive = some [] := by
  unfold addFiles searchLinux
  rw [(strip_slash hb hb0).1, hroot]
  rfl

theorem lastName_append (s : Str) : (lastName s).1 ++ (lastName s).2 = s := by
  unfold lastName
  rw [← List.reverse_append, List.takeWhile_append_dropWhile, List.reverse_reverse]

/-- **C149** (violated) If the destination is a file, the server crashes. -/
theorem C149_file_violated (lstat : Str → Root) (keep : Str → Bool) (b : Str) (t : Int) (s : Nat) (recursive : Bool)
    (hb : b.getLast? ≠ some 47) (hb0 : b ≠ []) (hroot : lstat b = .file t s) : addFiles lstat keep (b ++ [47]) recursive = none := by
  unfold addFiles searchLinux
  rw [(strip_slash hb hb0).1, hroot]
  dsimp only
  rw [record, if_neg]
  have := congrArg List.length (lastName_append b)
  rw [List.length_append] at this
  dsimp only
  rw [List.length_append, List.length_singleton]
  omega

theorem strip_slashes {b : Str} (hb : b.getLast? ≠ some 47) (hb0 : b ≠ []) (k : Nat) : strip (b ++ List.replicate k 47) = b := by
  induction k with
  | zero =>
    rw [List.replicate_zero, List.append_nil]
    cases b with
    | nil => rfl
    | cons c t =>
      show c :: (t.reverse.dropWhile (· = 47)).reverse = c :: t
      rcases List.eq_nil_or_concat t with rfl | ⟨t', a, rfl⟩
      · rfl
      · have ha : a ≠ 47 := by
          intro e
          apply hb
          rw [e]
          have : c :: t'.concat 47 = (c :: t') ++ [47] := by simp
          rw [this, List.getLast?_concat]
        rw [List.concat_eq_append, List.reverse_append]
        show c :: (List.dropWhile (· = 47) (a :: t'.reverse)).reverse = _
        rw [List.dropWhile_cons_of_neg (by simpa using ha)]
        simp
  | succ k ih =>
    rw [List.replicate_succ', ← List.append_assoc]
    have : ∀ s : Str, s ≠ [] → strip (s ++ [47]) = strip s := by
      intro s hs
      cases s with
      | nil => exact absurd rfl hs
      | cons c t =>
        show c :: ((t ++ [47]).reverse.dropWhile (· = 47)).reverse = _
        rw [List.reverse_append]
        show c :: ((47 :: t.reverse).dropWhile (· = 47)).reverse = _
        rw [List.dropWhile_cons_of_pos (by decide)]
        rfl
    rw [this _ (by simp [hb0]), ih]

/-- **C149** (violated) If the destination is written with more than one slash at the end and the first entry is a file or a readable
directory, the server crashes. -/
theorem C149_slashes_violated (lstat : Str → Root) (keep : Str → Bool) (b : Str) (k : Nat) (n : Str) (t : Int) (s : Nat) (es : List Entry)
    (recursive : Bool) (hb : b.getLast? ≠ some 47) (hb0 : b ≠ []) (hroot : lstat b = .dir true (.file n t s :: es)) :
    addFiles lstat keep (b ++ List.replicate (k + 2) 47) recursive = none := by
  unfold addFiles searchLinux
  rw [strip_slashes hb hb0 (k + 2), hroot]
  dsimp only
  rw [if_pos rfl, walkDir, record, if_neg]
  dsimp only
  unfold inside
  rw [if_neg hb]
  simp

/-! ### Example -/

def exTree : List Entry :=
  [.file (str "a") 3 5, .link (str "l"), .dir (str "sub") 7 true [.file (str "b") 8 9], .dir (str "no") 1 false [.file (str "c") 1 1]]

theorem exTree_walk (recursive : Bool) : walkDir (str "/mnt/d") recursive exTree =
    ⟨str "/mnt/d/", str "a", 3, 5, false⟩ :: ⟨str "/mnt/d/", str "sub", 7, 0, true⟩ ::
      (if recursive then [⟨str "/mnt/d/sub/", str "b", 8, 9, false⟩] else []) := by
  have h1 : inside (str "/mnt/d") = str "/mnt/d/" := by decide +kernel
  have h2 : inside (str "/mnt/d/" ++ str "sub") = str "/mnt/d/sub/" := by decide +kernel
  cases recursive <;> simp [exTree, walkDir, h1, h2]

def exStat (s : Str) : Root := if s = str "/mnt/d" then .dir true exTree else .missing

theorem exStat_search (recursive : Bool) (s : Str) (h : strip s = str "/mnt/d") :
    searchLinux exStat s recursive = walkDir (str "/mnt/d") recursive exTree := by
  unfold searchLinux exStat
  rw [h, if_pos rfl]
  rfl

example : addFiles exStat (fun _ => true) (str "/mnt/d/") true =
    some [⟨str "a", 3, 5, false⟩, ⟨str "sub", 7, 0, true⟩, ⟨str "sub/b", 8, 9, false⟩] := by
  unfold addFiles
  rw [exStat_search _ _ (by decide +kernel), exTree_walk]
  decide +kernel
example : addFiles exStat (fun _ => true) (str "/mnt/d/") false = some [⟨str "a", 3, 5, false⟩, ⟨str "sub", 7, 0, true⟩] := by
  unfold addFiles
  rw [exStat_search _ _ (by decide +kernel), exTree_walk]
  decide +kernel
example : addFiles exStat (fun _ => true) (str "/mnt/d//") true = none := by
  unfold addFiles
  rw [exStat_search _ _ (by decide +kernel), exTree_walk]
  decide +kernel

/-- The example meets the hypotheses of `C149_found_partial`. -/
theorem exTree_ok : NamesOk exTree ∧ Distinct exTree := by
  have hsub : ∀ {n t sub}, Entry.dir n t true sub ∈ exTree → sub = [.file (str "b") 8 9] := by
    intro n t sub h
    simp only [exTree, List.mem_cons, List.not_mem_nil, or_false] at h
    rcases h with h | h | h | h <;> cases h
    rfl
  constructor
  · intro ds x h
    cases h with
    | here h =>
      simp only [exTree, List.mem_cons, List.not_mem_nil, or_false] at h
      rcases h with rfl | rfl | rfl | rfl <;> exact ⟨by decide, by decide⟩
    | down h1 h2 =>
      cases hsub h1
      cases h2 with
      | here h =>
        simp only [List.mem_cons, List.not_mem_nil, or_false] at h
        subst h
        exact ⟨by decide, by decide⟩
      | down h1 _ => simp at h1
  · intro ds l h
    cases h with
    | here => decide
    | down h1 h2 =>
      cases hsub h1
      cases h2 with
      | here => decide
      | down h1 _ => simp at h1

end Verif.Sync.SearchLinux
