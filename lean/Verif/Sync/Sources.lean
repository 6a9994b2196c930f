import Verif.Sync.Search

/-!
# Where source files land (cdc_rsync/file_finder_and_sender.cc)

Modelled: `FindAndSendFiles` and `HandleFoundFileOrDir` on the search of `Verif.Sync.Search` (the client runs on Windows), up to the list
of entries in the order in which they are announced. The batches in which they travel are the subject of `Verif.Sync.Batch`. Taking a
substring from beyond the end of a string throws `std::out_of_range`, which nothing catches: the result is `none`.
-/
namespace Verif.Sync.Sources
open Verif.Text.Path Verif.Sync.Search

/-! ## Model -/

/-- `EndsWithSpecialDir`, cdc_rsync/file_finder_and_sender.cc:28-31. -/
def endsWithSpecialDir (s : Str) : Bool :=
  decide (s = [46]) || decide (s = [46, 46]) || decide ([92, 46] <:+ s) || decide ([92, 46, 46] <:+ s)

/-- `GetDrivePrefixWithBackslash`, cdc_rsync/file_finder_and_sender.cc:34-40. -/
def drivePrefixBackslash (s : Str) : Str :=
  let p := drivePrefix s
  if (s.drop p.length).head? = some 92 then p ++ [92] else p

/-- `GetFullSource`, cdc_rsync/file_finder_and_sender.cc:44-54. -/
def fullSource (source sourcesDir : Str) : Str :=
  if sourcesDir = [] then source else join true sourcesDir (source.drop (drivePrefixBackslash source).length)

/-- `find`, with the part of the string before the match. -/
def findMarker : Str → Option Str
  | [] => none
  | c :: s => if [92, 46, 92] <+: (c :: s) then some [] else (findMarker s).map (c :: ·)

/-- `GetBaseDir`, cdc_rsync/file_finder_and_sender.cc:56-86. -/
def baseDir (source sourcesDir : Str) (relative : Bool) : Str :=
  if ! relative then
    if endsWithSep source then source
    else
      let dir := dirNameWindows source
      if dir = [] then dir else ensureEndsWithSep true dir
  else match findMarker source with
    | some a => a ++ [92, 46, 92]
    | none => if sourcesDir ≠ [] then sourcesDir else drivePrefixBackslash source

/-- An announced file or directory: `AddFilesRequest`. -/
structure Sent where
  directory : Str
  filename : Str
  mtime : Int
  size : Nat
  isDir : Bool
deriving DecidableEq

/-- `dir.substr(base_dir_.size())`, cdc_rsync/file_finder_and_sender.cc:179. -/
def relDir (dir base : Str) : Option Str := if base.length ≤ dir.length then some (dir.drop base.length) else none

/-- `HandleFoundFileOrDir`, cdc_rsync/file_finder_and_sender.cc:174-230, for all reports of the search. `keep` is the path filter. -/
def handleAll (keep : Str → Bool) (base : Str) : List Hit → Option (List Sent)
  | [] => some []
  | h :: hs => match relDir h.dir base with
    | none => none
    | some r => (handleAll keep base hs).map fun l =>
      (if keep (join true r h.name) then [⟨r, h.name, h.mtime, h.size, h.isDir⟩] else []) ++ l

/-- The source after the first lines of `FindAndSendFiles`, cdc_rsync/file_finder_and_sender.cc:110-116. -/
def prepare (source : Str) : Str :=
  let s := toNative true source
  if endsWithSpecialDir s then ensureEndsWithSep true s else s

/-- `FindAndSendFiles`, cdc_rsync/file_finder_and_sender.cc:109-147; `sources_dir` has native separators
(cdc_rsync/file_finder_and_sender.cc:103-104). -/
def findAndSend (E : Env) (keep : Str → Bool) (sourcesDir : Str) (recursive relative : Bool) (source : Str) : Option (List Sent) :=
  let full := fullSource (prepare source) (toNative true sourcesDir)
  handleAll keep (baseDir full (toNative true sourcesDir) relative) (searchFiles E full recursive)

/-- The name the server gives to what is announced, relative to the destination: the loop over the requests,
cdc_rsync_server/cdc_rsync_server.cc:494-509. -/
def serverPath (s : Sent) : Str := join false (toNative false s.directory) s.filename

/-! ## Specification -/

/-- Names joined to a path of the destination. -/
def destPath (names : List Str) : Str := List.intercalate [47] names

/-- `src` taken apart into a directory (empty or with its `\`) and a last name. -/
def Cut (src d n : Str) : Prop := src = d ++ n ∧ 92 ∉ n ∧ (d = [] ∨ d.getLast? = some 92)

/-- The source selects the entry `x` in the subdirectory `ds` of the directory of the source (of the source itself if it ends in `\`). -/
inductive Selects (E : Env) (src : Str) : Bool → List Str → Node → Prop where
  | inside {ds x} : E.isDir src = true → src.getLast? = some 92 → Below (E.list src) ds x → Selects E src true ds x
  | named {d n ds x} : E.isDir src = true → Cut src d n → n ≠ [] → Below (E.list d) ds x →
      (∀ k, (ds ++ [x.name]).head? = some k → E.m n k = true) → Selects E src true ds x
  | pattern {d n ds x} : E.isDir src = false → Cut src d n → Below (E.list d) ds x → E.m n x.name = true →
      (42 ∈ n ∨ ∀ k ∈ ds, E.m n k = true) → Selects E src true ds x
  | flat {d n x} : E.isDir src = false → Cut src d n → n ≠ [] → x ∈ E.list d → Real x → E.m n x.name = true → Selects E src false [] x

/-- What is announced about an entry besides its name. -/
def info : Node → Int × Nat × Bool
  | .file _ t s => (t, s, false)
  | .dir _ t _ _ => (t, 0, true)

/-- The entry `x` is announced, and the server files it under `rs`, `ds` and its name. -/
def Lands (l : List Sent) (names : List Str) (x : Node) : Prop :=
  ∃ s ∈ l, serverPath s = destPath (names ++ [x.name]) ∧ (s.mtime, s.size, s.isDir) = info x

/-! ## Proof -/

theorem cut_exists (s : Str) : ∃ d n, Cut s d n ∧ upToLast s = d ∧ s.drop d.length = n := by
  obtain ⟨a, b, h1, h2, h3⟩ := split_trailing (fun c => decide (c ≠ 92)) s
  refine ⟨a, b, ⟨h1, fun h => by simpa using h2 92 h, ?_⟩, ?_, ?_⟩
  · cases hl : a.getLast? with
    | none => exact .inl (List.getLast?_eq_none_iff.mp hl)
    | some c => have := h3 c hl; simp at this; exact .inr (by rw [this])
  · rw [h1]
    refine upToLast_split a b (fun h => by simpa using h2 92 h) ?_
    cases hl : a.getLast? with
    | none => exact .inl (List.getLast?_eq_none_iff.mp hl)
    | some c => have := h3 c hl; simp at this; exact .inr (by rw [this])
  · rw [h1, List.drop_left]

theorem cut_eq {s d n : Str} (h : Cut s d n) : upToLast s = d ∧ s.drop (upToLast s).length = n := by
  obtain ⟨rfl, h1, h2⟩ := h
  rw [upToLast_split d n h1 h2, List.drop_left]
  exact ⟨rfl, rfl⟩

theorem upToLast_sep {s : Str} (h : s.getLast? = some 92) : upToLast s = s := by
  have := upToLast_split s [] (by simp) (.inr h)
  rwa [List.append_nil] at this

/-- The reports of the search are those of the selected entries. -/
theorem mem_searchFiles (E : Env) (hstar : ∀ n, E.m [42] n = true) (he : E.isDir [] = false) (src : Str) (recursive : Bool)
    (hr : E.readable (upToLast src) = true) (hno : E.isDir src = true → 42 ∉ src) (h : Hit) :
    h ∈ searchFiles E src recursive ↔ ∃ ds x, Selects E src recursive ds x ∧ h = hitOf (upToLast src ++ pathStr ds) x := by
  obtain ⟨d, n, hc, hd, hn⟩ := cut_exists src
  by_cases hdir : E.isDir src = true
  · cases recursive with
    | false =>
      rw [(C145_not_recursive E).1 src hdir]
      constructor
      · intro h; cases h
      · rintro ⟨ds, x, hs, _⟩
        cases hs with
        | flat h1 => rw [hdir] at h1; cases h1
    | true =>
      by_cases hsep : src.getLast? = some 92
      · have hr' := hr
        rw [upToLast_sep hsep] at hr'
        rw [C145_directory E hstar src hdir hsep hr', upToLast_sep hsep]
        constructor
        · rintro ⟨ds, x, hb, e⟩
          exact ⟨ds, x, .inside hdir hsep hb, e⟩
        · rintro ⟨ds, x, hs, e⟩
          refine ⟨ds, x, ?_, e⟩
          cases hs with
          | inside _ _ hb => exact hb
          | named _ h2 h3 _ _ =>
            exfalso
            have h4 := cut_eq h2
            rw [upToLast_sep hsep, List.drop_length] at h4
            exact h3 h4.2.symm
          | pattern h1 => rw [hdir] at h1; cases h1
      · have hn0 : n ≠ [] := by
          rintro rfl
          obtain ⟨h1, h2, h3⟩ := hc
          rw [List.append_nil] at h1
          subst h1
          rcases h3 with rfl | h3
          · rw [he] at hdir; cases hdir
          · exact hsep h3
        have hstarn : 42 ∉ n := fun h => hno hdir (by rw [hc.1]; exact List.mem_append_right _ h)
        have key := C145_named_directory E hstar d n ⟨hn0, hc.2.1, hstarn⟩ hc.2.2 (by rw [← hc.1]; exact hdir) (by rw [← hd]; exact hr) h
        rw [← hc.1] at key
        rw [key, hd]
        constructor
        · rintro ⟨ds, x, hb, hm, e⟩
          exact ⟨ds, x, .named hdir hc hn0 hb hm, e⟩
        · rintro ⟨ds, x, hs, e⟩
          cases hs with
          | inside _ h2 => exact absurd h2 hsep
          | named _ h2 h3 hb hm =>
            have h4 := cut_eq h2
            rw [hd] at h4
            obtain ⟨rfl, h4⟩ := h4
            rw [hn] at h4
            subst h4
            exact ⟨ds, x, hb, hm, e⟩
          | pattern h1 => rw [hdir] at h1; cases h1
  · have hdir : E.isDir src = false := by simpa using hdir
    rw [hd] at hr
    cases recursive with
    | false =>
      by_cases hn0 : n = []
      · subst hn0
        have : searchFiles E src false = [] := by
          unfold searchFiles
          dsimp only
          rw [if_neg (by rw [hdir]; simp), hd, hn]
          rfl
        rw [this]
        constructor
        · intro h; cases h
        · rintro ⟨ds, x, hs, _⟩
          cases hs with
          | flat _ h2 h3 =>
            have h4 := cut_eq h2
            rw [hd, hn] at h4
            exact absurd h4.2.symm h3
      · have key := (C145_not_recursive E).2 d n h hc.2.1 hn0 hc.2.2 (by rw [← hc.1]; exact hdir) hr
        rw [← hc.1] at key
        rw [key, hd]
        constructor
        · rintro ⟨x, hx, hre, hm, e⟩
          exact ⟨[], x, .flat hdir hc hn0 hx hre hm, by simpa [pathStr] using e⟩
        · rintro ⟨ds, x, hs, e⟩
          cases hs with
          | flat _ h2 h3 h5 h6 h7 =>
            have h4 := cut_eq h2
            rw [hd] at h4
            obtain ⟨rfl, h4⟩ := h4
            rw [hn] at h4
            subst h4
            exact ⟨x, h5, h6, h7, by simpa [pathStr] using e⟩
    | true =>
      have key : h ∈ searchFiles E src true ↔ ∃ ds x, (ds, x) ∈ walk E.m n false true (E.list d) ∧ h = hitOf (d ++ pathStr ds) x := by
        unfold searchFiles
        dsimp only
        rw [if_neg (by rw [hdir]; simp), hd, hn, searchWin_rec, hr, mem_map_toHit]
      rw [key, hd]
      constructor
      · rintro ⟨ds, x, hw, e⟩
        obtain ⟨h1, h2, h3⟩ := (mem_walk_iff hstar).mp hw
        exact ⟨ds, x, .pattern hdir hc h1 h2 h3, e⟩
      · rintro ⟨ds, x, hs, e⟩
        cases hs with
        | inside h1 => rw [hdir] at h1; cases h1
        | named h1 => rw [hdir] at h1; cases h1
        | pattern _ h2 h3 h5 h6 =>
          have h4 := cut_eq h2
          rw [hd] at h4
          obtain ⟨rfl, h4⟩ := h4
          rw [hn] at h4
          subst h4
          exact ⟨ds, x, (mem_walk_iff hstar).mpr ⟨h3, h5, h6⟩, e⟩

/-- The announcement of an entry found in the directory `base ++ r ++ pathStr ds`. -/
def sentOf (r : Str) : Node → Sent
  | .file n t s => ⟨r, n, t, s, false⟩
  | .dir n t _ _ => ⟨r, n, t, 0, true⟩

theorem handleAll_spec (keep : Str → Bool) (base : Str) (hits : List Hit) (h : ∀ h ∈ hits, base <+: h.dir) :
    ∃ l, handleAll keep base hits = some l ∧
      ∀ s, s ∈ l ↔ ∃ h ∈ hits, keep (join true (h.dir.drop base.length) h.name) = true ∧
        s = ⟨h.dir.drop base.length, h.name, h.mtime, h.size, h.isDir⟩ := by
  induction hits with
  | nil => exact ⟨[], rfl, by simp⟩
  | cons a hits ih =>
    obtain ⟨l, hl, hm⟩ := ih fun x hx => h x (List.mem_cons_of_mem _ hx)
    have ha : relDir a.dir base = some (a.dir.drop base.length) := by
      unfold relDir
      rw [if_pos (h a List.mem_cons_self).length_le]
    refine ⟨(if keep (join true (a.dir.drop base.length) a.name) then
      [⟨a.dir.drop base.length, a.name, a.mtime, a.size, a.isDir⟩] else []) ++ l, ?_, ?_⟩
    · rw [handleAll, ha]
      dsimp only
      rw [hl]
      rfl
    · intro s
      rw [List.mem_append, hm]
      constructor
      · rintro (h1 | ⟨x, h1, h2⟩)
        · split at h1
          · rename_i hk
            exact ⟨a, List.mem_cons_self, hk, List.mem_singleton.mp h1⟩
          · cases h1
        · exact ⟨x, List.mem_cons_of_mem _ h1, h2⟩
      · rintro ⟨x, h1, h2, h3⟩
        rcases List.mem_cons.mp h1 with rfl | h1
        · rw [if_pos h2]
          exact .inl (List.mem_singleton.mpr h3)
        · exact .inr ⟨x, h1, h2, h3⟩

theorem hitOf_dir (d : Str) (x : Node) : (hitOf d x).dir = d := by cases x <;> rfl
theorem hitOf_name (d : Str) (x : Node) : (hitOf d x).name = x.name := by cases x <;> rfl

/-- The entries announced for a source whose search starts in the directory `base ++ r`. -/
theorem announced (E : Env) (hstar : ∀ n, E.m [42] n = true) (he : E.isDir [] = false) (keep : Str → Bool) (src base r : Str)
    (recursive : Bool) (hr : E.readable (upToLast src) = true) (hno : E.isDir src = true → 42 ∉ src) (hb : upToLast src = base ++ r) :
    ∃ l, handleAll keep base (searchFiles E src recursive) = some l ∧
      ∀ s, s ∈ l ↔ ∃ ds x, Selects E src recursive ds x ∧ keep (join true (r ++ pathStr ds) x.name) = true ∧
        s = sentOf (r ++ pathStr ds) x := by
  have hm := mem_searchFiles E hstar he src recursive hr hno
  obtain ⟨l, hl, hs⟩ := handleAll_spec keep base (searchFiles E src recursive) (by
    intro h hh
    obtain ⟨ds, x, _, rfl⟩ := (hm h).mp hh
    rw [hitOf_dir, hb, List.append_assoc]
    exact List.prefix_append _ _)
  have hdrop : ∀ ds : List Str, (upToLast src ++ pathStr ds).drop base.length = r ++ pathStr ds := by
    intro ds
    rw [hb, List.append_assoc, List.drop_left]
  refine ⟨l, hl, fun s => ?_⟩
  rw [hs]
  constructor
  · rintro ⟨h, hh, hk, e⟩
    obtain ⟨ds, x, hx, rfl⟩ := (hm h).mp hh
    rw [hitOf_dir, hitOf_name, hdrop] at hk
    rw [hitOf_dir, hdrop] at e
    exact ⟨ds, x, hx, hk, by rw [e]; cases x <;> rfl⟩
  · rintro ⟨ds, x, hx, hk, e⟩
    refine ⟨_, (hm _).mpr ⟨ds, x, hx, rfl⟩, ?_, ?_⟩
    · rw [hitOf_dir, hitOf_name, hdrop]; exact hk
    · rw [hitOf_dir, hdrop, e]; cases x <;> rfl

/-! ### The name on the server -/

/-- The names of directories and files of Windows. -/
def Plain (n : Str) : Prop := n ≠ [] ∧ 92 ∉ n ∧ 47 ∉ n

theorem toNative_plain {n : Str} (h : 92 ∉ n) : toNative false n = n := by
  unfold toNative
  conv => rhs; rw [← List.map_id n]
  refine List.map_congr_left fun c hc => ?_
  rw [if_neg (show ¬ c = other false from fun e => h (by rw [← show c = 92 from e]; exact hc))]
  rfl

theorem toNative_pathStr {ds : List Str} (h : ∀ n ∈ ds, 92 ∉ n) : toNative false (pathStr ds) = (ds.map (· ++ [47])).flatten := by
  induction ds with
  | nil => rfl
  | cons n ds ih =>
    have e : toNative false (pathStr (n :: ds)) = toNative false n ++ ([47] ++ toNative false (pathStr ds)) := by
      simp [toNative, pathStr, other, native]
    rw [e, ih fun k hk => h k (List.mem_cons_of_mem _ hk), toNative_plain (h n List.mem_cons_self)]
    simp

theorem destPath_concat (ds : List Str) (n : Str) : destPath (ds ++ [n]) = (ds.map (· ++ [47])).flatten ++ n := by
  unfold destPath
  induction ds with
  | nil => simp [List.intercalate]
  | cons d ds ih =>
    cases ds with
    | nil => simp [List.intercalate]
    | cons d' ds =>
      have : List.intercalate [47] (d :: (d' :: ds) ++ [n]) = d ++ [47] ++ List.intercalate [47] (d' :: ds ++ [n]) := by
        simp [List.intercalate]
      rw [this, ih]
      simp

theorem needsSep_slashes (ds : List Str) : needsSep ((ds.map (· ++ [47])).flatten) = false := by
  rcases List.eq_nil_or_concat ds with rfl | ⟨l, a, rfl⟩
  · rfl
  · simp [needsSep, isSep]

theorem serverPath_sentOf {ds : List Str} (h : ∀ n ∈ ds, 92 ∉ n) (x : Node) (hx : x.name ≠ []) :
    serverPath (sentOf (pathStr ds) x) = destPath (ds ++ [x.name]) := by
  have e : serverPath (sentOf (pathStr ds) x) = join false (toNative false (pathStr ds)) x.name := by cases x <;> rfl
  rw [e, toNative_pathStr h, destPath_concat]
  unfold join joinWith
  rw [if_neg hx, needsSep_slashes]
  rfl

theorem sentOf_info (r : Str) (x : Node) : ((sentOf r x).mtime, (sentOf r x).size, (sentOf r x).isDir) = info x := by cases x <;> rfl

/-- The names of the tree below a directory are those of Windows. -/
def PlainTree (es : List Node) : Prop := ∀ ds l x, DirAt es ds l → x ∈ l → Plain x.name

theorem PlainTree.named {es : List Node} (h : PlainTree es) : Named es := fun ds l x hd hx => ⟨(h ds l x hd hx).1, (h ds l x hd hx).2.1⟩

theorem selects_names {E : Env} {src : Str} {recursive : Bool} {ds : List Str} {x : Node} (hp : ∀ d, PlainTree (E.list d))
    (h : Selects E src recursive ds x) : (∀ n ∈ ds, 92 ∉ n) ∧ x.name ≠ [] := by
  have go : ∀ d, Below (E.list d) ds x → (∀ n ∈ ds, 92 ∉ n) ∧ x.name ≠ [] := by
    intro d hb
    refine ⟨fun n hn => named_names (hp d).named hb n (List.mem_append_left _ hn), ?_⟩
    obtain ⟨l, h1, h2, _⟩ := hb
    exact (hp d ds l x h1 h2).1
  cases h with
  | inside _ _ hb => exact go _ hb
  | named _ _ _ hb => exact go _ hb
  | pattern _ _ hb => exact go _ hb
  | flat _ _ _ hx hre => exact go _ (below_nil.mpr ⟨hx, hre⟩)

/-- What is announced for a source and under which names the server files it. -/
def Announces (E : Env) (keep : Str → Bool) (src : Str) (recursive : Bool) (rs : List Str) (l : List Sent) : Prop :=
  (∀ ds x, Selects E src recursive ds x → keep (join true (pathStr (rs ++ ds)) x.name) = true → Lands l (rs ++ ds) x) ∧
  (∀ s ∈ l, ∃ ds x, Selects E src recursive ds x ∧ keep (join true (pathStr (rs ++ ds)) x.name) = true ∧
    serverPath s = destPath (rs ++ ds ++ [x.name]) ∧ (s.mtime, s.size, s.isDir) = info x)

theorem pathStr_append (a b : List Str) : pathStr (a ++ b) = pathStr a ++ pathStr b := by simp [pathStr]

theorem getLast_pathStr {a : Str} (rs : List Str) (h : a.getLast? = some 92) : (a ++ pathStr rs).getLast? = some 92 := by
  rcases List.eq_nil_or_concat rs with rfl | ⟨l, b, rfl⟩
  · simpa [pathStr] using h
  · have : pathStr (l.concat b) = pathStr l ++ b ++ [92] := by simp [pathStr]
    rw [this, ← List.append_assoc, List.getLast?_concat]

theorem announces (E : Env) (hstar : ∀ n, E.m [42] n = true) (he : E.isDir [] = false) (hp : ∀ d, PlainTree (E.list d))
    (keep : Str → Bool) (src base : Str) (rs : List Str) (hrs : ∀ n ∈ rs, 92 ∉ n)
    (recursive : Bool) (hr : E.readable (upToLast src) = true) (hno : E.isDir src = true → 42 ∉ src)
    (hb : upToLast src = base ++ pathStr rs) :
    ∃ l, handleAll keep base (searchFiles E src recursive) = some l ∧ Announces E keep src recursive rs l := by
  obtain ⟨l, hl, hm⟩ := announced E hstar he keep src base (pathStr rs) recursive hr hno hb
  have hsp : ∀ ds x, Selects E src recursive ds x → serverPath (sentOf (pathStr rs ++ pathStr ds) x) = destPath (rs ++ ds ++ [x.name]) := by
    intro ds x hs
    obtain ⟨h1, h2⟩ := selects_names hp hs
    rw [← pathStr_append]
    refine serverPath_sentOf (fun n hn => ?_) x h2
    rcases List.mem_append.mp hn with hn | hn
    · exact hrs n hn
    · exact h1 n hn
  refine ⟨l, hl, ?_, ?_⟩
  · intro ds x hs hk
    rw [pathStr_append] at hk
    exact ⟨_, (hm _).mpr ⟨ds, x, hs, hk, rfl⟩, hsp ds x hs, sentOf_info _ x⟩
  · intro s hs
    obtain ⟨ds, x, h1, h2, rfl⟩ := (hm s).mp hs
    exact ⟨ds, x, h1, by rw [pathStr_append]; exact h2, hsp ds x h1, sentOf_info _ x⟩

/-! ### The base directory -/

theorem toNative_no_slash (s : Str) : 47 ∉ toNative true s := by
  intro h
  obtain ⟨c, _, h⟩ := List.mem_map.mp h
  split at h
  · exact absurd h (by decide)
  · rename_i hc; exact hc h

theorem isSep_iff {s : Str} (h : 47 ∉ s) {c : UInt8} (hc : c ∈ s) : isSep c = true ↔ c = 92 := by
  unfold isSep
  simp only [Bool.or_eq_true, beq_iff_eq]
  exact ⟨fun h' => h'.elim (fun e => absurd (e ▸ hc) h) id, .inr⟩

theorem special_iff {d n : Str} (hn : 92 ∉ n) (hd : d = [] ∨ d.getLast? = some 92) :
    endsWithSpecialDir (d ++ n) = true ↔ n = [46] ∨ n = [46, 46] := by
  have key : ∀ k : Str, 92 ∉ k → ((d ++ n = k ∧ d = []) ∨ 92 :: k <:+ d ++ n ↔ n = k) := by
    intro k hk
    constructor
    · rintro (⟨h, rfl⟩ | ⟨a, h⟩)
      · simpa using h
      · have h : (a ++ [92]) ++ k = d ++ n := by simpa using h
        have h1 := upToLast_split (a ++ [92]) k hk (.inr (by simp))
        rw [h, upToLast_split d n hn hd] at h1
        rw [← h1] at h
        exact (List.append_cancel_left h).symm
    · rintro rfl
      rcases hd with rfl | hd
      · exact .inl ⟨rfl, rfl⟩
      · obtain ⟨d', rfl⟩ := List.getLast?_eq_some_iff.mp hd
        exact .inr ⟨d', by simp⟩
  have nil_of : ∀ k : Str, 92 ∉ k → d ++ n = k → d = [] := by
    intro k hk h
    rcases hd with hd | hd
    · exact hd
    · exact absurd (by rw [← h]; exact List.mem_append_left _ (List.mem_of_getLast? hd)) hk
  unfold endsWithSpecialDir
  simp only [Bool.or_eq_true, decide_eq_true_eq]
  rw [← key [46] (by decide), ← key [46, 46] (by decide)]
  constructor
  · rintro (((h | h) | h) | h)
    · exact .inl (.inl ⟨h, nil_of _ (by decide) h⟩)
    · exact .inr (.inl ⟨h, nil_of _ (by decide) h⟩)
    · exact .inl (.inr h)
    · exact .inr (.inr h)
  · rintro ((⟨h, _⟩ | h) | (⟨h, _⟩ | h))
    · exact .inl (.inl (.inl h))
    · exact .inl (.inr h)
    · exact .inl (.inl (.inr h))
    · exact .inr h

theorem prepare_regular {source d n : Str} (hs : toNative true source = d ++ n) (hn : 92 ∉ n) (hd : d = [] ∨ d.getLast? = some 92)
    (h1 : n ≠ [46]) (h2 : n ≠ [46, 46]) : prepare source = d ++ n := by
  unfold prepare
  dsimp only
  rw [hs, if_neg (fun h => ((special_iff hn hd).mp h).elim h1 h2)]

theorem prepare_special {source d n : Str} (hs : toNative true source = d ++ n) (hn : n = [46] ∨ n = [46, 46])
    (hd : d = [] ∨ d.getLast? = some 92) : prepare source = d ++ n ++ [92] := by
  have hno : 92 ∉ n := by rcases hn with rfl | rfl <;> decide
  have hl : endsWithSep (d ++ n) = false := by
    unfold endsWithSep
    rcases hn with rfl | rfl <;> simp [isSep]
  unfold prepare
  dsimp only
  rw [hs, if_pos ((special_iff hno hd).mpr hn)]
  unfold ensureEndsWithSep
  rw [hl]
  rfl

theorem baseDir_slash {src : Str} (h : src.getLast? = some 92) : baseDir src [] false = src := by
  unfold baseDir
  have : endsWithSep src = true := by unfold endsWithSep; rw [h]; rfl
  rw [if_pos (by rfl), if_pos this]

theorem endsWithSep_name {d n : Str} (hn0 : n ≠ []) (hn : NoSep n) : endsWithSep (d ++ n) = false := by
  unfold endsWithSep
  rw [List.getLast?_append, List.getLast?_eq_some_getLast hn0]
  exact hn _ (List.getLast_mem hn0)

/-- The base directory is the directory part of the source. -/
theorem baseDir_name {d n : Str} (hn0 : n ≠ []) (hslash : 47 ∉ d ++ n) (hn : 92 ∉ n)
    (hd : d = [] ∧ drivePrefix n = [] ∨ ∃ e, d = drivePrefix (d ++ n) ++ (e ++ [92]) ∧ e.getLast? ≠ some 92) :
    baseDir (d ++ n) [] false = d := by
  have hns : NoSep n := fun c hc => by
    have : ¬ isSep c = true := fun h => hn (by
      rw [← (isSep_iff hslash (List.mem_append_right _ hc)).mp h]; exact hc)
    simpa using this
  unfold baseDir
  rw [if_pos (by rfl), endsWithSep_name hn0 hns, if_neg (by simp)]
  dsimp only
  rcases hd with ⟨rfl, hp⟩ | ⟨e, he, hl⟩
  · have : dirNameWindows ([] ++ n) = [] := by
      unfold dirNameWindows
      have hp' : drivePrefix ([] ++ n) = [] := hp
      rw [hp']
      have := dirName_parts (drive := []) (d := []) (m := []) (n := n) (t := []) (fun _ h => nomatch h) hns (fun _ h => nomatch h) hn0
        (fun _ => rfl) (fun _ h => nomatch h)
      simpa using this
    rw [this]
    rfl
  · have hens : ∀ c, e.getLast? = some c → isSep c = false := by
      intro c hc
      have hmem : c ∈ d ++ n := by
        rw [he]
        exact List.mem_append_left _ (List.mem_append_right _ (List.mem_append_left _ (List.mem_of_getLast? hc)))
      have : ¬ isSep c = true := fun h => hl (by rw [hc, (isSep_iff hslash hmem).mp h])
      simpa using this
    have hdn : dirNameWindows (d ++ n) = drivePrefix (d ++ n) ++ (if e = [] then [92] else e) := by
      unfold dirNameWindows
      generalize hp : drivePrefix (d ++ n) = p at he
      have := dirName_parts (drive := p) (d := e) (m := [92]) (n := n) (t := []) (fun _ h => nomatch h) hns
        (fun c h => by simp at h; subst h; rfl) hn0 (fun h => nomatch h) hens
      rw [he]
      simpa using this
    rw [hdn]
    generalize drivePrefix (d ++ n) = p at he
    rw [he]
    by_cases h0 : e = []
    · subst h0
      rw [if_pos rfl, if_neg (by simp)]
      unfold ensureEndsWithSep
      have : endsWithSep (p ++ [92]) = true := by simp [endsWithSep, isSep]
      rw [this]
      simp
    · rw [if_neg h0, if_neg (by simp [h0])]
      unfold ensureEndsWithSep
      have : endsWithSep (p ++ e) = false := by
        unfold endsWithSep
        rw [List.getLast?_append, List.getLast?_eq_some_getLast h0]
        exact hens _ (List.getLast?_eq_some_getLast h0)
      rw [this]
      simp [native]

theorem findMarker_some {a b : Str} (h : ∀ a' b', a ++ [92, 46, 92] ++ b = a' ++ [92, 46, 92] ++ b' → a.length ≤ a'.length) :
    findMarker (a ++ [92, 46, 92] ++ b) = some a := by
  induction a with
  | nil =>
    show findMarker (92 :: 46 :: 92 :: b) = some []
    rw [findMarker, if_pos ⟨b, rfl⟩]
  | cons c a ih =>
    show findMarker (c :: (a ++ [92, 46, 92] ++ b)) = some (c :: a)
    rw [findMarker, if_neg, ih]
    · rfl
    · intro a' b' e
      have := h (c :: a') b' (by simpa using e)
      simpa using this
    · rintro ⟨b', e⟩
      have := h [] b' (by simpa using e.symm)
      simp at this

theorem findMarker_none {s : Str} (h : ¬ [92, 46, 92] <:+: s) : findMarker s = none := by
  induction s with
  | nil => rfl
  | cons c s ih =>
    rw [findMarker, if_neg, ih]
    · rfl
    · exact fun hi => h (List.infix_cons_iff.mpr (.inr hi))
    · exact fun hp => h hp.isInfix

/-! ## C147: where files land -/

/-- **C147** A source that ends in a separator: what is below that directory lands directly in the destination under the same names. -/
theorem C147_directory (E : Env) (hstar : ∀ n, E.m [42] n = true) (he : E.isDir [] = false) (hp : ∀ d, PlainTree (E.list d))
    (keep : Str → Bool) (source src : Str) (recursive : Bool) (hs : toNative true source = src) (hsep : src.getLast? = some 92)
    (hr : E.readable src = true) (hno : E.isDir src = true → 42 ∉ src) :
    ∃ l, findAndSend E keep [] recursive false source = some l ∧ Announces E keep src recursive [] l := by
  have hprep : prepare source = src := by
    have := prepare_regular (source := source) (d := src) (n := []) (by rw [hs]; simp) (by simp) (.inr hsep) (by simp) (by simp)
    simpa using this
  unfold findAndSend
  dsimp only
  rw [hprep]
  show ∃ l, handleAll keep (baseDir src [] false) (searchFiles E src recursive) = some l ∧ _
  rw [baseDir_slash hsep]
  exact announces E hstar he hp keep src src [] (by simp) recursive (by rw [upToLast_sep hsep]; exact hr) hno
    (by rw [upToLast_sep hsep]; simp [pathStr])

/-- **C147** The sources `.`, `..` and those that end in one of them stand for what is in that directory, as if they ended in `\`. -/
theorem C147_special_directory (E : Env) (hstar : ∀ n, E.m [42] n = true) (he : E.isDir [] = false) (hp : ∀ d, PlainTree (E.list d))
    (keep : Str → Bool) (source d n : Str) (recursive : Bool) (hs : toNative true source = d ++ n) (hn : n = [46] ∨ n = [46, 46])
    (hd : d = [] ∨ d.getLast? = some 92)
    (hr : E.readable (d ++ n ++ [92]) = true) (hno : 42 ∉ d) :
    ∃ l, findAndSend E keep [] recursive false source = some l ∧ Announces E keep (d ++ n ++ [92]) recursive [] l := by
  have hprep : prepare source = d ++ n ++ [92] := prepare_special hs hn hd
  have hsep : (d ++ n ++ [92]).getLast? = some 92 := by simp
  unfold findAndSend
  dsimp only
  rw [hprep]
  show ∃ l, handleAll keep (baseDir (d ++ n ++ [92]) [] false) (searchFiles E (d ++ n ++ [92]) recursive) = some l ∧ _
  rw [baseDir_slash hsep]
  refine announces E hstar he hp keep _ _ [] (by simp) recursive (by rw [upToLast_sep hsep]; exact hr) (fun _ => ?_)
    (by rw [upToLast_sep hsep]; simp [pathStr])
  intro h
  rcases List.mem_append.mp h with h | h
  · rcases List.mem_append.mp h with h | h
    · exact hno h
    · rcases hn with rfl | rfl <;> simp at h
  · simp at h

/-- **C147** (partial) Any other source: the file, directory or pattern `n` of the directory `d`. What it selects lands in the destination
under its name and, below a directory, under the names of the directories from `n` on. Missing: a directory that ends in more than one
separator (`C147_doubled_separator_violated`) and a name directly behind a drive letter (`C147_drive_relative_violated`). -/
theorem C147_name_partial (E : Env) (hstar : ∀ n, E.m [42] n = true) (he : E.isDir [] = false) (hp : ∀ d, PlainTree (E.list d))
    (keep : Str → Bool) (source d n : Str) (recursive : Bool) (hs : toNative true source = d ++ n)
    (hn0 : n ≠ []) (hn : 92 ∉ n) (hn1 : n ≠ [46]) (hn2 : n ≠ [46, 46])
    (hd : d = [] ∧ drivePrefix n = [] ∨ ∃ e, d = drivePrefix (d ++ n) ++ (e ++ [92]) ∧ e.getLast? ≠ some 92)
    (hr : E.readable d = true) (hno : E.isDir (d ++ n) = true → 42 ∉ d ++ n) :
    ∃ l, findAndSend E keep [] recursive false source = some l ∧ Announces E keep (d ++ n) recursive [] l := by
  have hd' : d = [] ∨ d.getLast? = some 92 := by
    rcases hd with ⟨h, _⟩ | ⟨e, h, _⟩
    · exact .inl h
    · right; rw [h]; simp
  have hprep := prepare_regular hs hn hd' hn1 hn2
  unfold findAndSend
  dsimp only
  rw [hprep]
  show ∃ l, handleAll keep (baseDir (d ++ n) [] false) (searchFiles E (d ++ n) recursive) = some l ∧ _
  rw [baseDir_name hn0 (by rw [← hs]; exact toNative_no_slash source) hn hd]
  exact announces E hstar he hp keep _ _ [] (by simp) recursive (by rw [upToLast_split d n hn hd']; exact hr) hno
    (by rw [upToLast_split d n hn hd']; simp [pathStr])

/-! ## C148: relative paths -/

/-- **C148** (partial) With `--relative`, a `\.\` in the source marks where the path begins that is kept: the first one counts. Missing:
names `.` and `..` among the kept ones, which the server takes literally (`C148_dot_violated`, `C148_outside_violated`). -/
theorem C148_marker_partial (E : Env) (hstar : ∀ n, E.m [42] n = true) (he : E.isDir [] = false) (hp : ∀ d, PlainTree (E.list d))
    (keep : Str → Bool) (source a n : Str) (rs : List Str) (recursive : Bool)
    (hs : toNative true source = a ++ [92, 46, 92] ++ (pathStr rs ++ n))
    (hfirst : ∀ a' b', toNative true source = a' ++ [92, 46, 92] ++ b' → a.length ≤ a'.length)
    (hrs : ∀ k ∈ rs, Plain k ∧ regular k = true) (hn : 92 ∉ n) (hn1 : n ≠ [46]) (hn2 : n ≠ [46, 46])
    (hr : E.readable (a ++ [92, 46, 92] ++ pathStr rs) = true)
    (hno : E.isDir (toNative true source) = true → 42 ∉ toNative true source) :
    ∃ l, findAndSend E keep [] recursive true source = some l ∧ Announces E keep (toNative true source) recursive rs l := by
  have hd : (a ++ [92, 46, 92] ++ pathStr rs) = [] ∨ (a ++ [92, 46, 92] ++ pathStr rs).getLast? = some 92 := by
    right
    exact getLast_pathStr rs (by simp)
  have hs' : toNative true source = (a ++ [92, 46, 92] ++ pathStr rs) ++ n := by rw [hs]; simp
  have hprep := prepare_regular hs' hn hd hn1 hn2
  rw [← hs'] at hprep
  unfold findAndSend
  dsimp only
  rw [hprep]
  show ∃ l, handleAll keep (baseDir (toNative true source) [] true) (searchFiles E (toNative true source) recursive) = some l ∧ _
  have hb : baseDir (toNative true source) [] true = a ++ [92, 46, 92] := by
    unfold baseDir
    rw [if_neg (by simp), hs, findMarker_some (fun a' b' e => hfirst a' b' (by rw [hs, e]))]
  have hu : upToLast (toNative true source) = (a ++ [92, 46, 92]) ++ pathStr rs := by rw [hs']; exact upToLast_split _ n hn hd
  rw [hb]
  exact announces E hstar he hp keep _ _ rs (fun k hk => (hrs k hk).1.2.1) recursive (by rw [hu]; exact hr) hno hu

/-- **C148** (partial) With `--files-from` and a base directory, the path of every listed source (without its drive) is kept. -/
theorem C148_files_from_partial (E : Env) (hstar : ∀ n, E.m [42] n = true) (he : E.isDir [] = false) (hp : ∀ d, PlainTree (E.list d))
    (keep : Str → Bool) (source sourcesDir sd p n : Str) (rs : List Str) (recursive : Bool)
    (hsd : toNative true sourcesDir = sd) (hsep : sd.getLast? = some 92)
    (hs : toNative true source = p ++ (pathStr rs ++ n)) (hdrive : drivePrefixBackslash (toNative true source) = p)
    (hmark : ¬ [92, 46, 92] <:+: sd ++ (pathStr rs ++ n))
    (hrs : ∀ k ∈ rs, Plain k ∧ regular k = true) (hn : 92 ∉ n) (hspecial : ¬ endsWithSpecialDir (toNative true source) = true)
    (hr : E.readable (sd ++ pathStr rs) = true)
    (hno : E.isDir (sd ++ (pathStr rs ++ n)) = true → 42 ∉ sd ++ (pathStr rs ++ n)) :
    ∃ l, findAndSend E keep sourcesDir recursive true source = some l ∧ Announces E keep (sd ++ (pathStr rs ++ n)) recursive rs l := by
  have hsd0 : sd ≠ [] := by rintro rfl; cases hsep
  have hprep : prepare source = toNative true source := by
    unfold prepare
    dsimp only
    rw [if_neg hspecial]
  have hfull : fullSource (toNative true source) sd = sd ++ (pathStr rs ++ n) := by
    unfold fullSource
    rw [if_neg hsd0, hdrive, hs, List.drop_left]
    unfold join joinWith
    have : needsSep sd = false := by unfold needsSep; rw [hsep]; rfl
    split
    · rename_i h; rw [h, List.append_nil]
    · rw [this]; rfl
  have hb : baseDir (sd ++ (pathStr rs ++ n)) sd true = sd := by
    unfold baseDir
    rw [if_neg (by simp), findMarker_none hmark]
    exact if_pos hsd0
  have hd : sd ++ pathStr rs = [] ∨ (sd ++ pathStr rs).getLast? = some 92 := by
    right
    exact getLast_pathStr rs hsep
  have hu : upToLast (sd ++ (pathStr rs ++ n)) = sd ++ pathStr rs := by
    rw [← List.append_assoc]; exact upToLast_split _ n hn hd
  unfold findAndSend
  dsimp only
  rw [hprep, hsd, hfull, hb]
  exact announces E hstar he hp keep _ _ rs (fun k hk => (hrs k hk).1.2.1) recursive (by rw [hu]; exact hr) hno hu

/-- **C148** (partial) With `--relative` and neither a marker nor a base directory, the whole path of the source is kept, without its drive.
-/
theorem C148_whole_path_partial (E : Env) (hstar : ∀ n, E.m [42] n = true) (he : E.isDir [] = false) (hp : ∀ d, PlainTree (E.list d))
    (keep : Str → Bool) (source p n : Str) (rs : List Str) (recursive : Bool)
    (hs : toNative true source = p ++ (pathStr rs ++ n)) (hdrive : drivePrefixBackslash (toNative true source) = p)
    (hp0 : rs ≠ [] ∨ p = [] ∨ p.getLast? = some 92)
    (hmark : ¬ [92, 46, 92] <:+: toNative true source)
    (hrs : ∀ k ∈ rs, Plain k ∧ regular k = true) (hn : 92 ∉ n) (hn1 : n ≠ [46]) (hn2 : n ≠ [46, 46])
    (hr : E.readable (p ++ pathStr rs) = true)
    (hno : E.isDir (toNative true source) = true → 42 ∉ toNative true source) :
    ∃ l, findAndSend E keep [] recursive true source = some l ∧ Announces E keep (toNative true source) recursive rs l := by
  have hd : p ++ pathStr rs = [] ∨ (p ++ pathStr rs).getLast? = some 92 := by
    rcases List.eq_nil_or_concat rs with rfl | ⟨l, b, rfl⟩
    · rcases hp0 with h | h | h
      · exact absurd rfl h
      · left; rw [h]; rfl
      · right; simpa [pathStr] using h
    · right; simp [pathStr]
  have hs' : toNative true source = (p ++ pathStr rs) ++ n := by rw [hs]; simp
  have hprep := prepare_regular hs' hn hd hn1 hn2
  rw [← hs'] at hprep
  have hu : upToLast (toNative true source) = p ++ pathStr rs := by rw [hs']; exact upToLast_split _ n hn hd
  have hb : baseDir (toNative true source) [] true = p := by
    unfold baseDir
    rw [if_neg (by simp), findMarker_none hmark]
    show (if ([] : Str) ≠ [] then _ else _) = _
    rw [if_neg (by simp), hdrive]
  unfold findAndSend
  dsimp only
  rw [hprep]
  show ∃ l, handleAll keep (baseDir (toNative true source) [] true) (searchFiles E (toNative true source) recursive) = some l ∧ _
  rw [hb]
  exact announces E hstar he hp keep _ _ rs (fun k hk => (hrs k hk).1.2.1) recursive (by rw [hu]; exact hr) hno hu

/-! ### Examples and violations -/

def all : Str → Bool := fun _ => true

/-- A file system with the one directory `d`. -/
def oneDir (d : Str) (t : List Node) : Env where
  m := exMatch
  isDir s := decide (s = d)
  readable _ := true
  list s := if s = d then t else []

/-- A file `f` in the current directory of the drive `C:`, which `FindFirstFile` finds under the name `C:f`. -/
def driveDir : Env where
  m pat n := if pat = str "*" then true else decide (pat = str "C:" ++ n)
  isDir _ := false
  readable _ := true
  list s := if s = [] then [.file (str "f") 4 10] else []

theorem driveDir_star (n : Str) : driveDir.m [42] n = true := by
  unfold driveDir
  dsimp only
  rw [if_pos (by decide)]

theorem oneDir_star (d : Str) (t : List Node) (n : Str) : (oneDir d t).m [42] n = true := by
  show exMatch [42] n = true
  unfold exMatch
  rw [if_pos (by decide)]

def exFiles : List Node := [.file (str "f") 4 10, .dir (str "sub") 5 true [.file (str "b.txt") 6 20]]

example : (findAndSend (oneDir (str "C:\\d\\") exFiles) all [] true false (str "C:/d/")).map (·.map serverPath) =
    some [str "f", str "sub", str "sub/b.txt"] := by decide +kernel
example : (findAndSend (oneDir (str "C:\\d\\") exFiles) all [] true false (str "C:\\d\\f")).map (·.map serverPath) =
    some [str "f"] := by decide +kernel
example : (findAndSend (oneDir (str "C:\\d\\") exFiles) all [] true false (str "C:\\d\\*.txt")).map (·.map serverPath) =
    some [str "sub/b.txt"] := by decide +kernel
example : (findAndSend (oneDir (str ".\\") exFiles) all [] true false (str ".")).map (·.map serverPath) =
    some [str "f", str "sub", str "sub/b.txt"] := by decide +kernel
example : (findAndSend (oneDir (str "C:\\a\\d\\") exFiles) all [] true true (str "C:\\a\\d\\f")).map (·.map serverPath) =
    some [str "a/d/f"] := by decide +kernel
example : (findAndSend (oneDir (str "C:\\a\\.\\d\\") exFiles) all [] true true (str "C:\\a\\.\\d\\f")).map (·.map serverPath) =
    some [str "d/f"] := by decide +kernel
example : (findAndSend (oneDir (str "x\\d\\") exFiles) all (str "x/") true true (str "C:\\d\\f")).map (·.map serverPath) =
    some [str "d/f"] := by decide +kernel

theorem exFiles_plain (d s : Str) : PlainTree ((oneDir d exFiles).list s) := by
  intro ds l x hd hx
  have hroot : ∀ y ∈ (oneDir d exFiles).list s, y ∈ exFiles := by
    intro y hy
    unfold oneDir at hy
    dsimp only at hy
    split at hy
    · exact hy
    · cases hy
  have hf : ∀ y ∈ exFiles, Plain y.name := by
    intro y hy
    simp only [exFiles, List.mem_cons, List.not_mem_nil, or_false] at hy
    rcases hy with rfl | rfl <;> exact ⟨by decide, by decide, by decide⟩
  generalize hes : (oneDir d exFiles).list s = es at hd
  rw [hes] at hroot
  cases hd with
  | here => exact hf x (hroot x hx)
  | down h1 h2 h3 =>
    have h1 := hroot _ h1
    simp only [exFiles, List.mem_cons, List.not_mem_nil, or_false] at h1
    rcases h1 with h1 | h1
    · cases h1
    · cases h1
      cases h3 with
      | here =>
        simp only [List.mem_cons, List.not_mem_nil, or_false] at hx
        subst hx
        exact ⟨by decide, by decide, by decide⟩
      | down h1 _ _ => simp at h1

/-- The hypotheses of the theorems are met: the source `C:\d\sub`, and `C:\a\.\d\f` with `--relative`. -/
example : ∃ l, findAndSend (oneDir (str "C:\\d\\") exFiles) all [] true false (str "C:\\d\\sub") = some l ∧
    Announces (oneDir (str "C:\\d\\") exFiles) all (str "C:\\d\\" ++ str "sub") true [] l :=
  C147_name_partial _ (oneDir_star _ _) (by decide) (exFiles_plain _) all (str "C:\\d\\sub") (str "C:\\d\\") (str "sub") true
    (by decide +kernel) (by decide) (by decide) (by decide) (by decide)
    (.inr ⟨str "\\d", by decide +kernel, by decide⟩) rfl (fun _ => by decide)

example : ∃ l, findAndSend (oneDir (str "a\\.\\d\\") exFiles) all [] true true (str "a/./d/*.txt") = some l ∧
    Announces (oneDir (str "a\\.\\d\\") exFiles) all (toNative true (str "a/./d/*.txt")) true [str "d"] l :=
  C148_marker_partial _ (oneDir_star _ _) (by decide) (exFiles_plain _) all (str "a/./d/*.txt") (str "a") (str "*.txt") [str "d"] true
    (by decide +kernel) (by
      intro a' b' e
      cases a' with
      | nil =>
        have : toNative true (str "a/./d/*.txt") = 97 :: str "\\.\\d\\*.txt" := by decide +kernel
        rw [this] at e
        injection e with e _
        exact absurd e (by decide)
      | cons _ _ => exact Nat.succ_le_succ (Nat.zero_le _))
    (by intro k hk; simp at hk; subst hk; exact ⟨⟨by decide, by decide, by decide⟩, by decide⟩)
    (by decide) (by decide) (by decide) rfl (by decide +kernel)

/-- **C147** (violated) The source `C:f`, a file in the current directory of the drive: the client crashes as soon as the file is found. -/
theorem C147_drive_relative_violated :
    ∃ E : Env, (∀ n, E.m [42] n = true) ∧ searchFiles E (str "C:f") false = [⟨[], str "f", 4, 10, false⟩] ∧
      findAndSend E all [] false false (str "C:f") = none :=
  ⟨driveDir, driveDir_star, by decide +kernel, by decide +kernel⟩

/-- **C147** (violated) With a doubled separator the server files the file under a name that starts with a separator. -/
theorem C147_doubled_separator_violated :
    ∃ E : Env, (∀ n, E.m [42] n = true) ∧
      (findAndSend E all [] false false (str "d\\\\f")).map (·.map serverPath) = some [str "/f"] :=
  ⟨oneDir (str "d\\\\") exFiles, oneDir_star _ _, by decide +kernel⟩

/-- **C148** (violated) The relative source `.\f` is filed under `./f`, not `f`. -/
theorem C148_dot_violated :
    ∃ E : Env, (∀ n, E.m [42] n = true) ∧
      (findAndSend E all [] false true (str ".\\f")).map (·.map serverPath) = some [str "./f"] ∧ destPath [str "f"] ≠ str "./f" :=
  ⟨oneDir (str ".\\") exFiles, oneDir_star _ _, by decide +kernel, by decide +kernel⟩

/-- **C148** (violated) The relative source `..\f` is filed under `../f`, outside the destination. -/
theorem C148_outside_violated :
    ∃ E : Env, (∀ n, E.m [42] n = true) ∧
      (findAndSend E all [] false true (str "..\\f")).map (·.map serverPath) = some [str "../f"] :=
  ⟨oneDir (str "..\\") exFiles, oneDir_star _ _, by decide +kernel⟩

/-- **C148** (violated) The relative source `C:f`: the client crashes. -/
theorem C148_drive_relative_violated :
    ∃ E : Env, (∀ n, E.m [42] n = true) ∧ findAndSend E all [] false true (str "C:f") = none :=
  ⟨driveDir, driveDir_star, by decide +kernel⟩

end Verif.Sync.Sources
