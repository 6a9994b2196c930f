/-!
# Listing a directory (C69): cdc_fuse_fs/cdc_fuse_fs.cc

The answer to a request for the content of a directory is a piece of a buffer that is built anew for
each request; the kernel picks it apart and tells where to go on.
-/

namespace Verif.FuseFs.Listing

/-- The `n` least significant bytes of a number, as x86 and ARM store them. -/
def le : Nat → Nat → List UInt8
  | 0, _ => []
  | n + 1, x => UInt8.ofNat x :: le n (x / 256)

def un : List UInt8 → Nat
  | [] => 0
  | b :: l => b.toNat + 256 * un l

theorem le_length (n x : Nat) : (le n x).length = n := by
  induction n generalizing x with
  | zero => rfl
  | succ n ih => simp [le, ih]

theorem un_le {n x : Nat} (h : x < 256 ^ n) : un (le n x) = x := by
  induction n generalizing x with
  | zero => simp at h; simp [le, un, h]
  | succ n ih =>
    have : x / 256 < 256 ^ n := by
      rw [Nat.pow_succ] at h
      exact Nat.div_lt_of_lt_mul (by rw [Nat.mul_comm]; exact h)
    simp only [le, un, ih this, UInt8.toNat_ofNat']
    omega

/-- An entry of a directory as it is shown to programs: node, type (`(st_mode & 0170000) >> 12`) and name. -/
structure Entry where
  ino : Nat
  typ : Nat
  name : List UInt8
  deriving DecidableEq

/-- `FUSE_DIRENT_ALIGN` (linux/fuse.h). -/
def align (n : Nat) : Nat := (n + 7) / 8 * 8

/-- `fuse_add_direntry(req, NULL, 0, name, NULL, 0)` (libfuse): 24 is the size of the fields before
the name in `struct fuse_dirent`. -/
def entrySize (e : Entry) : Nat := align (24 + e.name.length)

/-- `struct fuse_dirent` (linux/fuse.h), as `fuse_add_direntry` writes it. -/
def encode (e : Entry) (off : Nat) : List UInt8 :=
  le 8 e.ino ++ (le 8 off ++ (le 4 e.name.length ++ (le 4 e.typ ++
    (e.name ++ List.replicate (entrySize e - (24 + e.name.length)) 0))))

/-- `AddDirectoryEntry` (cdc_fuse_fs.cc:302-320). -/
def addEntry (buffer : List UInt8) (e : Entry) : List UInt8 :=
  buffer ++ encode e (buffer.length + entrySize e)

/-- The entries of a directory, in the order of the manifest, after `.` and `..`
(cdc_fuse_fs.cc:697-717). -/
def entries (self parent : Nat) (children : List Entry) : List Entry :=
  ⟨self, 4, [46]⟩ :: ⟨parent, 4, [46, 46]⟩ :: children

/-- `CdcFuseReadDir` (cdc_fuse_fs.cc:678-727) for a directory with these entries, `.` and `..`
included. -/
def readDir (es : List Entry) (size off : Nat) : List UInt8 :=
  let buffer := es.foldl addEntry []
  if off ≥ buffer.length then []
  else (buffer.drop off).take (min (buffer.length - off) size)

/-- `parse_dirfile` (fs/fuse/readdir.c in Linux): the entries the kernel finds in the answer, each with
the place to go on from, and whether it ends with the error EIO.  An entry that is cut off is left
for the next request. -/
def parse (b : List UInt8) : List (Entry × Nat) × Bool :=
  if b.length < 24 then ([], false)
  else
    let n := un ((b.drop 16).take 4)
    if n = 0 ∨ n > 1024 then ([], true)
    else if align (24 + n) > b.length then ([], false)
    else
      let name := (b.drop 24).take n
      if (47 : UInt8) ∈ name then ([], true)
      else
        let r := parse (b.drop (align (24 + n)))
        ((⟨un (b.take 8), un ((b.drop 20).take 4), name⟩, un ((b.drop 8).take 8)) :: r.1, r.2)
  termination_by b.length
  decreasing_by simp only [List.length_drop, align]; omega

/-- How a listing ends. -/
inductive Fin
  | complete | error
  deriving DecidableEq

/-- A program lists a directory from `pos` on (`getdents` in Linux).  `dirs`: what is in the directory at each request.  The
kernel asks for at least a page, and hands as many of the entries to the program as the program has
room for, at least one; it then goes on behind the last one. -/
inductive Scan : (dirs : List (List Entry)) → (pos : Nat) → (got : List Entry) → Fin → Prop
  | more {D dirs pos got fin size} (l l' : List (Entry × Nat)) (x : Entry × Nat) (err : Bool) : 4096 ≤ size →
      parse (readDir D size pos) = (l ++ x :: l', err) → Scan dirs x.2 got fin →
      Scan (D :: dirs) pos (l.map (·.1) ++ x.1 :: got) fin
  | complete {D pos size} : 4096 ≤ size → parse (readDir D size pos) = ([], false) → Scan [D] pos [] .complete
  | error {D pos size} : 4096 ≤ size → parse (readDir D size pos) = ([], true) → Scan [D] pos [] .error

/-- What can be the entry of a directory: names are not empty, have no slash and at most 1024 bytes
(`FUSE_NAME_MAX`), numbers fit. -/
structure Entry.Ok (e : Entry) : Prop where
  ino : e.ino < 256 ^ 8
  typ : e.typ < 256 ^ 4
  ne : e.name ≠ []
  len : e.name.length ≤ 1024
  slash : (47 : UInt8) ∉ e.name

/-- The size of all entries together. -/
def total (es : List Entry) : Nat := (es.map entrySize).sum

/-- A directory that can be listed. -/
def DirOk (es : List Entry) : Prop := (∀ e ∈ es, e.Ok) ∧ total es < 256 ^ 8

/-! ## Proofs -/

theorem entrySize_ge (e : Entry) : 24 + e.name.length ≤ entrySize e := by
  simp only [entrySize, align]; omega

theorem encode_length (e : Entry) (off : Nat) : (encode e off).length = entrySize e := by
  have := entrySize_ge e
  simp only [encode, List.length_append, le_length, List.length_replicate]; omega

/-- The buffer from `s` on. -/
def enc : Nat → List Entry → List UInt8
  | _, [] => []
  | s, e :: es => encode e (s + entrySize e) ++ enc (s + entrySize e) es

theorem enc_length (s : Nat) (es : List Entry) : (enc s es).length = total es := by
  induction es generalizing s with
  | nil => rfl
  | cons e es ih => simp [enc, encode_length, ih, total]

theorem foldl_enc (es : List Entry) (b : List UInt8) : es.foldl addEntry b = b ++ enc b.length es := by
  induction es generalizing b with
  | nil => simp [enc]
  | cons e es ih =>
    rw [List.foldl_cons, ih]
    simp [addEntry, enc, encode_length]

theorem enc_append (s : Nat) (a b : List Entry) : enc s (a ++ b) = enc s a ++ enc (s + total a) b := by
  induction a generalizing s with
  | nil => simp [enc, total]
  | cons e a ih =>
    simp only [List.cons_append, enc, ih, List.append_assoc]
    simp [total, Nat.add_assoc]

/-- Entries with the places where they end. -/
def ann : Nat → List Entry → List (Entry × Nat)
  | _, [] => []
  | s, e :: es => (e, s + entrySize e) :: ann (s + entrySize e) es

theorem ann_fst (s : Nat) (es : List Entry) : (ann s es).map (·.1) = es := by
  induction es generalizing s with
  | nil => rfl
  | cons e es ih => simp [ann, ih]

theorem drop_append_len {α} {n : Nat} {l r : List α} (h : l.length = n) : (l ++ r).drop n = r := by
  subst h; exact List.drop_left

theorem take_append_len {α} {n : Nat} {l r : List α} (h : l.length = n) : (l ++ r).take n = l := by
  subst h; exact List.take_left

/-- The first entry of a buffer is read back. -/
theorem parse_encode {e : Entry} (he : e.Ok) {off : Nat} (ho : off < 256 ^ 8) (r : List UInt8) :
    parse (encode e off ++ r) = ((e, off) :: (parse r).1, (parse r).2) := by
  have hl := encode_length e off
  have hg := entrySize_ge e
  have hn : (((encode e off ++ r).drop 16).take 4) = le 4 e.name.length := by
    simp only [encode, List.append_assoc]
    have : (16 : Nat) = 8 + 8 := rfl
    rw [this, ← List.drop_drop, drop_append_len (le_length ..), drop_append_len (le_length ..),
      take_append_len (le_length ..)]
  have hun : un (((encode e off ++ r).drop 16).take 4) = e.name.length := by
    rw [hn, un_le]
    exact Nat.lt_of_le_of_lt he.len (by decide)
  have hpos : e.name.length ≠ 0 := fun h => he.ne (List.eq_nil_of_length_eq_zero h)
  have hname : ((encode e off ++ r).drop 24).take e.name.length = e.name := by
    simp only [encode, List.append_assoc]
    have : (24 : Nat) = 8 + (8 + (4 + 4)) := rfl
    rw [this, ← List.drop_drop, drop_append_len (le_length ..), ← List.drop_drop, drop_append_len (le_length ..),
      ← List.drop_drop, drop_append_len (le_length ..), drop_append_len (le_length ..), take_append_len rfl]
  have htyp : ((encode e off ++ r).drop 20).take 4 = le 4 e.typ := by
    simp only [encode, List.append_assoc]
    have : (20 : Nat) = 8 + (8 + 4) := rfl
    rw [this, ← List.drop_drop, drop_append_len (le_length ..), ← List.drop_drop, drop_append_len (le_length ..),
      drop_append_len (le_length ..), take_append_len (le_length ..)]
  have hoff : ((encode e off ++ r).drop 8).take 8 = le 8 off := by
    simp only [encode, List.append_assoc]
    rw [drop_append_len (le_length ..), take_append_len (le_length ..)]
  have hino : (encode e off ++ r).take 8 = le 8 e.ino := by
    simp only [encode, List.append_assoc]
    rw [take_append_len (le_length ..)]
  have hrest : (encode e off ++ r).drop (align (24 + e.name.length)) = r := by
    rw [drop_append_len (by rw [hl]; rfl)]
  have hlen : (encode e off ++ r).length = entrySize e + r.length := by rw [List.length_append, hl]
  rw [parse]
  rw [if_neg (by rw [hlen]; omega)]
  simp only [hun, hname, htyp, hoff, hino, hrest]
  rw [if_neg (by have := he.len; omega), if_neg (by rw [hlen]; simp only [entrySize]; omega), if_neg he.slash,
    un_le he.ino, un_le he.typ, un_le ho]

/-- An entry that is cut off is not read. -/
theorem parse_cut {e : Entry} (he : e.Ok) {off : Nat} (r : List UInt8) {n : Nat} (hn : n < entrySize e) :
    parse ((encode e off ++ r).take n) = ([], false) := by
  have hl := encode_length e off
  have hlen : ((encode e off ++ r).take n).length = n := by
    rw [List.length_take, List.length_append, hl]; omega
  rw [parse]
  by_cases h24 : n < 24
  · rw [if_pos (by rw [hlen]; exact h24)]
  · rw [if_neg (by rw [hlen]; exact h24)]
    have hn' : ((((encode e off ++ r).take n).drop 16).take 4) = le 4 e.name.length := by
      rw [List.drop_take, List.take_take, Nat.min_eq_left (by omega)]
      simp only [encode, List.append_assoc]
      have : (16 : Nat) = 8 + 8 := rfl
      rw [this, ← List.drop_drop, drop_append_len (le_length ..), drop_append_len (le_length ..),
        take_append_len (le_length ..)]
    have hun : un ((((encode e off ++ r).take n).drop 16).take 4) = e.name.length := by
      rw [hn', un_le]
      exact Nat.lt_of_le_of_lt he.len (by decide)
    have hpos : e.name.length ≠ 0 := fun h => he.ne (List.eq_nil_of_length_eq_zero h)
    simp only [hun]
    rw [if_neg (by have := he.len; omega), if_pos (by rw [hlen]; exact hn)]

/-- A piece of the buffer that begins with an entry gives as many entries as fit. -/
theorem parse_take {es : List Entry} (hok : ∀ e ∈ es, e.Ok) (s n : Nat) (hs : s + total es < 256 ^ 8) :
    ∃ a b, es = a ++ b ∧ parse ((enc s es).take n) = (ann s a, false) ∧
      (∀ e b', b = e :: b' → n < total a + entrySize e) := by
  induction es generalizing s n with
  | nil =>
    refine ⟨[], [], rfl, ?_, fun e b' h => by cases h⟩
    simp only [enc, List.take_nil, ann]
    rw [parse]; rfl
  | cons e es ih =>
    have he := hok e (List.mem_cons_self ..)
    by_cases hn : n < entrySize e
    · exact ⟨[], e :: es, rfl, parse_cut he _ hn, fun e' b' h => by cases h; simpa [total] using hn⟩
    · have hsum : total (e :: es) = entrySize e + total es := by simp [total]
      obtain ⟨a, b, h1, h2, h3⟩ := ih (fun e' h => hok e' (List.mem_cons_of_mem _ h)) (s + entrySize e)
        (n - entrySize e) (by omega)
      refine ⟨e :: a, b, by rw [h1]; rfl, ?_, ?_⟩
      · simp only [enc, ann]
        rw [List.take_append, encode_length, List.take_of_length_le (by rw [encode_length]; omega),
          parse_encode he (by omega), h2]
      · intro e' b' h
        have := h3 e' b' h
        simp only [total, List.map_cons, List.sum_cons] at this ⊢
        omega

theorem readDir_enc (es : List Entry) (size off : Nat) :
    readDir es size off = ((enc 0 es).drop off).take size := by
  have h0 : es.foldl addEntry [] = enc 0 es := foldl_enc es []
  simp only [readDir, h0]
  split
  · rw [List.drop_eq_nil_of_le (by omega), List.take_nil]
  · rw [List.take_eq_take_iff, List.length_drop]
    omega

theorem drop_enc (a b : List Entry) : (enc 0 (a ++ b)).drop (total a) = enc (total a) b := by
  rw [enc_append, drop_append_len (enc_length ..), Nat.zero_add]

theorem ann_split {s : Nat} {a : List Entry} {l l' : List (Entry × Nat)} {x : Entry × Nat}
    (h : ann s a = l ++ x :: l') :
    ∃ a1 a2, a = a1 ++ x.1 :: a2 ∧ l.map (·.1) = a1 ∧ x.2 = s + total (a1 ++ [x.1]) := by
  induction a generalizing s l with
  | nil => simp [ann] at h
  | cons e a ih =>
    cases l with
    | nil =>
      simp only [ann, List.nil_append, List.cons.injEq] at h
      exact ⟨[], a, by rw [← h.1]; rfl, rfl, by rw [← h.1]; simp [total]⟩
    | cons y l =>
      simp only [ann, List.cons_append, List.cons.injEq] at h
      obtain ⟨a1, a2, h1, h2, h3⟩ := ih h.2
      refine ⟨e :: a1, a2, by rw [h1]; rfl, by rw [← h.1, List.map_cons, h2], ?_⟩
      rw [h3]; simp [total]; omega

theorem entrySize_le {e : Entry} (he : e.Ok) : entrySize e ≤ 1048 := by
  have := he.len
  simp only [entrySize, align]; omega

/-- What the kernel gets when it asks from the end of an entry on. -/
theorem parse_readDir {a b : List Entry} (hd : DirOk (a ++ b)) {size : Nat} (hsz : 4096 ≤ size) :
    ∃ c d, b = c ++ d ∧ (b ≠ [] → c ≠ []) ∧ parse (readDir (a ++ b) size (total a)) = (ann (total a) c, false) := by
  have ht : total (a ++ b) = total a + total b := by simp [total]
  obtain ⟨c, d, h1, h2, h3⟩ := parse_take (es := b) (fun e h => hd.1 e (List.mem_append_right _ h)) (total a) size
    (by rw [← ht]; exact hd.2)
  refine ⟨c, d, h1, ?_, by rw [readDir_enc, drop_enc, h2]⟩
  rintro hb rfl
  cases d with
  | nil => exact hb h1
  | cons e d =>
    have := h3 e d rfl
    have := entrySize_le (hd.1 e (by rw [h1]; simp))
    simp [total] at *
    omega

theorem scan_stable {dirs : List (List Entry)} {pos : Nat} {got : List Entry} {fin : Fin}
    (h : Scan dirs pos got fin) {es a b : List Entry} (hd : DirOk es) (he : ∀ D ∈ dirs, D = es)
    (hab : es = a ++ b) (hp : pos = total a) : got = b ∧ fin = .complete ∧ dirs.length ≤ b.length + 1 := by
  induction h generalizing a b with
  | more l l' x err hsz hpar _ ih =>
    have hD := he _ (List.mem_cons_self ..)
    subst hD
    subst hab hp
    obtain ⟨c, d, h1, _, h3⟩ := parse_readDir hd hsz
    rw [hpar] at h3
    obtain ⟨a1, a2, e1, e2, e3⟩ := ann_split (Prod.mk.inj h3).1.symm
    obtain ⟨g1, g2, g3⟩ := ih (a := a ++ (a1 ++ [x.1])) (b := a2 ++ d)
      (fun D' h => he D' (List.mem_cons_of_mem _ h)) (by rw [h1, e1]; simp) (by rw [e3]; simp [total])
    refine ⟨by rw [h1, e1, e2, g1]; simp, g2, ?_⟩
    rw [h1, e1]
    simp only [List.length_cons, List.length_append] at g3 ⊢
    omega
  | complete hsz hpar =>
    have hD := he _ (List.mem_cons_self ..)
    subst hD
    subst hab hp
    obtain ⟨c, d, h1, h2, h3⟩ := parse_readDir hd hsz
    rw [hpar] at h3
    have hc : c = [] := by
      have := congrArg (List.map (·.1)) (Prod.mk.inj h3).1
      rwa [ann_fst, List.map_nil, eq_comm] at this
    have hb : b = [] := Decidable.byContradiction fun hb => h2 hb hc
    exact ⟨hb.symm, rfl, by simp⟩
  | error hsz hpar =>
    have hD := he _ (List.mem_cons_self ..)
    subst hD
    subst hab hp
    obtain ⟨c, d, h1, h2, h3⟩ := parse_readDir hd hsz
    rw [hpar] at h3
    cases (Prod.mk.inj h3).2

/-- **C69**: while a directory does not change, however the kernel divides a listing into requests
(of at least a page) and however much room the program has, the program gets every entry of the directory exactly
once, in order, and no error, with at most one request per entry and one at the end.  (Directories that change while they are listed: `C101_changed_violated`.) -/
theorem C69_listing {self parent : Nat} {children : List Entry} (hd : DirOk (entries self parent children))
    {dirs : List (List Entry)} (he : ∀ D ∈ dirs, D = entries self parent children)
    {got : List Entry} {fin : Fin} (h : Scan dirs 0 got fin) :
    (∃ dot dotdot, got = dot :: dotdot :: children ∧ dot.name = [46] ∧ dot.ino = self ∧
      dotdot.name = [46, 46] ∧ dotdot.ino = parent) ∧
    fin = .complete ∧ dirs.length ≤ children.length + 3 := by
  obtain ⟨h1, h2, h3⟩ := scan_stable h (a := []) hd he rfl rfl
  exact ⟨⟨_, _, h1, rfl, rfl, rfl, rfl⟩, h2, h3⟩

/-- Going on where another listing has stopped (`telldir`, `seekdir`) works, too: from the place
given with an entry one gets the entries behind it. -/
theorem C69_resume {a b : List Entry} {e : Entry} (hd : DirOk (a ++ e :: b)) {dirs : List (List Entry)}
    (he : ∀ D ∈ dirs, D = a ++ e :: b) {size : Nat} (hsz : 4096 ≤ size) {l l' : List (Entry × Nat)} {off : Nat} {err : Bool}
    (hl : parse (readDir (a ++ e :: b) size 0) = (l ++ (e, off) :: l', err)) (hla : l.length = a.length) {got : List Entry} {fin : Fin}
    (h : Scan dirs off got fin) : got = b ∧ fin = .complete := by
  obtain ⟨c, d, h1, _, h3⟩ := parse_readDir (a := []) (b := a ++ e :: b) hd hsz
  simp only [List.nil_append] at h3
  have h3' : parse (readDir (a ++ e :: b) size 0) = (ann (total []) c, false) := h3
  rw [hl] at h3'
  obtain ⟨a1, a2, e1, e2, e3⟩ := ann_split (Prod.mk.inj h3').1.symm
  have ha : a1 = a := by
    rw [e1, List.append_assoc] at h1
    exact (List.append_inj h1 (by rw [← e2, List.length_map, hla])).1.symm
  subst ha
  obtain ⟨g1, g2, _⟩ := scan_stable h (a := a1 ++ [e]) (b := b) hd he (by simp)
    (by simp only at e3; rw [e3]; simp [total])
  exact ⟨g1, g2⟩

/-! ## A directory that changes while it is listed -/

theorem ann_append (s : Nat) (x y : List Entry) : ann s (x ++ y) = ann s x ++ ann (s + total x) y := by
  induction x generalizing s with
  | nil => simp [ann, total]
  | cons z x ih => simp [ann, ih, total, Nat.add_assoc]

theorem total_append (x y : List Entry) : total (x ++ y) = total x + total y := by simp [total]

/-- A listing can be completed from every entry on. -/
theorem scan_from {es a b : List Entry} (hd : DirOk es) (hab : es = a ++ b) {size : Nat} (hsz : 4096 ≤ size) :
    ∃ dirs, (∀ D ∈ dirs, D = es) ∧ Scan dirs (total a) b .complete := by
  induction hn : b.length using Nat.strongRecOn generalizing a b with
  | _ n ih =>
    subst hab
    obtain ⟨c, d, h1, h2, h3⟩ := parse_readDir hd hsz
    cases c with
    | nil =>
      have hb : b = [] := Decidable.byContradiction fun hb => h2 hb rfl
      subst hb
      exact ⟨[a ++ []], by simp, .complete hsz h3⟩
    | cons e c =>
      subst h1
      obtain ⟨dirs, g1, g2⟩ := ih (c ++ d).length (by simp at hn ⊢; omega) (a := a ++ [e]) (b := c ++ d) (by simp) rfl
      refine ⟨_ :: dirs, fun D hD => ?_, .more (D := a ++ (e :: c ++ d)) (size := size) [] (ann (total (a ++ [e])) c)
        (e, total (a ++ [e])) false hsz ?_ g2⟩
      · rcases List.mem_cons.mp hD with rfl | hD
        · rfl
        · exact g1 D hD
      · rw [h3]
        simp [ann, total]

/-- The first request delivers everything that fits. -/
theorem first_page {p r : List Entry} (hd : DirOk (p ++ r)) {size : Nat} (h4 : total p ≤ size) :
    ∃ c, parse (readDir (p ++ r) size 0) = (ann 0 (p ++ c), false) := by
  obtain ⟨a, b, e1, e2, e3⟩ := parse_take (es := p ++ r) (fun e h => hd.1 e h) 0 size (by rw [Nat.zero_add]; exact hd.2)
  rw [readDir_enc, List.drop_zero, e2]
  rcases List.append_eq_append_iff.mp e1 with ⟨x, rfl, rfl⟩ | ⟨x, rfl, rfl⟩
  · exact ⟨x, rfl⟩
  · cases x with
    | nil => exact ⟨[], by simp⟩
    | cons e x =>
      have := e3 e (x ++ r) rfl
      simp only [total, List.map_append, List.sum_append, List.map_cons, List.sum_cons] at this h4
      omega

/-- The entries up to `e` are delivered first. -/
theorem scan_first {q r : List Entry} {e : Entry} (hd : DirOk (q ++ [e] ++ r)) (h4 : total (q ++ [e]) ≤ 4096)
    {dirs : List (List Entry)} {got : List Entry} {fin : Fin} (h : Scan dirs (total (q ++ [e])) got fin) :
    Scan ((q ++ [e] ++ r) :: dirs) 0 (q ++ [e] ++ got) fin := by
  obtain ⟨c, h3⟩ := first_page hd h4
  have := Scan.more (D := q ++ [e] ++ r) (size := 4096) (pos := 0) (ann 0 q) (ann (total (q ++ [e])) c)
    (e, total (q ++ [e])) false (Nat.le_refl _) (by
      rw [h3, ann_append, ann_append]; simp [ann, total]) h
  rw [ann_fst] at this
  simpa using this

/-- Some files of a directory and the files behind them change places in the manifest
(a directory has no defined order there), with equal space taken by both.  A listing that has
delivered the first ones and then goes on delivers them again, and never delivers the others, though
they were in the directory all the time. -/
theorem C101_changed_violated {self parent : Nat} {p r : List Entry} (hd : DirOk (entries self parent (p ++ r)))
    (hp : p ≠ []) (hsz : total p = total r) (h4 : total (entries self parent p) ≤ 4096) :
    ∃ dirs, (∀ D ∈ dirs, D = entries self parent (p ++ r) ∨ D = entries self parent (r ++ p)) ∧
      Scan dirs 0 (entries self parent (p ++ p)) .complete := by
  have he : ∀ l, entries self parent l = entries self parent [] ++ l := fun l => rfl
  have hd' : DirOk (entries self parent (r ++ p)) := by
    refine ⟨fun e h => hd.1 e ?_, ?_⟩
    · rw [he, List.mem_append, List.mem_append] at h ⊢
      exact h.imp_right Or.symm
    · have h2 := hd.2
      rw [he, total_append, total_append] at h2 ⊢
      omega
  obtain ⟨dirs, g1, g2⟩ := scan_from hd' (a := entries self parent r) (b := p) rfl (Nat.le_refl 4096)
  obtain ⟨q, e, rfl⟩ : ∃ q e, p = q ++ [e] := ⟨_, _, (List.dropLast_concat_getLast hp).symm⟩
  have hpos : total (entries self parent r) = total (entries self parent q ++ [e]) := by
    have e1 : entries self parent q ++ [e] = entries self parent (q ++ [e]) := rfl
    rw [e1, he r, he (q ++ [e]), total_append, total_append, hsz]
  rw [hpos] at g2
  refine ⟨entries self parent (q ++ [e] ++ r) :: dirs, fun D hD => ?_, ?_⟩
  · rcases List.mem_cons.mp hD with rfl | hD
    · exact .inl rfl
    · exact .inr (g1 D hD)
  · exact scan_first (q := entries self parent q) (e := e) (r := r) hd h4 g2

/-- The middle of a name is not an entry. -/
theorem parse_middle {q es : List Entry} {b : Entry} (hz : ∀ x ∈ b.name, x ≠ 0) {off : Nat}
    (h1 : total q + 24 ≤ off) (h2 : off ≤ total q + b.name.length) :
    parse (readDir (q ++ b :: es) 4096 off) = ([], true) := by
  obtain ⟨u, v, hu, hun⟩ : ∃ u v, encode b (total q + entrySize b) = u ++ (b.name ++ v) ∧ u.length = 24 := by
    refine ⟨le 8 b.ino ++ le 8 (total q + entrySize b) ++ le 4 b.name.length ++ le 4 b.typ,
      List.replicate (entrySize b - (24 + b.name.length)) 0, ?_, ?_⟩
    · simp only [encode, List.append_assoc]
    · simp [le_length]
  obtain ⟨k, rfl⟩ : ∃ k, off = total q + (24 + k) := ⟨off - total q - 24, by omega⟩
  have hR : readDir (q ++ b :: es) 4096 (total q + (24 + k)) =
      (b.name.drop k ++ (v ++ enc (total q + entrySize b) es)).take 4096 := by
    rw [readDir_enc, ← List.drop_drop, drop_enc, enc, hu, List.append_assoc, List.append_assoc, ← List.drop_drop,
      drop_append_len hun, List.drop_append_of_le_length (by omega)]
  rw [hR]
  have hl24 : 24 ≤ (b.name.drop k).length := by rw [List.length_drop]; omega
  generalize hN : b.name.drop k = N at hl24
  have hNz : ∀ x ∈ N, x ≠ 0 := fun x hx => hz x (by rw [← hN] at hx; exact List.mem_of_mem_drop hx)
  generalize v ++ enc (total q + entrySize b) es = T
  rw [parse]
  rw [if_neg (by rw [List.length_take, List.length_append]; omega)]
  have h4 : (((N ++ T).take 4096).drop 16).take 4 = (N.drop 16).take 4 := by
    rw [List.drop_take, List.take_take, Nat.min_eq_left (by omega), List.drop_append_of_le_length (by omega),
      List.take_append_of_le_length (by rw [List.length_drop]; omega)]
  rw [h4]
  have hx : ∃ x0 x1 x2 x3, (N.drop 16).take 4 = [x0, x1, x2, x3] := by
    have hl : ((N.drop 16).take 4).length = 4 := by rw [List.length_take, List.length_drop]; omega
    match hq : (N.drop 16).take 4, hl with
    | [x0, x1, x2, x3], _ => exact ⟨x0, x1, x2, x3, rfl⟩
  obtain ⟨x0, x1, x2, x3, hq⟩ := hx
  have hx3 : x3 ≠ 0 := hNz x3 (List.mem_of_mem_drop (List.mem_of_mem_take (by rw [hq]; simp)))
  have hx3' : x3.toNat ≠ 0 := fun h => hx3 (by rw [← UInt8.toNat_inj]; exact h)
  simp only [hq, un]
  rw [if_pos (by omega)]

/-- If a file is replaced by another with a longer name while its directory is listed, the listing
can fail with an error, because the kernel takes the middle of the new name for an entry. -/
theorem C101_error_violated {self parent : Nat} {a b : Entry} {es : List Entry} (hd : DirOk (entries self parent (a :: es)))
    (hz : ∀ x ∈ b.name, x ≠ 0) (hlen : entrySize a ≤ b.name.length) :
    ∃ dirs, (∀ D ∈ dirs, D = entries self parent (a :: es) ∨ D = entries self parent (b :: es)) ∧
      Scan dirs 0 (entries self parent [a]) .error := by
  have ha := hd.1 a (by simp [entries])
  have hs := entrySize_ge a
  have hle := entrySize_le ha
  have ht : total (entries self parent [] ++ [a]) = total (entries self parent []) + entrySize a := by simp [total]
  have hdots : total (entries self parent []) = 64 := by simp [total, entries, entrySize, align]
  refine ⟨[entries self parent (a :: es), entries self parent (b :: es)], by simp, ?_⟩
  exact scan_first (q := entries self parent []) (e := a) (r := es) (got := []) hd (by omega)
    (.error (size := 4096) (Nat.le_refl _)
      (parse_middle (q := entries self parent []) hz (by omega) (by omega)))

theorem scan_growing {dirs : List (List Entry)} {pos : Nat} {got : List Entry} {fin : Fin}
    (h : Scan dirs pos got fin) {a : List Entry} (hd : ∀ D ∈ dirs, DirOk D) (hg : dirs.Pairwise (· <+: ·))
    (ha : ∀ D ∈ dirs, a <+: D) (hp : pos = total a) : dirs.getLast? = some (a ++ got) ∧ fin = .complete := by
  induction h generalizing a with
  | @more D dirs pos got fin size l l' x err hsz hpar hrest ih =>
    obtain ⟨b, rfl⟩ := ha _ (List.mem_cons_self ..)
    subst hp
    obtain ⟨c, d, h1, _, h3⟩ := parse_readDir (hd _ (List.mem_cons_self ..)) hsz
    rw [hpar] at h3
    obtain ⟨a1, a2, e1, e2, e3⟩ := ann_split (Prod.mk.inj h3).1.symm
    have hg' := List.pairwise_cons.mp hg
    obtain ⟨g1, g2⟩ := ih (a := a ++ (a1 ++ [x.1])) (fun D' h => hd D' (List.mem_cons_of_mem _ h)) hg'.2
      (fun D' h => List.IsPrefix.trans ⟨a2 ++ d, by rw [h1, e1]; simp⟩ (hg'.1 D' h)) (by rw [e3]; simp [total])
    refine ⟨?_, g2⟩
    cases dirs with
    | nil => cases hrest
    | cons D' ds =>
      rw [List.getLast?_cons_cons, g1, e2]; simp
  | complete hsz hpar =>
    obtain ⟨b, rfl⟩ := ha _ (List.mem_cons_self ..)
    subst hp
    obtain ⟨c, d, h1, h2, h3⟩ := parse_readDir (hd _ (List.mem_cons_self ..)) hsz
    rw [hpar] at h3
    have hc : c = [] := by
      have := congrArg (List.map (·.1)) (Prod.mk.inj h3).1
      rwa [ann_fst, List.map_nil, eq_comm] at this
    have hb : b = [] := Decidable.byContradiction fun hb => h2 hb hc
    subst hb
    exact ⟨rfl, rfl⟩
  | error hsz hpar =>
    obtain ⟨b, rfl⟩ := ha _ (List.mem_cons_self ..)
    subst hp
    obtain ⟨c, d, h1, h2, h3⟩ := parse_readDir (hd _ (List.mem_cons_self ..)) hsz
    rw [hpar] at h3
    cases (Prod.mk.inj h3).2

/-- **C101**, what holds: if a directory only gets new entries at its end while it is listed, the program gets every
entry of the directory as it is at the last request exactly once, and no error.  Missing: entries that change their
places or are replaced, for which it is false (see above). -/
theorem C101_growing_partial {self parent : Nat} {grow : List (List Entry)} (hd : ∀ D ∈ grow, DirOk (entries self parent D))
    (hg : grow.Pairwise (· <+: ·)) {got : List Entry} {fin : Fin}
    (h : Scan (grow.map (entries self parent)) 0 got fin) :
    ∃ last, grow.getLast? = some last ∧ got = entries self parent last ∧ fin = .complete := by
  obtain ⟨h1, h2⟩ := scan_growing h (a := []) (by
      intro D hD
      obtain ⟨x, hx, rfl⟩ := List.mem_map.mp hD
      exact hd x hx)
    (List.pairwise_map.mpr (hg.imp fun {x y} hxy => by
      obtain ⟨z, rfl⟩ := hxy
      exact ⟨z, rfl⟩)) (fun D _ => List.nil_prefix) rfl
  rw [List.getLast?_map] at h1
  cases hl : grow.getLast? with
  | none => rw [hl] at h1; cases h1
  | some last =>
    rw [hl] at h1
    exact ⟨last, rfl, (Option.some.inj h1).symm, h2⟩

/-! ## The hypotheses can be met -/

/-- A directory with two files. -/
def exDir : List Entry := entries 16 1 [⟨32, 8, [97, 98]⟩, ⟨48, 8, [99]⟩]

theorem exDir_ok : DirOk exDir := ⟨by
  intro e he
  simp only [exDir, entries, List.mem_cons, List.not_mem_nil, or_false] at he
  rcases he with rfl | rfl | rfl | rfl <;> exact ⟨by decide, by decide, by decide, by decide, by decide⟩, by decide⟩

/-- The requests of `C69_listing` exist, for every size of requests. -/
example {size : Nat} (h : 4096 ≤ size) : ∃ dirs, (∀ D ∈ dirs, D = exDir) ∧ Scan dirs 0 exDir .complete :=
  scan_from exDir_ok (a := []) rfl h

/-- A file that is replaced by one with a longer name. -/
example : DirOk (entries 16 1 ((⟨32, 8, [97, 98]⟩ : Entry) :: [⟨48, 8, [99]⟩])) ∧
    entrySize ⟨32, 8, [97, 98]⟩ ≤ (List.replicate 40 (98 : UInt8)).length := ⟨exDir_ok, by decide⟩

/-- Two files change places. -/
example : total [⟨32, 8, [97, 98]⟩] = total [⟨48, 8, [99]⟩] ∧
    total (entries 16 1 [⟨32, 8, [97, 98]⟩]) ≤ 4096 := by decide

end Verif.FuseFs.Listing
