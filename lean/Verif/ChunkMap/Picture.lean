import Verif.ChunkMap.Stats
import Verif.Text.Path

/-!
# C203, C204: the picture of the streaming statistics

`StatsPrinter::Print`, manifest/stats_printer.cc:172-255, for the files used last: one line per file, in which every character stands for some of the
chunks of the file.  What a terminal makes of the bytes is part of the specification.

Not modelled: the computation of the bandwidth, and the texts of the last three lines (any text of printable characters).
-/
namespace Verif.ChunkMap.Picture

open Verif.ChunkMap (Mark group)
open Verif.Text.Path (Str baseName)

/-! ## Model -/

/-- `FileChunk`, stats_printer.h:89-106; times are nanoseconds. -/
structure Cell where
  mark : Mark := .notLoaded
  time : Int := 0
deriving DecidableEq, Repr

/-- `kAnsiCodeStr`, stats_printer.cc:71-79, for the entries that are used, by the number in them; see `AnsiCode`, stats_printer.cc:25-68. -/
def ansi : Nat → Str
  | 0 => [27, 91, 48, 109]
  | 30 => [27, 91, 51, 48, 109]
  | 37 => [27, 91, 51, 55, 109]
  | 41 => [27, 91, 52, 49, 109]
  | 42 => [27, 91, 52, 50, 109]
  | 43 => [27, 91, 52, 51, 109]
  | 44 => [27, 91, 52, 52, 109]
  | 45 => [27, 91, 52, 53, 109]
  | 46 => [27, 91, 52, 54, 109]
  | 47 => [27, 91, 52, 55, 109]
  | 90 => [27, 91, 57, 48, 109]
  | 101 => [27, 91, 49, 48, 49, 109]
  | 102 => [27, 91, 49, 48, 50, 109]
  | 103 => [27, 91, 49, 48, 51, 109]
  | 104 => [27, 91, 49, 48, 52, 109]
  | 105 => [27, 91, 49, 48, 53, 109]
  | 106 => [27, 91, 49, 48, 54, 109]
  | _ => []

/-- `kBgColors`, stats_printer.cc:81-94. -/
def bgColors : List Nat := [101, 102, 104, 103, 105, 106, 41, 42, 44, 43, 45, 46]

/-- `kFgColors`, stats_printer.cc:97-102. -/
def fgColors : List Nat := [30, 90, 37]

/-- `GetShortFilename`, stats_printer.cc:116-121. -/
def shortName (path : Str) : Str :=
  if (baseName path).length > 32 then (baseName path).take 30 ++ [46, 46] else baseName path

/-- `line.resize(size, ' ')`. -/
def resize (line : Str) (size : Nat) : Str := line.take size ++ List.replicate (size - line.length) 32

/-- The loop that looks for the chunk changed last, stats_printer.cc:200-207: `k` is the next index, `n` how many are left. -/
def latest (chunks : List Cell) : Nat → Nat → Nat → Int → Nat
  | _, 0, best, _ => best
  | k, n + 1, best, time =>
    if time < (chunks.getD k {}).time then latest chunks (k + 1) n k (chunks.getD k {}).time
    else latest chunks (k + 1) n best time

/-- The bytes for one chunk, stats_printer.cc:213-229. `color` is `thread_id_to_color_`. -/
def draw (color : Nat → Nat) : Mark → Str
  | .notLoaded => ansi 0 ++ [45] ++ ansi 0
  | .cached => ansi 30 ++ ansi 47 ++ [67] ++ ansi 0
  | .streamed t => ansi (bgColors.getD (color t % 12) 0) ++ ansi (fgColors.getD (color t / 12 % 3) 0) ++ [88] ++ ansi 0

/-- One character, stats_printer.cc:195-230. -/
def column (color : Nat → Nat) (chunks : List Cell) (width n : Nat) : Str :=
  draw color (chunks.getD (latest chunks ((group chunks.length width n).1 + 1)
    ((group chunks.length width n).2 - ((group chunks.length width n).1 + 1)) (group chunks.length width n).1
    (chunks.getD (group chunks.length width n).1 {}).time) {}).mark

/-- The line of a file before it is padded, stats_printer.cc:186-230. -/
def picture (color : Nat → Nat) (console maxName : Nat) (path : Str) (chunks : List Cell) : Str :=
  resize (shortName path) (maxName + 1) ++
    ((List.range (min chunks.length (console - (maxName + 1)))).map (column color chunks (min chunks.length (console - (maxName + 1))))).flatten

/-- `PrintPadded(std::move(line), line.size() + console_width - num_chars + 1)`, stats_printer.cc:233 with 110-113. The order in which the arguments are
evaluated is up to the compiler: with `sizeFirst = false` the string has been moved before its size is read, which then is 0. -/
def fileLine (sizeFirst : Bool) (color : Nat → Nat) (console maxName : Nat) (path : Str) (chunks : List Cell) : Str :=
  let line := picture color console maxName path chunks
  resize line ((if sizeFirst then line.length else 0) + console - (maxName + 1 + min chunks.length (console - (maxName + 1))) + 1) ++ [10]

/-- `max_filename_size`, stats_printer.cc:177-181. -/
def maxName (files : List (Str × List Cell)) : Nat := files.foldl (fun m f => max m (shortName f.1).length) 0

/-- `StatsPrinter::Print`, stats_printer.cc:172-255: `files` are the files of `recent_files_` with their chunks, `texts` the last three lines. -/
def print (sizeFirst : Bool) (color : Nat → Nat) (console : Nat) (files : List (Str × List Cell)) (texts : List Str) : Str :=
  if console < 36 then []
  else [13] ++ (files.map fun f => fileLine sizeFirst color console (maxName files) f.1 f.2).flatten ++
    (texts.map fun t => resize t console ++ [10]).flatten ++ (List.replicate (files.length + texts.length) [27, 91, 70]).flatten

/-! ## Specification: a terminal -/

/-- How a character is drawn. -/
structure Style where
  fg : Option Nat := none
  bg : Option Nat := none
deriving DecidableEq, Repr

inductive Mode where
  | text
  | escape
  | number (n : Nat)
deriving DecidableEq, Repr

/-- A terminal `width` columns wide: the cursor (a row counted from where it was first, and a column), the current style, and what was drawn, in order.
A character after the last column goes to the beginning of the next row. The screen is high enough. -/
structure Term where
  style : Style := {}
  mode : Mode := .text
  row : Int := 0
  col : Nat := 0
  drawn : List (Int × Nat × UInt8 × Style) := []
deriving DecidableEq, Repr

/-- The effect of `ESC [ n m`. -/
def Style.select (s : Style) (n : Nat) : Style :=
  if n = 0 then {}
  else if (30 ≤ n ∧ n ≤ 37) ∨ (90 ≤ n ∧ n ≤ 97) then { s with fg := some n }
  else if (40 ≤ n ∧ n ≤ 47) ∨ (100 ≤ n ∧ n ≤ 107) then { s with bg := some n }
  else s

/-- One byte: CR, LF, ESC and what follows it (`m`: style, `F`: the beginning of the line above), or a character. -/
def Term.put (width : Nat) (t : Term) (b : UInt8) : Term :=
  match t.mode with
  | .escape => if b = 91 then { t with mode := .number 0 } else { t with mode := .text }
  | .number n =>
    if 48 ≤ b ∧ b ≤ 57 then { t with mode := .number (10 * n + (b.toNat - 48)) }
    else if b = 109 then { t with mode := .text, style := t.style.select n }
    else if b = 70 then { t with mode := .text, row := t.row - 1, col := 0 }
    else { t with mode := .text }
  | .text =>
    if b = 27 then { t with mode := .escape }
    else if b = 13 then { t with col := 0 }
    else if b = 10 then { t with row := t.row + 1, col := 0 }
    else if t.col < width then { t with col := t.col + 1, drawn := t.drawn ++ [(t.row, t.col, b, t.style)] }
    else { t with row := t.row + 1, col := 1, drawn := t.drawn ++ [(t.row + 1, 0, b, t.style)] }

def Term.puts (width : Nat) (t : Term) (bytes : Str) : Term := bytes.foldl (Term.put width) t

/-- A character that takes one column. -/
def Printable (b : UInt8) : Prop := 32 ≤ b ∧ b ≤ 126

instance (b : UInt8) : Decidable (Printable b) := by unfold Printable; infer_instance

/-- How a chunk looks: `-`, `C`, or `X` in the colours of its thread. -/
def look (color : Nat → Nat) : Mark → UInt8 × Style
  | .notLoaded => (45, {})
  | .cached => (67, ⟨some 30, some 47⟩)
  | .streamed t => (88, ⟨some (fgColors.getD (color t / 12 % 3) 0), some (bgColors.getD (color t % 12) 0)⟩)

/-- The characters of a line, side by side from column `col`. -/
def inRow (row : Int) (col : Nat) (l : List (UInt8 × Style)) : List (Int × Nat × UInt8 × Style) := l.mapIdx fun i c => (row, col + i, c.1, c.2)

/-- Text in the default colours. -/
def plain (s : Str) : List (UInt8 × Style) := s.map fun b => (b, {})

/-- The chunk that `k` stands for among those from `lo` to before `hi`: none of them changed later. -/
def Last (chunks : List Cell) (lo hi : Nat) (c : Cell) : Prop :=
  (∃ k, lo ≤ k ∧ k < hi ∧ chunks[k]? = some c) ∧ ∀ k c', lo ≤ k → k < hi → chunks[k]? = some c' → c'.time ≤ c.time

/-! ## Proof -/

theorem puts_append (w : Nat) (t : Term) (a b : Str) : t.puts w (a ++ b) = (t.puts w a).puts w b := List.foldl_append ..

theorem puts_one (w : Nat) (t : Term) (b : UInt8) : t.puts w [b] = t.put w b := rfl

theorem inRow_append (r : Int) (c : Nat) (a b : List (UInt8 × Style)) : inRow r c (a ++ b) = inRow r c a ++ inRow r (c + a.length) b := by
  unfold inRow
  rw [List.mapIdx_append]
  congr 1
  apply List.ext_getElem?
  intro i
  simp only [List.getElem?_mapIdx]
  congr 1
  funext x
  rw [Nat.add_comm i, Nat.add_assoc]

/-- The terminal is ready for text in the default colours. -/
structure Ready (t : Term) : Prop where
  style : t.style = {}
  mode : t.mode = .text

/-- Some bytes draw some characters at the cursor, if there is room. -/
def Draws (w : Nat) (bytes : Str) (l : List (UInt8 × Style)) : Prop :=
  ∀ t : Term, Ready t → t.col + l.length ≤ w →
    t.puts w bytes = { t with col := t.col + l.length, drawn := t.drawn ++ inRow t.row t.col l }

theorem Draws.append {w : Nat} {a b : Str} {l m : List (UInt8 × Style)} (ha : Draws w a l) (hb : Draws w b m) : Draws w (a ++ b) (l ++ m) := by
  intro t ht hw
  rw [List.length_append] at hw
  have := hb { t with col := t.col + l.length, drawn := t.drawn ++ inRow t.row t.col l } ⟨ht.style, ht.mode⟩ (by dsimp only; omega)
  rw [puts_append, ha t ht (by omega), this]
  simp only [inRow_append, List.append_assoc, List.length_append, Nat.add_assoc]

theorem draws_nil (w : Nat) : Draws w [] [] := by
  intro t _ _
  simp [Term.puts, inRow]

theorem printable_ne {b : UInt8} (h : Printable b) : b ≠ 27 ∧ b ≠ 13 ∧ b ≠ 10 := by
  obtain ⟨h1, h2⟩ := h
  refine ⟨?_, ?_, ?_⟩ <;> (intro e; subst e; revert h1; decide)

theorem put_char {w : Nat} {t : Term} (hm : t.mode = .text) (hc : t.col < w) {b : UInt8} (hb : b ≠ 27 ∧ b ≠ 13 ∧ b ≠ 10) :
    t.put w b = { t with col := t.col + 1, drawn := t.drawn ++ [(t.row, t.col, b, t.style)] } := by
  unfold Term.put
  rw [hm]
  simp only [hb.1, hb.2.1, hb.2.2, if_false, if_pos hc]

theorem draws_char (w : Nat) {b : UInt8} (hb : Printable b) : Draws w [b] [(b, {})] := by
  intro t ht hw
  simp only [List.length_singleton] at hw
  show t.put w b = _
  rw [put_char ht.mode (by omega) (printable_ne hb), ht.style]
  rfl

theorem draws_plain (w : Nat) {s : Str} (hs : ∀ b ∈ s, Printable b) : Draws w s (plain s) := by
  induction s with
  | nil => exact draws_nil w
  | cons b s ih =>
    exact Draws.append (a := [b]) (draws_char w (hs b (List.mem_cons_self ..))) (ih fun x hx => hs x (List.mem_cons_of_mem _ hx))

theorem draws_flatten {α : Type} (w : Nat) {l : List α} {f : α → Str} {g : α → UInt8 × Style} (h : ∀ a ∈ l, Draws w (f a) [g a]) :
    Draws w (l.map f).flatten (l.map g) := by
  induction l with
  | nil => exact draws_nil w
  | cons a l ih =>
    exact Draws.append (l := [g a]) (h a (List.mem_cons_self ..)) (ih fun x hx => h x (List.mem_cons_of_mem _ hx))

/-- The codes that are used. -/
def codes : List Nat := [0, 30, 37, 90] ++ bgColors ++ [47]

theorem puts_ansi (w : Nat) {n : Nat} (hn : n ∈ codes) (t : Term) (ht : t.mode = .text) :
    t.puts w (ansi n) = { t with style := t.style.select n } := by
  obtain ⟨s, m, r, c, d⟩ := t
  dsimp only at ht
  subst ht
  simp only [codes, bgColors, List.cons_append, List.nil_append, List.mem_cons, List.not_mem_nil, or_false] at hn
  rcases hn with h | h | h | h | h | h | h | h | h | h | h | h | h | h | h | h | h <;> subst h <;> rfl

theorem getD_mem {l : List Nat} {i : Nat} (h : i < l.length) : l.getD i 0 ∈ l := by
  rw [List.getD_eq_getElem?_getD, List.getElem?_eq_getElem h]; exact List.getElem_mem h

theorem bg_select (s : Style) {n : Nat} (h : n ∈ bgColors) : s.select n = { s with bg := some n } := by
  simp only [bgColors, List.mem_cons, List.not_mem_nil, or_false] at h
  rcases h with h | h | h | h | h | h | h | h | h | h | h | h <;> subst h <;> rfl

theorem fg_select (s : Style) {n : Nat} (h : n ∈ fgColors) : s.select n = { s with fg := some n } := by
  simp only [fgColors, List.mem_cons, List.not_mem_nil, or_false] at h
  rcases h with h | h | h <;> subst h <;> rfl

theorem bg_codes {n : Nat} (h : n ∈ bgColors) : n ∈ codes := List.mem_append_left _ (List.mem_append_right _ h)

theorem fg_codes {n : Nat} (h : n ∈ fgColors) : n ∈ codes := by
  simp only [fgColors, List.mem_cons, List.not_mem_nil, or_false] at h
  rcases h with h | h | h <;> subst h <;> decide

/-- One chunk is one character. -/
theorem draws_mark (w : Nat) (color : Nat → Nat) (m : Mark) : Draws w (draw color m) [look color m] := by
  intro t ht hw
  simp only [List.length_singleton] at hw
  obtain ⟨s, md, r, c, d⟩ := t
  obtain ⟨hs, hm⟩ := ht
  dsimp only at hs hm hw
  subst hs hm
  have one : ∀ (st : Style) (b : UInt8), (b ≠ 27 ∧ b ≠ 13 ∧ b ≠ 10) → (Term.mk st .text r c d).puts w ([b] ++ ansi 0) =
      { style := {}, mode := .text, row := r, col := c + 1, drawn := d ++ [(r, c, b, st)] } := by
    intro st b hb
    rw [puts_append, puts_one, put_char rfl (show c < w by omega) hb, puts_ansi w (by decide) _ rfl]
    rfl
  cases m with
  | notLoaded =>
    show Term.puts w _ (ansi 0 ++ [45] ++ ansi 0) = _
    rw [List.append_assoc, puts_append, puts_ansi w (by decide) _ rfl]
    exact one {} 45 (by decide)
  | cached =>
    show Term.puts w _ (ansi 30 ++ ansi 47 ++ [67] ++ ansi 0) = _
    rw [List.append_assoc, List.append_assoc, puts_append, puts_ansi w (by decide) _ rfl, puts_append, puts_ansi w (by decide) _ rfl]
    exact one ⟨some 30, some 47⟩ 67 (by decide)
  | streamed th =>
    have hb := getD_mem (l := bgColors) (i := color th % 12) (Nat.mod_lt _ (by decide))
    have hf := getD_mem (l := fgColors) (i := color th / 12 % 3) (Nat.mod_lt _ (by decide))
    show Term.puts w _ (ansi _ ++ ansi _ ++ [88] ++ ansi 0) = _
    rw [List.append_assoc, List.append_assoc, puts_append, puts_ansi w (bg_codes hb) _ rfl, puts_append, puts_ansi w (fg_codes hf) _ rfl]
    simp only [bg_select _ hb, fg_select _ hf]
    exact one _ 88 (by decide)

/-- The loop finds the chunk that changed last. -/
theorem latest_spec (chunks : List Cell) : ∀ (n k best lo : Nat) (time : Int), lo ≤ best → best < k → (chunks.getD best {}).time = time →
    (∀ j, lo ≤ j → j < k → (chunks.getD j {}).time ≤ time) →
    lo ≤ latest chunks k n best time ∧ latest chunks k n best time < k + n ∧
    ∀ j, lo ≤ j → j < k + n → (chunks.getD j {}).time ≤ (chunks.getD (latest chunks k n best time) {}).time
  | 0, k, best, lo, time, h1, h2, h3, h4 => by
    unfold latest
    exact ⟨h1, by omega, fun j hj hk => by rw [h3]; exact h4 j hj (by omega)⟩
  | n + 1, k, best, lo, time, h1, h2, h3, h4 => by
    unfold latest
    split
    · rename_i h
      obtain ⟨a, b, c⟩ := latest_spec chunks n (k + 1) k lo _ (by omega) (by omega) rfl fun j hj hk => by
        rcases Nat.lt_or_ge j k with h' | h'
        · exact Int.le_trans (h4 j hj h') (Int.le_of_lt h)
        · have : j = k := by omega
          subst this; exact Int.le_refl _
      exact ⟨a, by omega, fun j hj hk => c j hj (by omega)⟩
    · rename_i h
      obtain ⟨a, b, c⟩ := latest_spec chunks n (k + 1) best lo time h1 (by omega) h3 fun j hj hk => by
        rcases Nat.lt_or_ge j k with h' | h'
        · exact h4 j hj h'
        · have : j = k := by omega
          subst this; exact Int.not_lt.mp h
      exact ⟨a, by omega, fun j hj hk => c j hj (by omega)⟩

/-- The character of a column is that of the chunk that changed last. -/
theorem column_spec (w : Nat) (color : Nat → Nat) (chunks : List Cell) (room n : Nat) (hn : n < min chunks.length room) :
    ∃ c, Last chunks (group chunks.length (min chunks.length room) n).1 (group chunks.length (min chunks.length room) n).2 c ∧
      Draws w (column color chunks (min chunks.length room) n) [look color c.mark] := by
  have hg := (C188_line chunks.length room 0 (by omega) (by omega)).2.2 n hn
  unfold column
  generalize group chunks.length (min chunks.length room) n = g at hg ⊢
  obtain ⟨lo, hi⟩ := g
  dsimp only at hg ⊢
  obtain ⟨a, b, c⟩ := latest_spec chunks (hi - (lo + 1)) (lo + 1) lo lo _ (Nat.le_refl _) (by omega) rfl fun j hj hk => by
    have : j = lo := by omega
    subst this; exact Int.le_refl _
  generalize latest chunks (lo + 1) (hi - (lo + 1)) lo (chunks.getD lo {}).time = k at a b c ⊢
  have hk : chunks[k]? = some (chunks.getD k {}) := by
    rw [List.getD_eq_getElem?_getD, List.getElem?_eq_getElem (show k < chunks.length by omega)]; rfl
  refine ⟨chunks.getD k {}, ⟨⟨k, a, by omega, hk⟩, fun j c' h1 h2 h3 => ?_⟩, draws_mark w color _⟩
  have := c j h1 (by omega)
  rwa [List.getD_eq_getElem?_getD, h3] at this

theorem resize_len (l : Str) (n : Nat) : (resize l n).length = n := by
  unfold resize
  rw [List.length_append, List.length_take, List.length_replicate]
  omega

theorem resize_long {l : Str} {n : Nat} (h : l.length ≤ n) : resize l n = l ++ List.replicate (n - l.length) 32 := by
  unfold resize
  rw [List.take_of_length_le h]

theorem resize_printable {l : Str} (h : ∀ b ∈ l, Printable b) (n : Nat) : ∀ b ∈ resize l n, Printable b := by
  intro b hb
  rcases List.mem_append.mp hb with hb | hb
  · exact h b (List.mem_of_mem_take hb)
  · rw [List.eq_of_mem_replicate hb]; decide

theorem baseName_subset (p : Str) (b : UInt8) (h : b ∈ baseName p) : b ∈ p := by
  unfold baseName at h
  by_cases hp : p = []
  · rw [if_pos hp] at h; cases h
  · rw [if_neg hp] at h
    dsimp only at h
    split at h
    · exact List.mem_of_mem_drop (List.mem_of_mem_take h)
    · exact List.mem_of_mem_drop (List.mem_of_mem_take h)
    · exact List.mem_of_mem_take h
    · exact List.mem_of_mem_take h

theorem shortName_printable {p : Str} (h : ∀ b ∈ p, Printable b) : ∀ b ∈ shortName p, Printable b := by
  intro b hb
  unfold shortName at hb
  split at hb
  · rcases List.mem_append.mp hb with hb | hb
    · exact h b (baseName_subset p b (List.mem_of_mem_take hb))
    · simp only [List.mem_cons, List.not_mem_nil, or_false] at hb
      rcases hb with rfl | rfl <;> decide
  · exact h b (baseName_subset p b hb)

theorem shortName_len (p : Str) : (shortName p).length ≤ 32 := by
  unfold shortName
  split
  · simp only [List.length_append, List.length_take, List.length_cons, List.length_nil]; omega
  · omega

/-- The characters of the line of a file: its name, one character for every column, and blanks. -/
structure FileCells (color : Nat → Nat) (console maxName : Nat) (path : Str) (chunks : List Cell) (cells : List (UInt8 × Style)) : Prop where
  len : cells.length = min chunks.length (console - (maxName + 1))
  col : ∀ n c, cells[n]? = some c → ∃ chunk, Last chunks (n * chunks.length / cells.length) ((n + 1) * chunks.length / cells.length) chunk ∧
    c = look color chunk.mark

/-- The whole line without the last blank. -/
def whole (console maxName : Nat) (path : Str) (cells : List (UInt8 × Style)) : List (UInt8 × Style) :=
  plain (shortName path ++ List.replicate (maxName + 1 - (shortName path).length) 32) ++ cells ++
    plain (List.replicate (console - (maxName + 1 + cells.length)) 32)

theorem exists_cells (w : Nat) (color : Nat → Nat) (chunks : List Cell) (width : Nat) (f : Nat → Str) : ∀ (m n : Nat),
    (∀ i, n ≤ i → i < n + m → ∃ c, Last chunks (i * chunks.length / width) ((i + 1) * chunks.length / width) c ∧ Draws w (f i) [look color c.mark]) →
    ∃ cells : List (UInt8 × Style), cells.length = m ∧ Draws w ((List.range' n m).map f).flatten cells ∧
      ∀ i c, cells[i]? = some c → ∃ chunk, Last chunks ((n + i) * chunks.length / width) ((n + i + 1) * chunks.length / width) chunk ∧ c = look color chunk.mark
  | 0, n, _ => ⟨[], rfl, draws_nil w, fun i c h => by simp at h⟩
  | m + 1, n, h => by
    obtain ⟨cells, h1, h2, h3⟩ := exists_cells w color chunks width f m (n + 1) fun i a b => h i (by omega) (by omega)
    obtain ⟨c, hc, hd⟩ := h n (Nat.le_refl _) (by omega)
    refine ⟨look color c.mark :: cells, by simp [h1], ?_, ?_⟩
    · rw [List.range'_succ, List.map_cons, List.flatten_cons]
      exact hd.append h2
    · intro i x hx
      cases i with
      | zero => simp at hx; exact ⟨c, hc, hx.symm⟩
      | succ i =>
        obtain ⟨k, hk, e⟩ := h3 i x (by simpa using hx)
        exact ⟨k, by rw [show n + (i + 1) = n + 1 + i from by omega]; exact hk, e⟩

theorem draws_picture (w : Nat) (color : Nat → Nat) {console maxName : Nat} {path : Str} (chunks : List Cell) (hp : ∀ b ∈ path, Printable b)
    (hn : (shortName path).length ≤ maxName) :
    ∃ cells, FileCells color console maxName path chunks cells ∧
      Draws w (picture color console maxName path chunks)
        (plain (shortName path ++ List.replicate (maxName + 1 - (shortName path).length) 32) ++ cells) := by
  obtain ⟨cells, h1, h2, h3⟩ := exists_cells w color chunks (min chunks.length (console - (maxName + 1)))
    (column color chunks (min chunks.length (console - (maxName + 1)))) (min chunks.length (console - (maxName + 1))) 0
    (fun i _ hi => column_spec w color chunks _ i (by omega))
  refine ⟨cells, ⟨h1, fun n c h => ?_⟩, ?_⟩
  · obtain ⟨k, hk, e⟩ := h3 n c h
    rw [Nat.zero_add] at hk
    exact ⟨k, by rw [h1]; exact hk, e⟩
  · unfold picture
    rw [resize_long (show _ ≤ _ by omega), List.range_eq_range']
    refine Draws.append (draws_plain w ?_) h2
    rw [← resize_long (show _ ≤ _ by omega)]
    exact resize_printable (shortName_printable hp) _

/-- The bytes of the line of a file, if the size is read first. -/
theorem fileLine_eq (w : Nat) (color : Nat → Nat) {console maxName : Nat} {path : Str} (chunks : List Cell) (hc : 36 ≤ console) (hm : maxName ≤ 32)
    (hp : ∀ b ∈ path, Printable b) (hn : (shortName path).length ≤ maxName) :
    ∃ body cells, fileLine true color console maxName path chunks = body ++ [32] ++ [10] ∧ FileCells color console maxName path chunks cells ∧
      Draws w body (whole console maxName path cells) ∧ (whole console maxName path cells).length = console := by
  obtain ⟨cells, h1, h2⟩ := draws_picture w color (console := console) chunks hp hn
  have hl := h1.len
  refine ⟨picture color console maxName path chunks ++ List.replicate (console - (maxName + 1 + cells.length)) 32, cells, ?_, h1, ?_, ?_⟩
  · unfold fileLine
    dsimp only
    rw [if_pos rfl, resize_long (by omega), ← hl]
    have : (picture color console maxName path chunks).length + console - (maxName + 1 + cells.length) + 1 - (picture color console maxName path chunks).length
        = console - (maxName + 1 + cells.length) + 1 := by omega
    rw [this, List.replicate_succ']
    simp only [List.append_assoc]
  · unfold whole
    refine Draws.append h2 (draws_plain w ?_)
    intro b hb
    rw [List.eq_of_mem_replicate hb]; decide
  · unfold whole plain
    simp only [List.length_append, List.length_map, List.length_replicate]
    omega

/-- **C203**, the part that holds: if the compiler reads the size of the line before it moves it, the line of a file shows its name, then one character
for every column, and then blanks. The character in column `n` is that of the chunk which changed last among the chunks that the column stands for.
(Every chunk belongs to exactly one column: C188.) -/
theorem C203_line_partial (w : Nat) (color : Nat → Nat) {console maxName : Nat} {path : Str} (chunks : List Cell) (hc : 36 ≤ console) (hm : maxName ≤ 32)
    (hp : ∀ b ∈ path, Printable b) (hn : (shortName path).length ≤ maxName) (hw : console + 1 ≤ w) :
    ∃ cells : List (UInt8 × Style), cells.length = min chunks.length (console - (maxName + 1)) ∧
      (∀ n c, cells[n]? = some c → ∃ chunk, Last chunks (n * chunks.length / cells.length) ((n + 1) * chunks.length / cells.length) chunk ∧
        c = look color chunk.mark) ∧
      ∀ t : Term, t.style = {} → t.mode = .text → t.col = 0 →
        t.puts w (fileLine true color console maxName path chunks) = { t with
          row := t.row + 1
          drawn := t.drawn ++ inRow t.row 0 (plain (shortName path ++ List.replicate (maxName + 1 - (shortName path).length) 32) ++ cells ++
            plain (List.replicate (console + 1 - (maxName + 1 + cells.length)) 32)) } := by
  obtain ⟨body, cells, h1, h2, h3, h4⟩ := fileLine_eq w color chunks hc hm hp hn
  refine ⟨cells, h2.len, h2.col, fun t hs hmd hcol => ?_⟩
  have hl := h2.len
  have h5 := h3.append (draws_char w (b := 32) (by decide))
  rw [h1, puts_append, h5 t ⟨hs, hmd⟩ (by rw [List.length_append, h4, hcol]; simp; omega), puts_one]
  unfold Term.put
  rw [hmd]
  simp only [hcol]
  have hx : console + 1 - (maxName + 1 + cells.length) = console - (maxName + 1 + cells.length) + 1 := by omega
  have hpl : ∀ a b : Str, plain (a ++ b) = plain a ++ plain b := fun a b => List.map_append ..
  rw [hx, List.replicate_succ']
  unfold whole
  simp only [show ((10 : UInt8) = 27) = False from by decide, show ((10 : UInt8) = 13) = False from by decide, if_false, if_true, List.append_assoc, hpl]
  rfl

/-- Chunks of different kinds look different, and so do chunks streamed to different threads, as long as there are at most 36. -/
theorem C203_looks_different (color : Nat → Nat) (hinj : ∀ t t', color t = color t' → t = t') (m m' : Mark)
    (hm : ∀ t, m = .streamed t → color t < 36) (hm' : ∀ t, m' = .streamed t → color t < 36) (h : look color m = look color m') : m = m' := by
  have key : ∀ a b : Fin 36, fgColors.getD (a.val / 12 % 3) 0 = fgColors.getD (b.val / 12 % 3) 0 →
      bgColors.getD (a.val % 12) 0 = bgColors.getD (b.val % 12) 0 → a = b := by decide +kernel
  cases m with
  | notLoaded => cases m' with
    | notLoaded => rfl
    | cached => exact absurd (congrArg Prod.fst h) (show ¬ (45 : UInt8) = 67 by decide)
    | streamed t => exact absurd (congrArg Prod.fst h) (show ¬ (45 : UInt8) = 88 by decide)
  | cached => cases m' with
    | notLoaded => exact absurd (congrArg Prod.fst h) (show ¬ (67 : UInt8) = 45 by decide)
    | cached => rfl
    | streamed t => exact absurd (congrArg Prod.fst h) (show ¬ (67 : UInt8) = 88 by decide)
  | streamed t => cases m' with
    | notLoaded => exact absurd (congrArg Prod.fst h) (show ¬ (88 : UInt8) = 45 by decide)
    | cached => exact absurd (congrArg Prod.fst h) (show ¬ (88 : UInt8) = 67 by decide)
    | streamed t' =>
      simp only [look, Prod.mk.injEq, Style.mk.injEq, Option.some.injEq, true_and] at h
      have := key ⟨color t, hm t rfl⟩ ⟨color t', hm' t' rfl⟩ h.1 h.2
      rw [hinj t t' (by simpa using this)]

/-! ### The whole picture -/

/-- Some bytes draw `D` and end at the beginning of the row `k` rows below. -/
def Adv (w : Nat) (s : Str) (k : Nat) (D : Int → List (Int × Nat × UInt8 × Style)) : Prop :=
  ∀ t : Term, Ready t → t.col = 0 → t.puts w s = { t with row := t.row + k, drawn := t.drawn ++ D t.row }

/-- What is drawn lies in `k` rows, and the first `console` columns of the rows of `rows` are drawn. -/
structure Covers (console k : Nat) (rows : Nat → Prop) (D : Int → List (Int × Nat × UInt8 × Style)) : Prop where
  inside : ∀ r, ∀ x ∈ D r, r ≤ x.1 ∧ x.1 < r + k
  all : ∀ (r : Int) (i c : Nat), i < k → rows i → c < console → ∃ b st, (r + i, c, b, st) ∈ D r

theorem mem_inRow {r : Int} {c0 : Nat} {l : List (UInt8 × Style)} {x : Int × Nat × UInt8 × Style} (h : x ∈ inRow r c0 l) : x.1 = r := by
  unfold inRow at h
  obtain ⟨i, hi, rfl⟩ := List.mem_mapIdx.mp h
  rfl

theorem inRow_all {r : Int} {l : List (UInt8 × Style)} {c : Nat} (h : c < l.length) : ∃ b st, (r, c, b, st) ∈ inRow r 0 l := by
  refine ⟨l[c].1, l[c].2, ?_⟩
  unfold inRow
  refine List.mem_mapIdx.mpr ⟨c, h, ?_⟩
  rw [Nat.zero_add]

theorem put_lf (w : Nat) (t : Term) (h : t.mode = .text) : t.put w 10 = { t with row := t.row + 1, col := 0 } := by
  unfold Term.put
  rw [h]
  rfl

/-- A line that fits. -/
theorem adv_line {w console : Nat} {s : Str} {l : List (UInt8 × Style)} (h : Draws w s l) (h1 : console ≤ l.length) (h2 : l.length ≤ w) :
    ∃ D, Adv w (s ++ [10]) 1 D ∧ Covers console 1 (fun _ => True) D := by
  refine ⟨fun r => inRow r 0 l, fun t ht hc => ?_, ⟨fun r x hx => ?_, fun r i c hi _ hc => ?_⟩⟩
  · have := put_lf w { t with col := t.col + l.length, drawn := t.drawn ++ inRow t.row t.col l } ht.mode
    rw [puts_append, h t ht (by omega), puts_one, this]
    simp [hc]
  · rw [mem_inRow hx]; omega
  · have : i = 0 := by omega
    subst this
    obtain ⟨b, st, hb⟩ := inRow_all (r := r) (l := l) (c := c) (by omega)
    exact ⟨b, st, by simpa using hb⟩

theorem Adv.append {w console k k' : Nat} {s s' : Str} {p p' : Nat → Prop} (h : ∃ D, Adv w s k D ∧ Covers console k p D)
    (h' : ∃ D, Adv w s' k' D ∧ Covers console k' p' D) :
    ∃ D, Adv w (s ++ s') (k + k') D ∧ Covers console (k + k') (fun i => if i < k then p i else p' (i - k)) D := by
  obtain ⟨D, a, c⟩ := h
  obtain ⟨D', a', c'⟩ := h'
  refine ⟨fun r => D r ++ D' (r + k), fun t ht hc => ?_, ⟨fun r x hx => ?_, fun r i j hi hp hj => ?_⟩⟩
  · have := a' { t with row := t.row + k, drawn := t.drawn ++ D t.row } ⟨ht.style, ht.mode⟩ hc
    rw [puts_append, a t ht hc, this]
    simp only [List.append_assoc, Int.natCast_add, Int.add_assoc]
  · rcases List.mem_append.mp hx with hx | hx
    · have := c.inside r x hx; omega
    · have := c'.inside _ x hx; omega
  · by_cases hk : i < k
    · rw [if_pos hk] at hp
      obtain ⟨b, st, hb⟩ := c.all r i j hk hp hj
      exact ⟨b, st, List.mem_append_left _ hb⟩
    · rw [if_neg hk] at hp
      obtain ⟨b, st, hb⟩ := c'.all (r + k) (i - k) j (by omega) hp hj
      refine ⟨b, st, List.mem_append_right _ ?_⟩
      rwa [show r + (k : Int) + ((i - k : Nat) : Int) = r + i from by omega] at hb

/-- Some lines of the same height. -/
theorem adv_lines {α : Type} {w console k : Nat} {l : List α} {f : α → Str} (h : ∀ a ∈ l, ∃ D, Adv w (f a) k D ∧ Covers console k (fun _ => k = 1) D) :
    ∃ D, Adv w (l.map f).flatten (k * l.length) D ∧ Covers console (k * l.length) (fun _ => k = 1) D := by
  induction l with
  | nil => exact ⟨fun _ => [], fun t _ _ => by simp [Term.puts], ⟨fun r x hx => by simp at hx, fun r i c hi => by simp at hi⟩⟩
  | cons a l ih =>
    have := Adv.append (h a (List.mem_cons_self ..)) (ih fun x hx => h x (List.mem_cons_of_mem _ hx))
    obtain ⟨D, h1, h2⟩ := this
    refine ⟨D, ?_, ?_⟩
    · rw [List.map_cons, List.flatten_cons, List.length_cons, Nat.mul_succ, Nat.add_comm]; exact h1
    · rw [List.length_cons, Nat.mul_succ, Nat.add_comm]
      refine ⟨h2.inside, fun r i c hi hp hc => h2.all r i c hi ?_ hc⟩
      split <;> exact hp

theorem up (w : Nat) : ∀ (n : Nat) (t : Term), Ready t → t.col = 0 → t.puts w (List.replicate n [27, 91, 70]).flatten = { t with row := t.row - n }
  | 0, t, _, _ => by simp [Term.puts]
  | n + 1, t, ht, hc => by
    rw [List.replicate_succ, List.flatten_cons, puts_append]
    have e : t.puts w [27, 91, 70] = { t with row := t.row - 1 } := by
      obtain ⟨s, m, r, c, d⟩ := t
      obtain ⟨_, hm⟩ := ht
      dsimp only at hm hc
      subst hm hc
      rfl
    rw [e, up w n { t with row := t.row - 1 } ⟨ht.style, ht.mode⟩ hc]
    dsimp only
    congr 1
    omega

theorem le_maxName {files : List (Str × List Cell)} {f : Str × List Cell} (h : f ∈ files) : (shortName f.1).length ≤ maxName files ∧ maxName files ≤ 32 := by
  have key : ∀ (l : List (Str × List Cell)) (m : Nat), m ≤ 32 → m ≤ l.foldl (fun m f => max m (shortName f.1).length) m ∧
      l.foldl (fun m f => max m (shortName f.1).length) m ≤ 32 ∧ ∀ f ∈ l, (shortName f.1).length ≤ l.foldl (fun m f => max m (shortName f.1).length) m := by
    intro l
    induction l with
    | nil => exact fun m hm => ⟨Nat.le_refl _, hm, fun f hf => by cases hf⟩
    | cons a l ih =>
      intro m hm
      have hs := shortName_len a.1
      obtain ⟨h1, h2, h3⟩ := ih (max m (shortName a.1).length) (by omega)
      rw [List.foldl_cons]
      refine ⟨by omega, h2, fun f hf => ?_⟩
      rcases List.mem_cons.mp hf with rfl | hf
      · omega
      · exact h3 f hf
  obtain ⟨_, h2, h3⟩ := key files 0 (by omega)
  exact ⟨h3 f h, h2⟩

/-- The picture, with file lines of height `k`. -/
theorem print_rows {w console k : Nat} {color : Nat → Nat} {files : List (Str × List Cell)} {texts : List Str} (hc : 36 ≤ console) (hw : console ≤ w)
    (ht : ∀ s ∈ texts, ∀ b ∈ s, Printable b)
    (hf : ∀ f ∈ files, ∃ D, Adv w (fileLine true color console (maxName files) f.1 f.2) k D ∧ Covers console k (fun _ => k = 1) D) (t : Term)
    (hs : t.style = {}) (hm : t.mode = .text) :
    ∃ D, t.puts w (print true color console files texts) =
        { t with row := t.row + k * files.length - files.length, col := 0, drawn := t.drawn ++ D } ∧
      (k = 1 → (∀ x ∈ D, t.row ≤ x.1 ∧ x.1 < t.row + (files.length + texts.length : Nat)) ∧
        ∀ i c : Nat, i < files.length + texts.length → c < console → ∃ b st, (t.row + i, c, b, st) ∈ D) := by
  have h1 := adv_lines hf
  have h2 := adv_lines (w := w) (console := console) (k := 1) (l := texts) (f := fun s => resize s console ++ [10]) fun s hs => by
    obtain ⟨D, a, c⟩ := adv_line (console := console) (draws_plain w (resize_printable (ht s hs) console)) (by unfold plain; rw [List.length_map, resize_len]; exact Nat.le_refl _)
      (by unfold plain; rw [List.length_map, resize_len]; exact hw)
    exact ⟨D, a, ⟨c.inside, fun r i j hi _ hj => c.all r i j hi trivial hj⟩⟩
  obtain ⟨D, h3, h4⟩ := Adv.append h1 h2
  refine ⟨D t.row, ?_, fun hk => ⟨fun x hx => ?_, fun i c hi hc => ?_⟩⟩
  · unfold print
    rw [if_neg (by omega), List.append_assoc, List.append_assoc, puts_append, puts_one]
    have hcr : t.put w 13 = { t with col := 0 } := by unfold Term.put; rw [hm]; rfl
    rw [hcr, ← List.append_assoc, puts_append]
    have := h3 { t with col := 0 } ⟨hs, hm⟩ rfl
    have hu := up w (files.length + texts.length)
      { t with row := t.row + (k * files.length + 1 * texts.length : Nat), col := 0, drawn := t.drawn ++ D t.row } ⟨hs, hm⟩ rfl
    rw [this]
    refine hu.trans ?_
    dsimp only
    congr 1
    rw [Int.natCast_add, Int.natCast_add, Int.natCast_mul]
    omega
  · have := h4.inside t.row x hx
    subst hk
    omega
  · subst hk
    refine h4.all t.row i c (by omega) ?_ hc
    split <;> rfl

/-- **C204**, the part that holds: on a terminal that is wider than the width used, the picture is drawn in one row per line, from the row of the cursor,
over everything that was there in the columns used, and the cursor is back where it was: the next picture is drawn in the same place. -/
theorem C204_in_place_partial {w console : Nat} (color : Nat → Nat) {files : List (Str × List Cell)} {texts : List Str} (hc : 36 ≤ console) (hw : console < w)
    (hf : ∀ f ∈ files, ∀ b ∈ f.1, Printable b) (ht : ∀ s ∈ texts, ∀ b ∈ s, Printable b) (t : Term) (hs : t.style = {}) (hm : t.mode = .text) :
    ∃ D, t.puts w (print true color console files texts) = { t with col := 0, drawn := t.drawn ++ D } ∧
      (∀ x ∈ D, t.row ≤ x.1 ∧ x.1 < t.row + (files.length + texts.length : Nat)) ∧
      ∀ i c : Nat, i < files.length + texts.length → c < console → ∃ b st, (t.row + i, c, b, st) ∈ D := by
  obtain ⟨D, h1, h2⟩ := print_rows (w := w) (k := 1) (color := color) (files := files) hc (by omega) ht (fun f hfm => by
    obtain ⟨a, b⟩ := le_maxName hfm
    obtain ⟨body, cells, e, _, hd, hl⟩ := fileLine_eq w color f.2 hc b (hf f hfm) a
    rw [e]
    obtain ⟨D, ha, hcv⟩ := adv_line (console := console) (hd.append (draws_char w (b := 32) (by decide))) (by rw [List.length_append, hl]; exact Nat.le_add_right ..)
      (by rw [List.length_append, hl]; exact hw)
    exact ⟨D, ha, ⟨hcv.inside, fun r i j hi _ hj => hcv.all r i j hi trivial hj⟩⟩) t hs hm
  refine ⟨D, ?_, h2 rfl⟩
  rw [h1]
  congr 1
  omega

/-- **C204** is false of the code on Linux, where the width used is that of the terminal: the line of every file takes two rows, and the cursor ends
one row lower for every file shown. -/
theorem C204_moves_violated {w : Nat} (color : Nat → Nat) {files : List (Str × List Cell)} {texts : List Str} (hc : 36 ≤ w)
    (hf : ∀ f ∈ files, ∀ b ∈ f.1, Printable b) (ht : ∀ s ∈ texts, ∀ b ∈ s, Printable b) (t : Term) (hs : t.style = {}) (hm : t.mode = .text) :
    (t.puts w (print true color w files texts)).row = t.row + files.length := by
  obtain ⟨D, h1, _⟩ := print_rows (k := 2) (color := color) (files := files) hc (Nat.le_refl w) ht (fun f hfm => by
    obtain ⟨a, b⟩ := le_maxName hfm
    obtain ⟨body, cells, e, _, hd, hl⟩ := fileLine_eq w color f.2 hc b (hf f hfm) a
    rw [e]
    refine ⟨fun r => inRow r 0 (whole w (maxName files) f.1 cells) ++ [(r + 1, 0, 32, Style.mk none none)], fun u hu hcol => ?_, ⟨fun r x hx => ?_, fun r i c hi hp _ => by cases hp⟩⟩
    · rw [puts_append, puts_append, hd u hu (by omega), puts_one, puts_one]
      have : ({ u with col := u.col + (whole w (maxName files) f.1 cells).length, drawn := u.drawn ++ inRow u.row u.col (whole w (maxName files) f.1 cells) } : Term).put w 32 =
          { u with row := u.row + 1, col := 1, drawn := u.drawn ++ inRow u.row u.col (whole w (maxName files) f.1 cells) ++ [(u.row + 1, 0, 32, u.style)] } := by
        unfold Term.put
        dsimp only
        rw [hu.mode]
        dsimp only
        rw [if_neg (by decide), if_neg (by decide), if_neg (by decide), if_neg (by omega)]
      have h10 := put_lf w { u with
        row := u.row + 1
        col := 1
        drawn := u.drawn ++ inRow u.row u.col (whole w (maxName files) f.1 cells) ++ [(u.row + 1, 0, 32, u.style)] } hu.mode
      rw [this, h10]
      simp only [hcol, hu.style, List.append_assoc, Int.add_assoc]
      rfl
    · rcases List.mem_append.mp hx with hx | hx
      · rw [mem_inRow hx]; omega
      · simp only [List.mem_singleton] at hx; subst hx; dsimp only; omega) t hs hm
  rw [h1]
  dsimp only
  omega

/-! ## Examples -/

namespace Example

/-- `game/data.pak`, seven chunks. -/
def path : Str := [103, 97, 109, 101, 47, 100, 97, 116, 97, 46, 112, 97, 107]
def chunks : List Cell := [⟨.cached, 5⟩, ⟨.streamed 7, 9⟩, {}, {}, ⟨.streamed 8, 6⟩, ⟨.cached, 8⟩, {}]
def color : Nat → Nat := fun t => t - 7

example : shortName path = [100, 97, 116, 97, 46, 112, 97, 107] ∧ (∀ b ∈ path, Printable b) ∧ maxName [(path, chunks)] = 8 := by decide +kernel

/-- On a terminal of 37 columns with 36 of them used: the name, seven chunks, and blanks up to the last column. -/
example : let t := Term.puts 37 {} (fileLine true color 36 8 path chunks)
    t.row = 1 ∧ t.drawn.length = 37 ∧
    (t.drawn.drop 9).take 7 = [(0, 9, 67, ⟨some 30, some 47⟩), (0, 10, 88, ⟨some 30, some 101⟩), (0, 11, 45, {}), (0, 12, 45, {}),
      (0, 13, 88, ⟨some 30, some 102⟩), (0, 14, 67, ⟨some 30, some 47⟩), (0, 15, 45, {})] := by decide +kernel

/-- Two characters for seven chunks: the chunk streamed at time 9, and the chunk cached at time 8. -/
example : column color chunks 2 0 = draw color (.streamed 7) ∧ column color chunks 2 1 = draw color .cached := by decide +kernel

/-- The picture of one file and three lines, on a terminal that is wider, and on one that is not. -/
example : (Term.puts 37 {} (print true color 36 [(path, chunks)] [[76], [66], [84]])).row = 0 ∧
    (Term.puts 36 {} (print true color 36 [(path, chunks)] [[76], [66], [84]])).row = 1 := by decide +kernel

end Example

/-- **C203** is false of the code if the compiler moves the line before it reads its size: of seven chunks only the first is shown, the line ends
within a code for a colour, and what follows is drawn in the colours of that chunk. -/
theorem C203_order_violated :
    let t := Term.puts 37 {} (fileLine false Example.color 36 8 Example.path Example.chunks)
    t.drawn.drop 9 = [(0, 9, 67, ⟨some 30, some 47⟩)] ∧ t.style = ⟨some 30, some 47⟩ ∧ t.row = 0 := by decide +kernel

end Verif.ChunkMap.Picture
