import Verif.Store.Model
/-!
# Writing and reading whole files (C154, C155)

Model of `path::WriteFile` and `path::ReadFile`, common/path.cc:824-891, 966-979, over the streams of
the C library: `fwrite` may keep bytes in the stream's buffer, which `fclose` writes.  A disk has
room for so many more bytes; a write for which there is not enough room fails (`ENOSPC`, the same
holds for quotas and for errors of network drives).

Simplifications: one disk, nobody else writes to it meanwhile; a failing write fills the room that
is left; the file can be opened.
-/

namespace Verif.Store.Stdio

/-- A file open for writing: what is in the file, the bytes the disk still has room for, and what
is in the stream's buffer. -/
structure Stream where
  content : Bytes
  room : Nat
  pending : Bytes
deriving DecidableEq, Repr

/-- `fopen(path, "wb")`: the file is emptied. -/
def fopen (room : Nat) : Stream := ⟨[], room, []⟩

/-- `fwrite(bs, 1, bs.length, file)` with a buffer of `buffer` bytes returns `n`: the first `k` bytes
not written yet go to the file, the others stay in the buffer. -/
def Fwrite (buffer : Nat) (s : Stream) (bs : Bytes) (n : Nat) (s' : Stream) : Prop :=
  ∃ k, k ≤ (s.pending ++ bs).length ∧ (s.pending ++ bs).length - k ≤ buffer ∧
    ((k ≤ s.room ∧ n = bs.length ∧
        s' = ⟨s.content ++ (s.pending ++ bs).take k, s.room - k, (s.pending ++ bs).drop k⟩) ∨
     (s.room < k ∧ n < bs.length ∧ s' = ⟨s.content ++ (s.pending ++ bs).take s.room, 0, []⟩))

/-- `fclose(file)`: what is in the file afterwards, and whether it succeeded. -/
def fclose (s : Stream) : Bytes × Bool :=
  (s.content ++ s.pending.take s.room, decide (s.pending.length ≤ s.room))

/-- `path::WriteFile(path, data, len)`, path.cc:966-979: whether it reports success, and what the
file contains then.  The result of `fclose` is not used; if `fwrite` fails then the file is not
closed, and what is in the buffer is not written before the process ends. -/
inductive WriteFile (buffer room : Nat) (data : Bytes) : Bool → Bytes → Prop where
  | ok (s : Stream) : Fwrite buffer (fopen room) data data.length s →
      WriteFile buffer room data true (fclose s).1
  | failed (n : Nat) (s : Stream) : Fwrite buffer (fopen room) data n s → n ≠ data.length →
      WriteFile buffer room data false s.content

/-- `DiskDataStore::Put`, disk_data_store.cc:100-110, with the file written as above: whether it
reports success, and the store then. -/
inductive Put (buffer room depth : Nat) (s : Disk) (id : Id) (data : Bytes) (now : Nat) : Bool → Disk → Prop where
  | ok (content : Bytes) : WriteFile buffer room data true content →
      Put buffer room depth s id data now true
        { s with files := writeFile s.files ⟨cachePath depth id, content, now⟩,
                 size := s.size + data.length, rootExists := true }
  | failed (content : Bytes) : WriteFile buffer room data false content →
      Put buffer room depth s id data now false
        { s with files := writeFile s.files ⟨cachePath depth id, content, now⟩, rootExists := true }

/-- The contents of a file that is being read, call by call: other programs may change it. -/
abbrev Contents := Nat → Bytes

/-- `path::ReadFile(path, &buffer)` and `path::ReadFile(path)`, path.cc:824-845, 872-891: the size is
that at the first call, the bytes are those at the second. `none` is an error. -/
def readFile (c : Contents) : Option Bytes :=
  let size := (c 0).length
  let got := (c 1).take size
  if got.length = size then some got else none

/-- `path::ReadFile(path, data, offset, len)`, path.cc:848-870, for an offset less than 2^63; the
error of `fread` is not modelled. -/
def readRange (content : Bytes) (offset len : Nat) : Bytes :=
  if len = 0 then [] else (content.drop offset).take len

/-! ## Writing -/

theorem writeFile_cases {buffer room : Nat} {data content : Bytes} {b : Bool}
    (h : WriteFile buffer room data b content) :
    content = data.take room ∨ (b = false ∧ room < data.length) := by
  cases h with
  | ok s hw =>
    obtain ⟨k, hk, _, h⟩ := hw
    rcases h with ⟨h1, _, rfl⟩ | ⟨h1, h2, rfl⟩
    · left
      simp only [fopen, List.nil_append] at hk h1 ⊢
      simp only [fclose]
      rw [List.take_drop, show k + (room - k) = room by omega]
      have : data.take k = (data.take room).take k := by rw [List.take_take]; congr 1; omega
      rw [this, List.take_append_drop]
    · omega
  | failed n s hw hn =>
    obtain ⟨k, hk, _, h⟩ := hw
    rcases h with ⟨_, h2, _⟩ | ⟨h1, h2, rfl⟩
    · exact absurd h2 hn
    · left; simp [fopen]

/-- **C154, proved part.** If the disk has room for the data then a file is written as a whole and
success is reported; if failure is reported then there was not enough room.
Missing: the converse, success does not mean that the file was written
(`C154_success_violated`). -/
theorem C154_room_partial (buffer room : Nat) (data content : Bytes) (b : Bool)
    (h : WriteFile buffer room data b content) :
    (data.length ≤ room → b = true ∧ content = data) ∧ (b = false → room < data.length) := by
  have hb : b = false → room < data.length := by
    intro e
    cases h with
    | ok s hw => cases e
    | failed n s hw hn =>
      obtain ⟨k, hk, _, h⟩ := hw
      rcases h with ⟨_, h2, _⟩ | ⟨h1, _, _⟩
      · exact absurd h2 hn
      · simp only [fopen, List.nil_append] at hk h1; omega
  refine ⟨fun hr => ?_, hb⟩
  have : b = true := by
    cases b with
    | true => rfl
    | false => have := hb rfl; omega
  refine ⟨this, ?_⟩
  rcases writeFile_cases h with h | ⟨_, h⟩
  · rw [h, List.take_of_length_le hr]
  · omega

/-- There is always a run. -/
theorem exists_write (buffer room : Nat) (data : Bytes) : ∃ b content, WriteFile buffer room data b content := by
  by_cases h : data.length ≤ room
  · exact ⟨true, _, .ok ⟨data, room - data.length, []⟩
      ⟨data.length, by simp [fopen], by simp [fopen], .inl ⟨h, rfl, by simp [fopen]⟩⟩⟩
  · exact ⟨false, _, .failed 0 ⟨data.take room, 0, []⟩
      ⟨data.length, by simp [fopen], by simp [fopen],
        .inr ⟨by simp only [fopen]; omega, by omega, by simp [fopen]⟩⟩ (by omega)⟩

/-- **C154 fails when the disk is full.** Whenever the data fit into the buffer of the stream but not
on the disk, success is reported although the file is cut off. -/
theorem C154_success_violated (buffer room : Nat) (data : Bytes) (hb : data.length ≤ buffer)
    (hr : room < data.length) :
    ∃ content, WriteFile buffer room data true content ∧ content = data.take room ∧ content ≠ data := by
  refine ⟨data.take room, ?_, rfl, ?_⟩
  · have := WriteFile.ok (buffer := buffer) (room := room) (data := data) ⟨[], room, data⟩
      ⟨0, Nat.zero_le _, by simpa [fopen] using hb, .inl ⟨Nat.zero_le _, rfl, by simp [fopen]⟩⟩
    simpa [fclose] using this
  · intro e
    have : (data.take room).length = data.length := by rw [e]
    rw [List.length_take] at this; omega

/-- **C154, the chunk cache.** A chunk put into the cache successfully may be read back, again
successfully, as other bytes, and the cache says it has it: for every chunk that fits into the
buffer but not on the disk, and every cache. -/
theorem C154_cache_violated (buffer room depth : Nat) (s : Disk) (id : Id) (data : Bytes) (now : Nat)
    (hb : data.length ≤ buffer) (hr : room < data.length) :
    ∃ s', Put buffer room depth s id data now true s' ∧ s'.contains depth id = true ∧
      (s'.get depth id now).1 = some (data.take room) ∧ data.take room ≠ data := by
  obtain ⟨content, hw, hc, hne⟩ := C154_success_violated buffer room data hb hr
  subst hc
  have hf : Disk.find (Disk.mk (writeFile s.files ⟨cachePath depth id, data.take room, now⟩)
      (s.size + data.length) s.sizeInit true) (cachePath depth id)
      = some ⟨cachePath depth id, data.take room, now⟩ := by
    unfold Disk.find writeFile
    rw [List.find?_append]
    have : (s.files.filter fun g => g.path ≠ cachePath depth id).find?
        (fun f => f.path = cachePath depth id) = none := by
      rw [List.find?_eq_none]
      intro f hf
      have := (List.mem_filter.1 hf).2
      simpa using this
    simp only at this ⊢
    rw [this]
    simp
  refine ⟨_, .ok _ hw, ?_, ?_, hne⟩
  · unfold Disk.contains; rw [hf]; rfl
  · unfold Disk.get; rw [hf]

/-- With enough room `Put` is the one of the model of the store. -/
theorem C154_put_partial (buffer room depth : Nat) (s s' : Disk) (id : Id) (data : Bytes) (now : Nat) (b : Bool)
    (hr : data.length ≤ room) (h : Put buffer room depth s id data now b s') :
    b = true ∧ s' = s.put depth id data now := by
  cases h with
  | ok content hw =>
    have := (C154_room_partial _ _ _ _ _ hw).1 hr
    rw [this.2]; exact ⟨rfl, rfl⟩
  | failed content hw => exact absurd ((C154_room_partial _ _ _ _ _ hw).1 hr).1 (by simp)

/-- **C154, how much may be missing.** If success is reported then the file is a prefix of the data and at most as many bytes are missing as
the buffer of the stream holds: a loss of more is noticed. -/
theorem C154_loss_partial (buffer room : Nat) (data content : Bytes) (h : WriteFile buffer room data true content) :
    content <+: data ∧ data.length ≤ content.length + buffer := by
  cases h with
  | ok s hw =>
    obtain ⟨k, hk, hb, h⟩ := hw
    simp only [fopen, List.nil_append] at hk hb h
    rcases h with ⟨h1, _, rfl⟩ | ⟨h1, h2, rfl⟩
    · have e : (fclose ⟨data.take k, room - k, data.drop k⟩).1 = data.take k ++ (data.drop k).take (room - k) := rfl
      rw [e]
      have : data.take k ++ (data.drop k).take (room - k) = data.take room := by
        rw [List.take_drop, show k + (room - k) = room by omega]
        have : data.take k = (data.take room).take k := by rw [List.take_take]; congr 1; omega
        rw [this, List.take_append_drop]
      rw [this]
      refine ⟨List.take_prefix .., ?_⟩
      rw [List.length_take]; omega
    · omega

/-- **C154, the chunk cache, how much may be missing.** The same for a chunk stored successfully, which is what `Get` then returns; a failed
`Put` is not counted, but the broken file is left. -/
theorem C154_put_loss_partial (buffer room depth : Nat) (s s' : Disk) (id : Id) (data : Bytes) (now : Nat) (b : Bool)
    (h : Put buffer room depth s id data now b s') :
    ∃ content, s'.files = writeFile s.files ⟨cachePath depth id, content, now⟩ ∧ s'.rootExists = true ∧
      (b = true → content <+: data ∧ data.length ≤ content.length + buffer ∧ s'.size = s.size + data.length) ∧
      (b = false → room < data.length ∧ s'.size = s.size) := by
  cases h with
  | ok content hw =>
    exact ⟨content, rfl, rfl, fun _ => ⟨(C154_loss_partial _ _ _ _ hw).1, (C154_loss_partial _ _ _ _ hw).2, rfl⟩, fun h => nomatch h⟩
  | failed content hw =>
    exact ⟨content, rfl, rfl, (fun h => nomatch h), fun _ => ⟨(C154_room_partial _ _ _ _ _ hw).2 rfl, rfl⟩⟩

example : ∃ content, WriteFile 1 2 [1, 2, 3] true content := by
  obtain ⟨s, h⟩ : ∃ s, Fwrite 1 (fopen 2) [1, 2, 3] 3 s :=
    ⟨_, 2, by decide, by decide, .inl ⟨by decide, rfl, rfl⟩⟩
  exact ⟨_, .ok s h⟩

example : WriteFile 4096 0 [1, 2, 3] true [] := by
  obtain ⟨c, h, e, _⟩ := C154_success_violated 4096 0 [1, 2, 3] (by decide) (by decide)
  subst e; exact h

/-! ## Reading -/

/-- **C155.** A file that nobody changes meanwhile is read as a whole.  If others change it, then
what is read has the length the file had at first and is the start of what it contains later; a
file that got shorter is an error. -/
theorem C155_read (c : Contents) :
    (c 1 = c 0 → readFile c = some (c 0)) ∧
    (∀ bs, readFile c = some bs → bs.length = (c 0).length ∧ bs <+: c 1) ∧
    (readFile c = none ↔ (c 1).length < (c 0).length) := by
  refine ⟨?_, ?_, ?_⟩
  · intro e
    unfold readFile
    simp only [e]
    rw [List.take_of_length_le (Nat.le_refl _), if_pos rfl]
  · intro bs h
    unfold readFile at h
    simp only at h
    split at h
    · rename_i hl
      injection h with h; subst h
      exact ⟨hl, List.take_prefix _ _⟩
    · cases h
  · unfold readFile
    simp only [List.length_take]
    by_cases h : (c 1).length < (c 0).length
    · rw [if_neg (by omega)]; simp [h]
    · rw [if_pos (by omega)]; simp [h]

/-- A range read gives exactly the bytes of the file at these positions, cut off at the end of the
file. -/
theorem C155_range (content : Bytes) (offset len : Nat) :
    (readRange content offset len).length = min len (content.length - offset) ∧
    ∀ i, i < (readRange content offset len).length → (readRange content offset len)[i]? = content[offset + i]? := by
  unfold readRange
  by_cases h : len = 0
  · rw [if_pos h]; subst h; simp
  · rw [if_neg h]
    refine ⟨by rw [List.length_take, List.length_drop], ?_⟩
    intro i hi
    rw [List.length_take, List.length_drop] at hi
    rw [List.getElem?_take_of_lt (by omega), List.getElem?_drop]

example : readFile (fun n => if n = 0 then [1, 2] else [1, 2, 3]) = some [1, 2] ∧
    readFile (fun n => if n = 0 then [1, 2] else [1]) = none ∧
    readRange [1, 2, 3, 4, 5] 3 7 = [4, 5] ∧ readRange [1, 2, 3] 4 2 = [] := by decide

end Verif.Store.Stdio
