import Verif.Text.Path
/-!
# The directory of the program on Linux (C156)

Model of `path::GetExeDir` on Linux, common/path.cc:164-185: `readlink` writes the path of the
program into a buffer on the stack that was not initialised, and does not write a terminating
zero; the buffer is then converted to a `std::string`, which ends at the first zero.

`rest` is the memory behind what `readlink` wrote: the remainder of the buffer and of the stack.
The path has less than `PATH_MAX` bytes, the file names on the way no backslash (C46 treats it as a
separator).
-/

namespace Verif.Text.ExeDir
open Verif.Text.Path

/-- `GetExeDir` when `readlink` returned `exe`, path.cc:173-182. -/
def exeDir (exe rest : Str) : Str := dirName ((exe ++ rest).takeWhile (· ≠ 0))

/-- The path of a program: a directory and a name. -/
structure Exe (exe dir name : Str) : Prop where
  path : exe = dir ++ 47 :: name
  named : NoSep name ∧ name ≠ []
  dir : ∀ c, dir.getLast? = some c → isSep c = false
  text : (0 : UInt8) ∉ exe

theorem takeWhile_exe {exe rest : Str} (h : (0 : UInt8) ∉ exe) :
    (exe ++ rest).takeWhile (· ≠ 0) = exe ++ rest.takeWhile (· ≠ 0) := by
  rw [List.takeWhile_append_of_pos]
  intro c hc
  simp only [decide_eq_true_eq]
  intro e; subst e; exact h hc

/-- **C156, proved part.** The directory of the program is found if the bytes left on the stack, up
to the first zero, contain no separator; in particular if the first one is zero.
Missing: all other contents of the stack (`C156_stack_violated`). -/
theorem C156_clean_stack_partial (exe dir name rest : Str) (h : Exe exe dir name)
    (hr : NoSep (rest.takeWhile (· ≠ 0))) :
    exeDir exe rest = if dir = [] then [47] else dir := by
  obtain ⟨rfl, ⟨hn, hn0⟩, hd, h0⟩ := h
  unfold exeDir
  rw [takeWhile_exe h0]
  generalize rest.takeWhile (· ≠ 0) = junk at hr
  have := dirName_parts (drive := []) (d := dir) (m := [47]) (n := name ++ junk) (t := [])
    (by intro c hc; cases hc)
    (by intro c hc; rcases List.mem_append.1 hc with hc | hc; exact hn c hc; exact hr c hc)
    (by intro c hc; simp at hc; subst hc; decide) (by simp [hn0]) (by simp) hd
  rw [List.nil_append, List.nil_append, List.append_nil] at this
  rw [dirName, ← this]
  simp

/-- **C156 fails otherwise.** If the stack has a separator followed by a name there (left by an
earlier function that handled a path, say), then the path of the program itself is taken for its
directory. -/
theorem C156_stack_violated (exe dir name left more : Str) (h : Exe exe dir name)
    (hl : NoSep left ∧ left ≠ [] ∧ (0 : UInt8) ∉ left) :
    exeDir exe (47 :: left ++ 0 :: more) = exe := by
  have h' := h
  obtain ⟨he, ⟨hn, hn0⟩, hd, h0⟩ := h
  unfold exeDir
  rw [takeWhile_exe h0]
  have hj : (47 :: left ++ 0 :: more).takeWhile (· ≠ 0) = 47 :: left := by
    rw [List.takeWhile_append_of_pos]
    · simp
    · intro c hc
      simp only [decide_eq_true_eq]
      intro e; subst e
      rcases List.mem_cons.1 hc with hc | hc
      · cases hc
      · exact hl.2.2 hc
  rw [hj]
  have hexe : exe ≠ [] := by rw [he]; simp
  have := dirName_parts (drive := []) (d := exe) (m := [47]) (n := left) (t := [])
    (by intro c hc; cases hc) hl.1 (by intro c hc; simp at hc; subst hc; decide) hl.2.1 (by simp)
    (by
      intro c hc
      rw [he, List.getLast?_append, List.getLast?_cons] at hc
      rw [List.getLast?_eq_some_getLast hn0] at hc
      simp at hc
      subst hc
      exact hn _ (List.getLast_mem hn0))
  rw [List.nil_append, List.nil_append, List.append_nil, if_neg hexe] at this
  simpa [dirName] using this

/-- "/bin/x" with "/lib" left behind it. -/
example : Exe [47, 98, 105, 110, 47, 120] [47, 98, 105, 110] [120] ∧
    exeDir [47, 98, 105, 110, 47, 120] [0, 1] = [47, 98, 105, 110] ∧
    exeDir [47, 98, 105, 110, 47, 120] [47, 108, 105, 98, 0] = [47, 98, 105, 110, 47, 120] :=
  ⟨⟨rfl, ⟨by intro c hc; simp at hc; subst hc; decide, by decide⟩, by decide, by decide⟩, by decide, by decide⟩

end Verif.Text.ExeDir
