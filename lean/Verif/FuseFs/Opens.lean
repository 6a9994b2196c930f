import Verif.FuseFs.Ops

/-! # What the requests of a program that only reads are answered with (C185) -/
namespace Verif.FuseFs.Ops

/-- The file or directory is there. -/
def There (s : State) (i : Ino) : Prop := s.valid i = true

theorem There.validate {s : State} {i : Ino} (h : There s i) : validate s i = ([], true) := by
  unfold Ops.validate; rw [show s.valid i = true from h]; rfl

/-- **C185, files.** Opening a file that is there for reading waits exactly if the file is not empty and still being processed. Otherwise it succeeds at once; pages the kernel has
cached are kept exactly if the file has not changed since it was last opened and the program does not want to bypass the cache; and the file is then known to have been opened, as the
only one. Closing it succeeds. -/
theorem C185_open (rest : List Nat) (s : State) (i : Ino) (flags : Nat) (h : There s i) (hf : (s.m.asset i).kind = .file) (hr : flags % 4 = 0) :
    ((s.m.asset i).size ≠ 0 ∧ (s.m.asset i).inProgress = true → handle rest s (.open i flags) = ⟨[], true, s⟩) ∧
    (¬((s.m.asset i).size ≠ 0 ∧ (s.m.asset i).inProgress = true) →
      ∃ keep direct, (handle rest s (.open i flags)).replies = [.opened keep direct] ∧ (handle rest s (.open i flags)).queued = false ∧
        (direct = true ↔ flags / 2 ^ 14 % 2 = 1) ∧ (keep = true ↔ s.updated i = false ∧ direct = false) ∧
        (handle rest s (.open i flags)).state.updated i = false ∧ (∀ j ≠ i, (handle rest s (.open i flags)).state.updated j = s.updated j)) ∧
    (handle rest s (.release i)).replies = [.err 0] := by
  have hd : (s.m.asset i).kind ≠ .dir := by rw [hf]; decide
  refine ⟨fun ⟨h1, h2⟩ => ?_, fun hn => ?_, ?_⟩
  · simp only [handle, openFile, h.validate]
    have h1 : (s.m.asset i).size > 0 := Nat.pos_of_ne_zero h1
    simp [hf, hr, h1, h2]
  · have hc : ((s.m.asset i).size > 0 && (s.m.asset i).inProgress) = false := by
      cases hp : (s.m.asset i).inProgress with
      | false => simp
      | true =>
        have : (s.m.asset i).size = 0 := Classical.byContradiction fun h0 => hn ⟨h0, hp⟩
        simp [this]
    have hb : flags.testBit 14 = true ↔ flags / 2 ^ 14 % 2 = 1 := by rw [Nat.testBit_eq_decide_div_mod_eq]; simp
    simp only [handle, openFile, h.validate, hf, hr, hc]
    cases hu : s.updated i with
    | true => exact ⟨false, flags.testBit 14, rfl, rfl, hb, by simp, by simp, by intro j hj; simp [hj]⟩
    | false =>
      refine ⟨!flags.testBit 14, flags.testBit 14, rfl, rfl, hb, by simp, ?_, fun j _ => rfl⟩
      simpa using hu
  · simp [handle, release, h.validate, hf]

/-- **C185, directories.** Opening a directory that is there waits exactly as long as it is being processed. A listing has exactly the entries of the manifest that are there, in their
order, with their numbers; closing it succeeds. -/
theorem C185_dir (rest : List Nat) (s : State) (i : Ino) (h : There s i) (hp : There s (s.m.asset i).parent) (hd : (s.m.asset i).kind = .dir) (size off : Nat)
    (l : List (Name × Ino)) (hl : s.m.all i = some l) :
    handle rest s (.opendir i) = (if (s.m.asset i).inProgress then ⟨[], true, s⟩ else ⟨[.opened false false], false, s⟩) ∧
    (∃ es : List Listing.Entry, (handle rest s (.readdir i size off)).replies = [.buf (Listing.readDir (Listing.entries i (s.m.asset i).parent es) size off)] ∧
      (es.map fun e => (e.name, e.ino)).Sublist l ∧ ∀ n j, (n, j) ∈ l → ((∃ e ∈ es, e.name = n ∧ e.ino = j) ↔ There s j)) ∧
    (handle rest s (.releasedir i)).replies = [.err 0] := by
  refine ⟨?_, ?_, ?_⟩
  · simp only [handle, openDir, h.validate, hd]
    split <;> simp_all
  · refine ⟨(l.filter fun x => s.valid x.2).map fun x => ⟨x.2, typ (s.m.asset x.2), x.1⟩, ?_, ?_, ?_⟩
    · simp [handle, readDir, h.validate, hp.validate, hd, hl]
    · rw [List.map_map]
      have : ((fun e : Listing.Entry => (e.name, e.ino)) ∘ fun x : Name × Ino => (⟨x.2, typ (s.m.asset x.2), x.1⟩ : Listing.Entry)) = id := rfl
      rw [this, List.map_id]
      exact List.filter_sublist
    · intro n j hm
      constructor
      · rintro ⟨e, he, rfl, rfl⟩
        obtain ⟨x, hx, rfl⟩ := List.mem_map.1 he
        exact (List.mem_filter.1 hx).2
      · intro hv
        exact ⟨_, List.mem_map.2 ⟨(n, j), List.mem_filter.2 ⟨hm, hv⟩, rfl⟩, rfl, rfl⟩
  · simp [handle, releaseDir, h.validate, hd]

/-- **C185, reading.** After a file was opened and until a new manifest arrives, whatever other requests there are, reads get what the manifest says; files not opened since they changed
cannot be read. -/
theorem C185_read (rest rest' : List Nat) (s : State) (i : Ino) (flags : Nat) (h : There s i) (hf : (s.m.asset i).kind = .file) (hr : flags % 4 = 0)
    (hn : ¬((s.m.asset i).size ≠ 0 ∧ (s.m.asset i).inProgress = true)) (v : Server) (hv : v.s = (handle rest s (.open i flags)).state)
    (es : List (List Nat × Event)) (hes : manifests es = []) (size off : Nat) :
    (∀ b, s.m.bytes i off size = some b → (handle rest' (v.steps es).s (.read i size off)).replies = [.buf b]) ∧
    (s.updated i = true → (handle rest' s (.read i size off)).replies = [.err EIO]) := by
  obtain ⟨-, ho, -⟩ := C185_open rest s i flags h hf hr
  obtain ⟨keep, direct, -, -, -, -, hu, -⟩ := ho hn
  obtain ⟨k1, k2, -⟩ := state_m rest s (.open i flags)
  obtain ⟨h1, h2, h3⟩ := v.steps_same es hes
  have hval : validate (v.steps es).s i = ([], true) := by
    unfold validate; rw [h2, hv, k2, show s.valid i = true from h]; rfl
  refine ⟨fun b hb => ?_, fun hup => ?_⟩
  · simp only [handle, read, hval]
    rw [h3 i (by rw [hv]; exact hu), h1, hv, k1, hb]
    rfl
  · simp only [handle, read, h.validate]
    simp [hup]

/-- The file system of the examples: file 16 is there, ready, and can be opened. -/
theorem C185_example : There (exS true) 16 ∧ ((exS true).m.asset 16).kind = .file ∧ ((exS true).m.asset 16).size = 2 ∧
    (handle [] (exS true) (.open 16 0)).replies = [.opened true false] ∧ (handle [] (exS false) (.open 16 0)).queued = true ∧
    There (exS true) 1 ∧ ((exS true).m.asset 1).kind = .dir ∧ There (exS true) ((exS true).m.asset 1).parent := by
  refine ⟨rfl, rfl, rfl, rfl, rfl, rfl, rfl, rfl⟩

end Verif.FuseFs.Ops
