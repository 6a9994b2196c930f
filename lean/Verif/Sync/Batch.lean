import Verif.Sync.Diff

/-! # C36, C37: lists sent in batches

cdc_rsync/file_finder_and_sender.cc, cdc_rsync_server/cdc_rsync_server.cc (`HandleSendAllFiles`, `SendFileIndices`),
cdc_rsync_server/file_deleter_and_sender.cc, cdc_rsync/cdc_rsync_client.cc (`ReceiveDeletedFiles`, `ReceiveFileIndices`).
Serialisation of messages and the message pump are not modelled here (C11, C12): the messages sent are the messages received. -/
namespace Verif.Sync
open Verif.Text.Path (Str)

/-! ## The client's file list -/

/-- `AddFilesRequest`, protos/messages.proto. -/
structure AddFiles where
  directory : Str := []
  files : List (Str × Int × Nat) := []
  dirs : List Str := []
deriving DecidableEq, Repr

/-- What is known of a file on the client (`ClientFileInfo`, cdc_rsync/client_file_info.h:24-31). -/
structure ClientFile where
  path : Str
  size : Nat
  baseLen : Nat
deriving DecidableEq, Repr

/-- The sender's state. `sent` are the messages sent so far. -/
structure Sender where
  request : AddFiles := {}
  size : Nat := 0
  files : List ClientFile := []
  dirs : List (Str × Nat) := []
  sent : List AddFiles := []

/-- An entry found by the search of one of the sources, with the source's base directory (file_finder_and_sender.cc:121-131). -/
structure Entry where
  base : Str
  found : Found
deriving DecidableEq, Repr

/-- The sender's settings: the platform of the client, the path filter, the size limit. -/
structure SendCfg where
  windows : Bool
  filter : Str → Bool
  threshold : Nat

/-- `SendFilesAndDirs`, file_finder_and_sender.cc:232-246. -/
def Sender.send (s : Sender) : Sender :=
  if s.request.files = [] ∧ s.request.dirs = [] then s
  else { s with sent := s.sent ++ [s.request], request := { s.request with files := [], dirs := [] }, size := s.request.directory.length }

/-- `Join(relative_dir, filename)`. -/
def Entry.rel (windows : Bool) (e : Entry) : Str := Text.Path.join windows (e.found.dir.drop e.base.length) e.found.name
/-- `Join(dir, filename)`. -/
def Entry.full (windows : Bool) (e : Entry) : Str := Text.Path.join windows e.found.dir e.found.name

/-- `HandleFoundFileOrDir`, file_finder_and_sender.cc:174-230. `none` is the exception thrown by `substr`. -/
def Sender.handle (cfg : SendCfg) (s : Sender) (e : Entry) : Option Sender :=
  if e.found.dir.length < e.base.length then none else
  let relDir := e.found.dir.drop e.base.length
  if ! cfg.filter (e.rel cfg.windows) then some s else
  let s := if s.request.directory ≠ relDir then
      let s := s.send
      { s with request := { s.request with directory := relDir }, size := relDir.length }
    else s
  let s := if e.found.isDir then
      { s with dirs := s.dirs ++ [(e.full cfg.windows, e.base.length)], request := { s.request with dirs := s.request.dirs ++ [e.found.name] },
               size := s.size + e.found.name.length }
    else
      { s with files := s.files ++ [⟨e.full cfg.windows, e.found.size, e.base.length⟩],
               request := { s.request with files := s.request.files ++ [(e.found.name, e.found.mtime, e.found.size)] },
               size := s.size + e.found.name.length + 16 }
  some (if s.size ≥ cfg.threshold then s.send else s)

def Sender.handleAll (cfg : SendCfg) (s : Sender) : List Entry → Option Sender
  | [] => some s
  | e :: l => (s.handle cfg e).bind fun s => Sender.handleAll cfg s l

/-- `Flush`, file_finder_and_sender.cc:149-164. -/
def Sender.flush (s : Sender) : Sender :=
  let s := s.send
  { s with sent := s.sent ++ [s.request] }

/-- The whole run (cdc_rsync_client.cc:505-540): all sources, then flush. -/
def findAndSend (cfg : SendCfg) (l : List Entry) : Option Sender := (Sender.handleAll cfg {} l).map Sender.flush

/-- `HandleSendAllFiles`, cdc_rsync_server.cc:478-511, on the stream of messages: the client's files and directories, and the rest of
the stream. `none`: the stream ends too early. -/
def recvFiles (files : List File) (dirs : List Dir) : List AddFiles → Option (List File × List Dir × List AddFiles)
  | [] => none
  | m :: l =>
    if m.files = [] ∧ m.dirs = [] then some (files, dirs, l) else
    let dir := Text.Path.toNative false m.directory
    recvFiles
      (m.files.foldl (fun fs f => fs ++ [⟨Text.Path.join false dir f.1, f.2.1, f.2.2, fs.length, .none⟩]) files)
      (m.dirs.foldl (fun ds d => ds ++ [⟨Text.Path.join false dir d, ds.length, .none⟩]) dirs) l

/-! ### Specification -/

/-- Entries that pass the filter, in the order found. -/
def selected (cfg : SendCfg) (dir : Bool) (l : List Entry) : List Entry :=
  l.filter fun e => cfg.filter (e.rel cfg.windows) && (e.found.isDir == dir)

/-- The server's name for an entry: directory relative to the base directory, with slashes, then the name. -/
def Entry.serverPath (e : Entry) : Str :=
  Text.Path.join false (Text.Path.toNative false (e.found.dir.drop e.base.length)) e.found.name

/-! ### Proof -/

theorem foldl_files (dir : Str) (l : List (Str × Int × Nat)) (files : List File) :
    l.foldl (fun fs f => fs ++ [(⟨Text.Path.join false dir f.1, f.2.1, f.2.2, fs.length, .none⟩ : File)]) files =
    files ++ l.mapIdx fun i f => ⟨Text.Path.join false dir f.1, f.2.1, f.2.2, files.length + i, .none⟩ := by
  induction l generalizing files with
  | nil => simp
  | cons f l ih =>
    rw [List.foldl_cons, ih]
    simp [List.mapIdx_cons, List.append_assoc, Nat.add_assoc, Nat.add_comm 1]

theorem foldl_dirs (dir : Str) (l : List Str) (dirs : List Dir) :
    l.foldl (fun fs f => fs ++ [(⟨Text.Path.join false dir f, fs.length, .none⟩ : Dir)]) dirs =
    dirs ++ l.mapIdx fun i f => ⟨Text.Path.join false dir f, dirs.length + i, .none⟩ := by
  induction l generalizing dirs with
  | nil => simp
  | cons f l ih =>
    rw [List.foldl_cons, ih]
    simp [List.mapIdx_cons, List.append_assoc, Nat.add_assoc, Nat.add_comm 1]

theorem mapIdx_map' {α β γ : Type} (g : α → β) (l : List α) (f : Nat → β → γ) : (l.map g).mapIdx f = l.mapIdx fun i a => f i (g a) := by
  induction l generalizing f with
  | nil => rfl
  | cons a l ih => simp [List.mapIdx_cons, ih]

/-- What the server adds for one message. -/
def filesOf (m : AddFiles) : List (Str × Int × Nat) :=
  m.files.map fun f => (Text.Path.join false (Text.Path.toNative false m.directory) f.1, f.2.1, f.2.2)
def dirsOf (m : AddFiles) : List Str := m.dirs.map fun d => Text.Path.join false (Text.Path.toNative false m.directory) d

/-- Numbers the elements. -/
def numberFiles (l : List (Str × Int × Nat)) : List File := l.mapIdx fun i f => ⟨f.1, f.2.1, f.2.2, i, .none⟩
def numberDirs (l : List Str) : List Dir := l.mapIdx fun i d => ⟨d, i, .none⟩

theorem recvFiles_spec (ms : List AddFiles) (hne : ∀ m ∈ ms, ¬ (m.files = [] ∧ m.dirs = [])) (eof : AddFiles) (he : eof.files = [] ∧ eof.dirs = [])
    (rest : List AddFiles) : ∀ (fs : List (Str × Int × Nat)) (ds : List Str), recvFiles (numberFiles fs) (numberDirs ds) (ms ++ eof :: rest) =
      some (numberFiles (fs ++ ms.flatMap filesOf), numberDirs (ds ++ ms.flatMap dirsOf), rest) := by
  induction ms with
  | nil => intro fs ds; simp [recvFiles, he]
  | cons m ms ih =>
    intro fs ds
    rw [List.cons_append]
    unfold recvFiles
    rw [if_neg (hne m (by simp))]
    dsimp only
    rw [foldl_files, foldl_dirs]
    have e1 : numberFiles fs ++ m.files.mapIdx (fun i f => (⟨Text.Path.join false (Text.Path.toNative false m.directory) f.1, f.2.1, f.2.2,
        (numberFiles fs).length + i, .none⟩ : File)) = numberFiles (fs ++ filesOf m) := by
      simp only [numberFiles, filesOf, List.mapIdx_append, List.length_mapIdx, mapIdx_map', Nat.add_comm]
    have e2 : numberDirs ds ++ m.dirs.mapIdx (fun i f => (⟨Text.Path.join false (Text.Path.toNative false m.directory) f,
        (numberDirs ds).length + i, .none⟩ : Dir)) = numberDirs (ds ++ dirsOf m) := by
      simp only [numberDirs, dirsOf, List.mapIdx_append, List.length_mapIdx, mapIdx_map', Nat.add_comm]
    rw [e1, e2, ih fun m hm => hne m (by simp [hm])]
    simp [List.append_assoc]

/-- What a sender state stands for. -/
structure SenderInv (cfg : SendCfg) (done : List Entry) (s : Sender) : Prop where
  files : s.files = (selected cfg false done).map fun e => ⟨e.full cfg.windows, e.found.size, e.base.length⟩
  dirs : s.dirs = (selected cfg true done).map fun e => (e.full cfg.windows, e.base.length)
  msgFiles : (s.sent ++ [s.request]).flatMap filesOf = (selected cfg false done).map fun e => (e.serverPath, e.found.mtime, e.found.size)
  msgDirs : (s.sent ++ [s.request]).flatMap dirsOf = (selected cfg true done).map Entry.serverPath
  nonempty : ∀ m ∈ s.sent, ¬ (m.files = [] ∧ m.dirs = [])

theorem filesOf_empty (d : Str) : filesOf { directory := d, files := [], dirs := [] } = [] := rfl
theorem dirsOf_empty (d : Str) : dirsOf { directory := d, files := [], dirs := [] } = [] := rfl

theorem SenderInv.send {cfg : SendCfg} {done : List Entry} {s : Sender} (h : SenderInv cfg done s) : SenderInv cfg done s.send := by
  unfold Sender.send
  split
  · exact h
  · next hn =>
    refine { files := h.files, dirs := h.dirs, msgFiles := ?_, msgDirs := ?_, nonempty := ?_ }
    · have := h.msgFiles
      simp only [List.flatMap_append, List.flatMap_cons, List.flatMap_nil, List.append_nil] at this ⊢
      rw [filesOf_empty, List.append_nil]; exact this
    · have := h.msgDirs
      simp only [List.flatMap_append, List.flatMap_cons, List.flatMap_nil, List.append_nil] at this ⊢
      rw [dirsOf_empty, List.append_nil]; exact this
    · intro m hm
      rcases List.mem_append.mp hm with hm | hm
      · exact h.nonempty m hm
      · simp only [List.mem_singleton] at hm; subst hm; exact hn

theorem send_empty (s : Sender) : s.send.request.files = [] ∧ s.send.request.dirs = [] ∧ s.send.request.directory = s.request.directory := by
  unfold Sender.send
  split
  · next h => exact ⟨h.1, h.2, rfl⟩
  · exact ⟨rfl, rfl, rfl⟩

theorem SenderInv.setDir {cfg : SendCfg} {done : List Entry} {s : Sender} (h : SenderInv cfg done s) (d : Str) (n : Nat)
    (he : s.request.files = [] ∧ s.request.dirs = []) : SenderInv cfg done { s with request := { s.request with directory := d }, size := n } := by
  have e1 : filesOf { s.request with directory := d } = filesOf s.request := by simp [filesOf, he.1]
  have e2 : dirsOf { s.request with directory := d } = dirsOf s.request := by simp [dirsOf, he.2]
  refine { files := h.files, dirs := h.dirs, msgFiles := ?_, msgDirs := ?_, nonempty := h.nonempty }
  · have := h.msgFiles
    simp only [List.flatMap_append, List.flatMap_cons, List.flatMap_nil, List.append_nil] at this ⊢
    rw [e1]; exact this
  · have := h.msgDirs
    simp only [List.flatMap_append, List.flatMap_cons, List.flatMap_nil, List.append_nil] at this ⊢
    rw [e2]; exact this

theorem selected_snoc_in {cfg : SendCfg} {done : List Entry} {e : Entry} {b : Bool} (h : cfg.filter (e.rel cfg.windows) = true) (hb : e.found.isDir = b) :
    selected cfg b (done ++ [e]) = selected cfg b done ++ [e] := by
  unfold selected
  rw [List.filter_append]
  simp [h, hb]
theorem selected_snoc_out {cfg : SendCfg} {done : List Entry} {e : Entry} {b : Bool}
    (h : cfg.filter (e.rel cfg.windows) = false ∨ e.found.isDir ≠ b) : selected cfg b (done ++ [e]) = selected cfg b done := by
  unfold selected
  rw [List.filter_append]
  rcases h with h | h <;> simp [h]

theorem SenderInv.handle {cfg : SendCfg} {done : List Entry} {s : Sender} (h : SenderInv cfg done s) {e : Entry} (hl : e.base.length ≤ e.found.dir.length) :
    ∃ s', s.handle cfg e = some s' ∧ SenderInv cfg (done ++ [e]) s' := by
  unfold Sender.handle
  rw [if_neg (show ¬ e.found.dir.length < e.base.length by omega)]
  dsimp only
  by_cases hf : cfg.filter (e.rel cfg.windows) = true
  · rw [if_neg (by simp [hf])]
    refine ⟨_, rfl, ?_⟩
    have hs : ∃ s1 : Sender, s1 = (if s.request.directory ≠ e.found.dir.drop e.base.length then
        { s.send with request := { s.send.request with directory := e.found.dir.drop e.base.length }, size := (e.found.dir.drop e.base.length).length } else s) ∧
        SenderInv cfg done s1 ∧ s1.request.directory = e.found.dir.drop e.base.length := by
      refine ⟨_, rfl, ?_⟩
      split
      · obtain ⟨h1, h2, -⟩ := send_empty s
        exact ⟨h.send.setDir _ _ ⟨h1, h2⟩, rfl⟩
      · next hne => exact ⟨h, Classical.not_not.mp hne⟩
    obtain ⟨s1, he1, h1, hd1⟩ := hs
    rw [← he1]
    have hfin : ∀ s2 : Sender, SenderInv cfg (done ++ [e]) s2 → SenderInv cfg (done ++ [e]) (if s2.size ≥ cfg.threshold then s2.send else s2) := by
      intro s2 h2; split
      · exact h2.send
      · exact h2
    apply hfin
    by_cases hd : e.found.isDir = true
    · rw [if_pos hd]
      refine { files := ?_, dirs := ?_, msgFiles := ?_, msgDirs := ?_, nonempty := h1.nonempty }
      · rw [selected_snoc_out (.inr (by simp [hd]))]; exact h1.files
      · rw [selected_snoc_in hf hd, List.map_append, ← h1.dirs]; rfl
      · rw [selected_snoc_out (.inr (by simp [hd])), ← h1.msgFiles]; simp [List.flatMap_append, filesOf]
      · rw [selected_snoc_in hf hd, List.map_append, ← h1.msgDirs]
        simp [List.flatMap_append, dirsOf, hd1, Entry.serverPath]
    · have hd' : e.found.isDir = false := by simpa using hd
      rw [if_neg hd]
      refine { files := ?_, dirs := ?_, msgFiles := ?_, msgDirs := ?_, nonempty := h1.nonempty }
      · rw [selected_snoc_in hf hd', List.map_append, ← h1.files]; rfl
      · rw [selected_snoc_out (.inr (by simp [hd']))]; exact h1.dirs
      · rw [selected_snoc_in hf hd', List.map_append, ← h1.msgFiles]
        simp [List.flatMap_append, filesOf, hd1, Entry.serverPath]
      · rw [selected_snoc_out (.inr (by simp [hd'])), ← h1.msgDirs]; simp [List.flatMap_append, dirsOf]
  · have hf' : cfg.filter (e.rel cfg.windows) = false := by simpa using hf
    rw [if_pos (by simp [hf'])]
    refine ⟨s, rfl, ?_⟩
    refine { files := ?_, dirs := ?_, msgFiles := ?_, msgDirs := ?_, nonempty := h.nonempty } <;>
      rw [selected_snoc_out (.inl hf')]
    exacts [h.files, h.dirs, h.msgFiles, h.msgDirs]

theorem SenderInv.handleAll {cfg : SendCfg} {l done : List Entry} {s : Sender} (h : SenderInv cfg done s)
    (hl : ∀ e ∈ l, e.base.length ≤ e.found.dir.length) : ∃ s', Sender.handleAll cfg s l = some s' ∧ SenderInv cfg (done ++ l) s' := by
  induction l generalizing s done with
  | nil => exact ⟨s, rfl, by simpa using h⟩
  | cons e l ih =>
    obtain ⟨s1, e1, h1⟩ := h.handle (hl e (by simp))
    obtain ⟨s2, e2, h2⟩ := ih h1 fun x hx => hl x (by simp [hx])
    exact ⟨s2, by rw [Sender.handleAll, e1]; exact e2, by simpa using h2⟩

/-- C37: the server receives exactly the list of files (and of directories) the client found and did not filter out, in the same
order, whatever the size limit and however directories follow each other; the server's i-th file is the client's i-th file.
The server stops reading after the last of these messages. -/
theorem C37_file_list (cfg : SendCfg) (l : List Entry) (rest : List AddFiles) (hl : ∀ e ∈ l, e.base.length ≤ e.found.dir.length) :
    ∃ s, findAndSend cfg l = some s ∧
      s.files = (selected cfg false l).map (fun e => ⟨e.full cfg.windows, e.found.size, e.base.length⟩) ∧
      s.dirs = (selected cfg true l).map (fun e => (e.full cfg.windows, e.base.length)) ∧
      recvFiles [] [] (s.sent ++ rest) = some
        ((selected cfg false l).mapIdx fun i e => ⟨e.serverPath, e.found.mtime, e.found.size, i, .none⟩,
         (selected cfg true l).mapIdx fun i e => ⟨e.serverPath, i, .none⟩, rest) := by
  have h0 : SenderInv cfg [] {} := ⟨rfl, rfl, rfl, rfl, by simp⟩
  obtain ⟨s, hs, h⟩ := h0.handleAll hl
  rw [List.nil_append] at h
  refine ⟨s.flush, by rw [findAndSend, hs]; rfl, h.send.files, h.send.dirs, ?_⟩
  obtain ⟨he1, he2, -⟩ := send_empty s
  have := recvFiles_spec s.send.sent h.send.nonempty s.send.request ⟨he1, he2⟩ rest [] []
  have hm1 := h.send.msgFiles
  have hm2 := h.send.msgDirs
  rw [List.flatMap_append] at hm1 hm2
  have e1 : [s.send.request].flatMap filesOf = [] := by simp [filesOf, he1]
  have e2 : [s.send.request].flatMap dirsOf = [] := by simp [dirsOf, he2]
  rw [e1, List.append_nil] at hm1
  rw [e2, List.append_nil] at hm2
  rw [hm1, hm2] at this
  show recvFiles [] [] (s.send.sent ++ [s.send.request] ++ rest) = _
  rw [List.append_assoc, List.singleton_append]
  refine this.trans ?_
  simp [numberFiles, numberDirs, mapIdx_map', Function.comp_def]

/-! ## Index lists -/

/-- The batch size, cdc_rsync_server.cc:614. -/
def maxBatch : Nat := 4000

/-- `SendFileIndices`, cdc_rsync_server.cc:602-642: the messages sent. -/
def sendIndices (batch : List Nat) : List Nat → List (List Nat)
  | [] => (if batch = [] then [] else [batch]) ++ [[]]
  | i :: l =>
    let batch := batch ++ [i]
    if batch.length ≥ maxBatch then batch :: sendIndices [] l else sendIndices batch l

/-- `ReceiveFileIndices`, cdc_rsync_client.cc:590-622: the indices and the rest of the stream, or an error if an index is too large.
`none`: the stream ends too early. -/
def recvIndices (numFiles : Nat) (got : List Nat) : List (List Nat) → Option (Except Unit (List Nat) × List (List Nat))
  | [] => none
  | m :: l =>
    if m = [] then some (if got.all (· < numFiles) then .ok got else .error (), l)
    else recvIndices numFiles (got ++ m) l

theorem recvIndices_send (n : Nat) (rest : List (List Nat)) : ∀ (l batch got : List Nat),
    recvIndices n got (sendIndices batch l ++ rest) =
      some (if (got ++ batch ++ l).all (· < n) then .ok (got ++ batch ++ l) else .error (), rest) := by
  intro l
  induction l with
  | nil =>
    intro batch got
    unfold sendIndices
    split
    · next h => subst h; simp [recvIndices]
    · next h => simp [recvIndices, h]
  | cons i l ih =>
    intro batch got
    unfold sendIndices
    dsimp only
    split
    · rw [List.cons_append]
      unfold recvIndices
      rw [if_neg (by simp), ih]
      simp [List.append_assoc]
    · rw [ih]
      simp [List.append_assoc]

theorem sendIndices_sizes : ∀ (l batch : List Nat), batch.length < maxBatch → ∀ m ∈ sendIndices batch l, m.length ≤ maxBatch := by
  intro l
  induction l with
  | nil =>
    intro batch hb m hm
    unfold sendIndices at hm
    split at hm <;> simp at hm
    · subst hm; simp
    · rcases hm with rfl | rfl
      · omega
      · simp
  | cons i l ih =>
    intro batch hb m hm
    unfold sendIndices at hm
    dsimp only at hm
    split at hm
    · rcases List.mem_cons.mp hm with rfl | hm
      · simp; omega
      · exact ih [] (by decide) m hm
    · next h =>
      refine ih _ ?_ m hm
      omega

/-- C37: the client receives exactly the indices sent, in order, in messages of at most 4000, and stops reading after the last of
these messages. Indices of files it does not have are reported as an error. -/
theorem C37_indices (numFiles : Nat) (l : List Nat) (rest : List (List Nat)) :
    (∀ m ∈ sendIndices [] l, m.length ≤ 4000) ∧
    ((∀ i ∈ l, i < numFiles) → recvIndices numFiles [] (sendIndices [] l ++ rest) = some (.ok l, rest)) ∧
    ((∃ i ∈ l, numFiles ≤ i) → recvIndices numFiles [] (sendIndices [] l ++ rest) = some (.error (), rest)) := by
  refine ⟨sendIndices_sizes l [] (by decide), fun h => ?_, ?_⟩
  · rw [recvIndices_send, if_pos]
    · simp
    · simpa using h
  · rintro ⟨i, hi, hn⟩
    rw [recvIndices_send, if_neg]
    simp only [List.nil_append, List.all_eq_true, decide_eq_true_eq]
    intro h
    have := h i hi
    omega

/-! ## Deleted files -/

/-- `AddDeletedFilesResponse`. -/
structure Deleted where
  directory : Str := []
  files : List Str := []
  dirs : List Str := []
deriving DecidableEq, Repr

structure Deleter where
  response : Deleted := {}
  size : Nat := 0
  sent : List Deleted := []

/-- `SendFilesAndDirs`, file_deleter_and_sender.cc:96-109. -/
def Deleter.send (s : Deleter) : Deleter :=
  if s.response.files = [] ∧ s.response.dirs = [] then s
  else { sent := s.sent ++ [s.response], response := {}, size := 0 }

/-- The messages of `DeleteAndSendFileOrDir`, file_deleter_and_sender.cc:45-74, for a relative path. -/
def Deleter.add (threshold : Nat) (s : Deleter) (path : Str) (isDir : Bool) : Deleter :=
  let dir := Text.Path.dirName path
  let dir := if dir ≠ [] then Text.Path.ensureEndsWithSep false dir else dir
  let s := if s.response.directory ≠ dir then
      let s := s.send
      { s with response := { s.response with directory := dir }, size := dir.length }
    else s
  let name := Text.Path.baseName path
  let s : Deleter := if isDir then { s with response := { s.response with dirs := s.response.dirs ++ [name] }, size := s.size + name.length }
    else { s with response := { s.response with files := s.response.files ++ [name] }, size := s.size + name.length }
  if s.size ≥ threshold then s.send else s

/-- `Flush`, file_deleter_and_sender.cc:79-94. -/
def Deleter.flush (s : Deleter) : List Deleted := let s := s.send; s.sent ++ [s.response]

/-- The messages for a sequence of deletions. -/
def deletionMessages (threshold : Nat) (ops : List (Str × Bool)) : List Deleted :=
  (ops.foldl (fun s op => s.add threshold op.1 op.2) ({} : Deleter)).flush

/-- `ReceiveDeletedFiles`, cdc_rsync_client.cc:559-588: the paths reported as deleted and the rest of the stream. -/
def recvDeleted (got : List (Str × Bool)) : List Deleted → Option (List (Str × Bool) × List Deleted)
  | [] => none
  | m :: l =>
    if m.files = [] ∧ m.dirs = [] then some (got, l) else
    recvDeleted (got ++ m.files.map (fun f => (m.directory ++ f, false)) ++ m.dirs.map (fun d => (m.directory ++ d, true))) l

/-- What the client reports for a message. -/
def reports (m : Deleted) : List (Str × Bool) := m.files.map (fun f => (m.directory ++ f, false)) ++ m.dirs.map (fun d => (m.directory ++ d, true))

theorem recvDeleted_spec (ms : List Deleted) (hne : ∀ m ∈ ms, ¬ (m.files = [] ∧ m.dirs = [])) (eof : Deleted) (he : eof.files = [] ∧ eof.dirs = [])
    (rest : List Deleted) : ∀ got, recvDeleted got (ms ++ eof :: rest) = some (got ++ ms.flatMap reports, rest) := by
  induction ms with
  | nil => intro got; simp [recvDeleted, he]
  | cons m ms ih =>
    intro got
    rw [List.cons_append]
    unfold recvDeleted
    rw [if_neg (hne m (by simp)), ih fun m hm => hne m (by simp [hm])]
    simp [reports, List.append_assoc]

/-- A path as found by a search: non-empty names without slash or backslash, joined by slashes. -/
def Plain (p : Str) : Prop := ∃ d n : Str, n ≠ [] ∧ Text.Path.NoSep n ∧ ((d = [] ∧ p = n) ∨ (p = d ++ 47 :: n ∧ d ≠ [] ∧ ∀ c, d.getLast? = some c → Text.Path.isSep c = false))

theorem plain_split {p : Str} (h : Plain p) :
    (if Text.Path.dirName p ≠ [] then Text.Path.ensureEndsWithSep false (Text.Path.dirName p) else Text.Path.dirName p) ++ Text.Path.baseName p = p := by
  obtain ⟨d, n, hn, hns, (⟨rfl, rfl⟩ | ⟨rfl, hd, hl⟩)⟩ := h
  · have h1 := Text.Path.dirName_parts (drive := []) (d := []) (m := []) (n := p) (t := []) (by intro c hc; cases hc) hns (by intro c hc; cases hc) hn
      (fun _ => rfl) (by simp)
    have h2 := Text.Path.baseName_parts (d := []) (m := []) (n := p) (t := []) (by intro c hc; cases hc) hns (by intro c hc; cases hc) hn (fun _ => rfl)
    simp only [List.nil_append, List.append_nil, if_true] at h1 h2
    unfold Text.Path.dirName
    rw [h1, h2]; simp
  · have hm : Text.Path.AllSep [47] := by intro c hc; simp only [List.mem_singleton] at hc; subst hc; rfl
    have h1 := Text.Path.dirName_parts (drive := []) (d := d) (m := [47]) (n := n) (t := []) (by intro c hc; cases hc) hns hm hn (by simp) hl
    have h2 := Text.Path.baseName_parts (d := d) (m := [47]) (n := n) (t := []) (by intro c hc; cases hc) hns hm hn (by simp)
    simp only [List.nil_append, List.append_nil, if_neg hd, List.singleton_append] at h1 h2
    unfold Text.Path.dirName
    rw [h1, h2, if_pos hd]
    unfold Text.Path.ensureEndsWithSep
    have : Text.Path.endsWithSep d = false := by
      unfold Text.Path.endsWithSep
      cases hg : d.getLast? with
      | none => rfl
      | some c => exact hl c hg
    rw [this]
    simp [Text.Path.native]

structure DeleterInv (done : List (Str × Bool)) (s : Deleter) : Prop where
  files : ((s.sent ++ [s.response]).flatMap reports).filter (fun r => ! r.2) = done.filter fun r => ! r.2
  dirs : ((s.sent ++ [s.response]).flatMap reports).filter (fun r => r.2) = done.filter fun r => r.2
  nonempty : ∀ m ∈ s.sent, ¬ (m.files = [] ∧ m.dirs = [])

theorem DeleterInv.send {done : List (Str × Bool)} {s : Deleter} (h : DeleterInv done s) :
    DeleterInv done s.send ∧ s.send.response.files = [] ∧ s.send.response.dirs = [] := by
  unfold Deleter.send
  split
  · next he => exact ⟨h, he.1, he.2⟩
  · next hn =>
    refine ⟨{ files := ?_, dirs := ?_, nonempty := ?_ }, rfl, rfl⟩
    · rw [← h.files]; simp [List.flatMap_append, reports]
    · rw [← h.dirs]; simp [List.flatMap_append, reports]
    · intro m hm
      rcases List.mem_append.mp hm with hm | hm
      · exact h.nonempty m hm
      · simp only [List.mem_singleton] at hm; subst hm; exact hn

theorem DeleterInv.add {done : List (Str × Bool)} {s : Deleter} (h : DeleterInv done s) (threshold : Nat) {p : Str} (hp : Plain p) (isDir : Bool) :
    DeleterInv (done ++ [(p, isDir)]) (s.add threshold p isDir) := by
  unfold Deleter.add
  dsimp only
  generalize hdir : (if Text.Path.dirName p ≠ [] then Text.Path.ensureEndsWithSep false (Text.Path.dirName p) else Text.Path.dirName p) = dir
  have hpath := plain_split hp
  rw [hdir] at hpath
  have hs : ∃ s1 : Deleter, s1 = (if s.response.directory ≠ dir then
      { s.send with response := { s.send.response with directory := dir }, size := dir.length } else s) ∧
      DeleterInv done s1 ∧ s1.response.directory = dir := by
    refine ⟨_, rfl, ?_⟩
    split
    · obtain ⟨h1, h2, h3⟩ := h.send
      refine ⟨{ files := ?_, dirs := ?_, nonempty := h1.nonempty }, rfl⟩
      · rw [← h1.files]; simp [List.flatMap_append, reports, h2, h3]
      · rw [← h1.dirs]; simp [List.flatMap_append, reports, h2, h3]
    · next hne => exact ⟨h, Classical.not_not.mp hne⟩
  obtain ⟨s1, he1, h1, hd1⟩ := hs
  rw [← he1]
  have hfin : ∀ s2 : Deleter, DeleterInv (done ++ [(p, isDir)]) s2 → DeleterInv (done ++ [(p, isDir)]) (if s2.size ≥ threshold then s2.send else s2) := by
    intro s2 h2; split
    · exact h2.send.1
    · exact h2
  apply hfin
  cases isDir with
  | true =>
    refine { files := ?_, dirs := ?_, nonempty := h1.nonempty }
    · rw [List.filter_append, ← h1.files]
      simp [List.flatMap_append, reports]
    · rw [List.filter_append, ← h1.dirs]
      simp [List.flatMap_append, reports, hd1, hpath]
  | false =>
    refine { files := ?_, dirs := ?_, nonempty := h1.nonempty }
    · have e : (s1.response.dirs.map fun d => (dir ++ d, true)).filter (fun r => ! r.2) = [] := by
        simp
      rw [List.filter_append, ← h1.files]
      simp [List.flatMap_append, reports, hd1, hpath, e]
    · rw [List.filter_append, ← h1.dirs]
      simp [List.flatMap_append, reports]

/-- C36: the client is told exactly the deleted paths: the files in the order of their deletion and the directories in the order of
theirs, whatever the size limit, and stops reading after the last of these messages. -/
theorem C36_client_told (threshold : Nat) (ops : List (Str × Bool)) (hp : ∀ op ∈ ops, Plain op.1) (rest : List Deleted) :
    ∃ got, recvDeleted [] (deletionMessages threshold ops ++ rest) = some (got, rest) ∧
      got.filter (fun r => ! r.2) = ops.filter (fun r => ! r.2) ∧ got.filter (fun r => r.2) = ops.filter (fun r => r.2) := by
  have hinv : ∀ (l done : List (Str × Bool)) (s : Deleter), DeleterInv done s → (∀ op ∈ l, Plain op.1) →
      DeleterInv (done ++ l) (l.foldl (fun s op => s.add threshold op.1 op.2) s) := by
    intro l
    induction l with
    | nil => intro done s h _; simpa using h
    | cons op l ih =>
      intro done s h hl
      rw [List.foldl_cons]
      have := ih (done ++ [op]) _ (h.add threshold (hl op (by simp)) op.2) fun x hx => hl x (by simp [hx])
      simpa using this
  have h := hinv ops [] {} ⟨rfl, rfl, by simp⟩ hp
  rw [List.nil_append] at h
  obtain ⟨h1, h2, h3⟩ := h.send
  unfold deletionMessages Deleter.flush
  dsimp only
  rw [List.append_assoc, List.singleton_append, recvDeleted_spec _ h1.nonempty _ ⟨h2, h3⟩]
  have e : ∀ s : Deleter, s.response.files = [] → s.response.dirs = [] → (s.sent ++ [s.response]).flatMap reports = s.sent.flatMap reports := by
    intro s e1 e2; simp [List.flatMap_append, reports, e1, e2]
  refine ⟨_, rfl, ?_, ?_⟩
  · rw [List.nil_append, ← e _ h2 h3]; exact h1.files
  · rw [List.nil_append, ← e _ h2 h3]; exact h1.dirs

/-! ## Instances -/

namespace BatchExample
/-- Two sources; the limit of 20 bytes forces a message in the middle of a directory; `d` is excluded. -/
def cfg : SendCfg := ⟨true, fun p => p != [115, 92, 100], 20⟩
def l : List Entry :=
  [⟨[67, 58, 92], ⟨[67, 58, 92], [97], 5, 1, false⟩⟩, ⟨[67, 58, 92], ⟨[67, 58, 92, 115, 92], [98], 6, 2, false⟩⟩,
   ⟨[67, 58, 92], ⟨[67, 58, 92, 115, 92], [99], 7, 3, false⟩⟩, ⟨[67, 58, 92], ⟨[67, 58, 92, 115, 92], [100], 7, 3, false⟩⟩,
   ⟨[120, 92], ⟨[120, 92], [101], 0, 0, true⟩⟩]
example : ∀ e ∈ l, e.base.length ≤ e.found.dir.length := by decide
example : ((findAndSend cfg l).map fun s => s.sent.map fun m => (m.directory, m.files.length, m.dirs.length)) =
    some [([], 1, 0), ([115, 92], 2, 0), ([], 0, 1), ([], 0, 0)] := by decide
example : ((findAndSend cfg l).bind fun s => recvFiles [] [] s.sent).map (fun r => (r.1.map File.path, r.2.1.map Dir.path)) =
    some ([[97], [115, 47, 98], [115, 47, 99]], [[101]]) := by decide
example : sendIndices [] [3, 1, 2] = [[3, 1, 2], []] := by decide
def ops : List (Str × Bool) := [([97], false), ([115, 47, 98], false), ([115, 47, 116], true), ([115], true)]
example : ∀ op ∈ ops, Plain op.1 := by
  intro op hop
  simp only [ops, List.mem_cons, List.not_mem_nil, or_false] at hop
  have hn : ∀ c : UInt8, Text.Path.isSep c = false → Text.Path.NoSep [c] := fun c hc x hx => by
    simp only [List.mem_singleton] at hx; subst hx; exact hc
  rcases hop with rfl | rfl | rfl | rfl
  · exact ⟨[], _, by simp, hn _ rfl, .inl ⟨rfl, rfl⟩⟩
  · exact ⟨[115], [98], by simp, hn _ rfl, .inr ⟨rfl, by simp, by simp; rfl⟩⟩
  · exact ⟨[115], [116], by simp, hn _ rfl, .inr ⟨rfl, by simp, by simp; rfl⟩⟩
  · exact ⟨[], _, by simp, hn _ rfl, .inl ⟨rfl, rfl⟩⟩
example : (recvDeleted [] (deletionMessages 3 ops)).map (·.1) = some ops := by decide
end BatchExample

end Verif.Sync
