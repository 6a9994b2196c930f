import Verif.Sync.Batch
import Verif.Delta.Props
import Verif.Manifest.Chunks
import Verif.Pump.Model

/-! # C186: every message of a sync fits into a packet

The message pump refuses messages of 16 MiB and more (message_pump.cc:36-43), and a refused message ends the sync. The senders only
look at rough counts of what they have put into a message: the length of names (file_finder_and_sender.cc:178-230,
file_deleter_and_sender.cc:45-74), the number of indices (cdc_rsync_server.cc:602-642) or signatures (cdc_interface.cc:443-471), 13
bytes per patch command (cdc_interface.cc:321-388). Here the size of the message on the wire is computed as protobuf computes it
(protos/messages.proto:65-187), and shown to fit, whatever is sent.

Not covered: the options (`SetOptionsRequest`), which hold whatever was given on the command line; messages with a fixed number of
numbers. -/
namespace Verif.Sync
open Verif.Text.Path (Str)
open Verif.Manifest (varintLen lenField bytesField intField)

/-! ## Specification: sizes on the wire -/

/-- The pump accepts a message of `n` bytes. -/
def Fits (n : Nat) : Prop := ∀ p : Pump.Packet, p.data.length = n → Pump.serialize p ≠ none

/-- `int64` on the wire: two's complement. -/
def wire64 (i : Int) : Nat := (i % 2 ^ 64).toNat

def total (l : List Nat) : Nat := l.foldr (· + ·) 0

/-- `AddFilesRequest::File`, messages.proto:66-73. -/
def fileBytes (f : Str × Int × Nat) : Nat := bytesField f.1.length + intField (wire64 f.2.1) + intField f.2.2
/-- `AddFilesRequest`, messages.proto:65-83. -/
def AddFiles.bytes (m : AddFiles) : Nat :=
  bytesField m.directory.length + total (m.files.map fun f => lenField (fileBytes f)) + total (m.dirs.map fun d => lenField d.length)
/-- `AddDeletedFilesResponse`, messages.proto:178-187. -/
def Deleted.bytes (m : Deleted) : Nat :=
  bytesField m.directory.length + total (m.files.map fun f => lenField f.length) + total (m.dirs.map fun d => lenField d.length)
/-- `AddFileIndicesResponse`, messages.proto:119-122: packed. -/
def indicesBytes (l : List Nat) : Nat := bytesField (total (l.map varintLen))
/-- `AddSignaturesResponse`, messages.proto:143-149, with hashes of 16 bytes (cdc_interface.cc:61-75). -/
def sigBytes {α : Type} (m : Delta.SigMsg α) : Nat := bytesField (total (m.map fun s => varintLen s.1)) + bytesField (16 * m.length)
/-- `AddPatchCommandsRequest::Source`, messages.proto:154-162. -/
def srcCode : Delta.Src → Nat
  | .data => 0
  | .basis => 1
  | .other n => wire64 n
/-- `AddPatchCommandsRequest`, messages.proto:153-175. -/
def patchBytes (r : Delta.WireReq) : Nat :=
  bytesField (total (r.sources.map fun s => varintLen (srcCode s))) + bytesField (total (r.offsets.map fun o => varintLen o.toNat)) +
  bytesField (total (r.sizes.map fun o => varintLen o.toNat)) + bytesField r.data.length

/-- Limit on names and directories; file systems of Windows and Linux have far lower ones. -/
def nameLimit : Nat := 2 ^ 20

/-! ## Arithmetic -/

theorem fits_of_le {n : Nat} (h : n ≤ 16777215) : Fits n := by
  intro p hp
  unfold Pump.serialize
  rw [if_neg (by unfold Pump.maxPacketSize; omega)]
  simp

theorem varint10 {n : Nat} (h : n < 2 ^ 64) : varintLen n ≤ 10 :=
  Manifest.varintLen_le 9 n (Nat.lt_of_lt_of_le h (by decide))
theorem lenField_le {n : Nat} (h : n < 2 ^ 64) : lenField n ≤ n + 11 := by
  have := varint10 h; unfold lenField; omega
theorem bytesField_le {n : Nat} (h : n < 2 ^ 64) : bytesField n ≤ n + 11 := by
  unfold bytesField; split
  · omega
  · exact lenField_le h
theorem intField_le {n : Nat} (h : n < 2 ^ 64) : intField n ≤ 11 := by
  have := varint10 h; unfold intField; split <;> omega
theorem wire64_lt (i : Int) : wire64 i < 2 ^ 64 := by unfold wire64; omega

theorem total_append (a b : List Nat) : total (a ++ b) = total a + total b := by
  induction a with
  | nil => simp [total]
  | cons x a ih => simp only [List.cons_append, total, List.foldr_cons] at ih ⊢; omega

theorem total_le {α : Type} (l : List α) (f g : α → Nat) (h : ∀ a ∈ l, f a ≤ g a) : total (l.map f) ≤ total (l.map g) := by
  induction l with
  | nil => simp [total]
  | cons x a ih =>
    have h1 := h x (by simp)
    have h2 := ih fun a ha => h a (by simp [ha])
    simp only [List.map_cons, total, List.foldr_cons] at h2 ⊢; omega

theorem total_const {α : Type} (l : List α) (f : α → Nat) (k : Nat) (h : ∀ a ∈ l, f a ≤ k) : total (l.map f) ≤ k * l.length := by
  induction l with
  | nil => simp [total]
  | cons x a ih =>
    have h1 := h x (by simp)
    have h2 := ih fun a ha => h a (by simp [ha])
    simp only [List.map_cons, total, List.foldr_cons, List.length_cons, Nat.mul_succ] at h2 ⊢; omega

theorem total_mul (k : Nat) {α : Type} (l : List α) (f : α → Nat) : total (l.map fun a => k * f a) = k * total (l.map f) := by
  induction l with
  | nil => simp [total]
  | cons x a ih => simp only [List.map_cons, total, List.foldr_cons, Nat.mul_add] at ih ⊢; omega

/-! ## File lists -/

/-- What the sender counts, without the directory. -/
def AddFiles.payload (m : AddFiles) : Nat := total (m.files.map fun f => f.1.length + 16) + total (m.dirs.map List.length)

/-- Names are not empty and not too long, sizes are 64 bit numbers. -/
structure AddFiles.Names (m : AddFiles) : Prop where
  dir : m.directory.length ≤ nameLimit
  files : ∀ f ∈ m.files, f.1.length ≤ nameLimit ∧ f.2.2 < 2 ^ 64
  dirs : ∀ d ∈ m.dirs, d ≠ [] ∧ d.length ≤ nameLimit

theorem AddFiles.Names.bytes_le {m : AddFiles} (h : m.Names) : m.bytes ≤ m.directory.length + 11 + 12 * m.payload := by
  have h1 := bytesField_le (n := m.directory.length) (by have := h.dir; unfold nameLimit at this; omega)
  have h2 : total (m.files.map fun f => lenField (fileBytes f)) ≤ 12 * total (m.files.map fun f => f.1.length + 16) := by
    rw [← total_mul]
    refine total_le _ _ _ fun f hf => ?_
    obtain ⟨hl, hs⟩ := h.files f hf
    have a1 := bytesField_le (n := f.1.length) (by unfold nameLimit at hl; omega)
    have a2 := intField_le (wire64_lt f.2.1)
    have a3 := intField_le hs
    have : fileBytes f ≤ f.1.length + 33 := by unfold fileBytes; omega
    have := lenField_le (n := fileBytes f) (by unfold nameLimit at hl; omega)
    omega
  have h3 : total (m.dirs.map fun d => lenField d.length) ≤ 12 * total (m.dirs.map List.length) := by
    rw [← total_mul]
    refine total_le _ _ _ fun d hd => ?_
    obtain ⟨hn, hl⟩ := h.dirs d hd
    have := List.length_pos_iff.2 hn
    have := lenField_le (n := d.length) (by unfold nameLimit at hl; omega)
    omega
  unfold AddFiles.bytes AddFiles.payload
  omega

structure ListInv (t : Nat) (s : Sender) : Prop where
  size : s.size = s.request.directory.length + s.request.payload
  small : (s.request.files = [] ∧ s.request.dirs = []) ∨ s.size < t
  names : s.request.Names
  sent : ∀ m ∈ s.sent, m.Names ∧ m.payload ≤ t + nameLimit + 16

theorem payload_empty {m : AddFiles} (h : m.files = [] ∧ m.dirs = []) : m.payload = 0 := by
  unfold AddFiles.payload; rw [h.1, h.2]; rfl

/-- Sending, when the message is not too large. -/
theorem ListInv.send {t : Nat} {s : Sender} (size : s.size = s.request.directory.length + s.request.payload) (names : s.request.Names)
    (hp : s.request.payload ≤ t + nameLimit + 16) (sent : ∀ m ∈ s.sent, m.Names ∧ m.payload ≤ t + nameLimit + 16) : ListInv t s.send := by
  unfold Sender.send
  split
  · next h => exact ⟨size, .inl h, names, sent⟩
  · refine ⟨?_, .inl ⟨rfl, rfl⟩, ⟨names.dir, by simp, by simp⟩, ?_⟩
    · show s.request.directory.length = s.request.directory.length + 0; omega
    · intro m hm
      rcases List.mem_append.mp hm with hm | hm
      · exact sent m hm
      · simp only [List.mem_singleton] at hm; subst hm; exact ⟨names, hp⟩

theorem ListInv.payload_le {t : Nat} {s : Sender} (h : ListInv t s) : s.request.payload ≤ t := by
  rcases h.small with h1 | h1
  · rw [payload_empty h1]; omega
  · have := h.size; omega

theorem ListInv.sent' {t : Nat} {s : Sender} (h : ListInv t s) : ListInv t s.send :=
  ListInv.send h.size h.names (by have := h.payload_le; omega) h.sent

theorem ListInv.handle {cfg : SendCfg} {s s' : Sender} (h : ListInv cfg.threshold s) {e : Entry}
    (hd : e.found.dir.length ≤ nameLimit) (hn : e.found.name ≠ [] ∧ e.found.name.length ≤ nameLimit) (hs : e.found.size < 2 ^ 64)
    (hh : s.handle cfg e = some s') : ListInv cfg.threshold s' := by
  unfold Sender.handle at hh
  split at hh
  · cases hh
  dsimp only at hh
  split at hh
  · cases hh; exact h
  obtain ⟨s1, he1, h1⟩ : ∃ s1 : Sender, s1 = (if s.request.directory ≠ e.found.dir.drop e.base.length then
      { s.send with request := { s.send.request with directory := e.found.dir.drop e.base.length }, size := (e.found.dir.drop e.base.length).length } else s) ∧
      ListInv cfg.threshold s1 := by
    refine ⟨_, rfl, ?_⟩
    split
    · obtain ⟨a, b, -⟩ := send_empty s
      have hs := h.sent'
      refine ⟨?_, .inl ⟨a, b⟩, ⟨?_, hs.names.files, hs.names.dirs⟩, hs.sent⟩
      · have : ({ s.send.request with directory := e.found.dir.drop e.base.length } : AddFiles).payload = 0 := payload_empty ⟨a, b⟩
        show (e.found.dir.drop e.base.length).length = (e.found.dir.drop e.base.length).length + _
        rw [this]; rfl
      · show (e.found.dir.drop e.base.length).length ≤ _
        rw [List.length_drop]; omega
    · exact h
  rw [← he1] at hh
  injection hh with hh
  have hp := h1.payload_le
  have fin : ∀ s2 : Sender, s2.size = s2.request.directory.length + s2.request.payload → s2.request.Names →
      s2.request.payload ≤ cfg.threshold + nameLimit + 16 → (∀ m ∈ s2.sent, m.Names ∧ m.payload ≤ cfg.threshold + nameLimit + 16) →
      ListInv cfg.threshold (if s2.size ≥ cfg.threshold then s2.send else s2) := by
    intro s2 a b c d
    split
    · exact ListInv.send a b c d
    · exact ⟨a, .inr (by omega), b, d⟩
  rw [← hh]
  split
  · refine fin _ ?_ ?_ ?_ h1.sent
    · simp only [AddFiles.payload, List.map_append, List.map_cons, List.map_nil, total_append, h1.size]
      simp only [total, List.foldr_cons, List.foldr_nil]; omega
    · refine ⟨h1.names.dir, h1.names.files, fun d hd => ?_⟩
      rcases List.mem_append.mp hd with hd | hd
      · exact h1.names.dirs d hd
      · simp only [List.mem_singleton] at hd; subst hd; exact hn
    · have := hn.2
      simp only [AddFiles.payload, List.map_append, List.map_cons, List.map_nil, total_append] at hp ⊢
      simp only [total, List.foldr_cons, List.foldr_nil] at hp ⊢; omega
  · refine fin _ ?_ ?_ ?_ h1.sent
    · simp only [AddFiles.payload, List.map_append, List.map_cons, List.map_nil, total_append, h1.size]
      simp only [total, List.foldr_cons, List.foldr_nil]; omega
    · refine ⟨h1.names.dir, fun d hd => ?_, h1.names.dirs⟩
      rcases List.mem_append.mp hd with hd | hd
      · exact h1.names.files d hd
      · simp only [List.mem_singleton] at hd; subst hd; exact ⟨hn.2, hs⟩
    · have := hn.2
      simp only [AddFiles.payload, List.map_append, List.map_cons, List.map_nil, total_append] at hp ⊢
      simp only [total, List.foldr_cons, List.foldr_nil] at hp ⊢; omega

/-- C186: however many files and directories are found, and whatever their names are, every message of the file list fits into a
packet. 10000 is the limit the client uses (file_finder_and_sender.h:42). -/
theorem C186_file_list (cfg : SendCfg) (ht : cfg.threshold = 10000) (l : List Entry)
    (hl : ∀ e ∈ l, e.found.dir.length ≤ nameLimit ∧ e.found.name ≠ [] ∧ e.found.name.length ≤ nameLimit ∧ e.found.size < 2 ^ 64)
    (s : Sender) (hs : findAndSend cfg l = some s) : ∀ m ∈ s.sent, Fits m.bytes := by
  have hall : ∀ (l : List Entry) (s s' : Sender), (∀ e ∈ l, e.found.dir.length ≤ nameLimit ∧ e.found.name ≠ [] ∧
      e.found.name.length ≤ nameLimit ∧ e.found.size < 2 ^ 64) → ListInv cfg.threshold s → Sender.handleAll cfg s l = some s' →
      ListInv cfg.threshold s' := by
    intro l
    induction l with
    | nil => intro s s' _ h e; cases e; exact h
    | cons e l ih =>
      intro s s' hl h he
      rw [Sender.handleAll] at he
      cases h1 : s.handle cfg e with
      | none => rw [h1] at he; cases he
      | some s1 =>
        rw [h1] at he
        obtain ⟨a, b, c, d⟩ := hl e (by simp)
        exact ih s1 s' (fun x hx => hl x (by simp [hx])) (h.handle a ⟨b, c⟩ d h1) he
  unfold findAndSend at hs
  cases h1 : Sender.handleAll cfg {} l with
  | none => rw [h1] at hs; cases hs
  | some s1 =>
    rw [h1] at hs
    injection hs with hs
    have h0 : ListInv cfg.threshold {} := ⟨rfl, .inl ⟨rfl, rfl⟩, ⟨by simp, by simp, by simp⟩, by simp⟩
    have h2 := (hall l _ _ hl h0 h1).sent'
    rw [← hs]
    have key : ∀ m : AddFiles, m.Names → m.payload ≤ cfg.threshold + nameLimit + 16 → Fits m.bytes := by
      intro m hn hp
      refine fits_of_le ?_
      have a := hn.bytes_le
      have b := hn.dir
      unfold nameLimit at hp b
      omega
    intro m hm
    unfold Sender.flush at hm
    rcases List.mem_append.mp hm with hm | hm
    · obtain ⟨a, b⟩ := h2.sent m hm
      exact key m a b
    · simp only [List.mem_singleton] at hm
      subst hm
      exact key _ h2.names (by have := h2.payload_le; omega)

/-! ## Deletions -/

def Deleted.payload (m : Deleted) : Nat := total (m.files.map List.length) + total (m.dirs.map List.length)

structure Deleted.Names (m : Deleted) : Prop where
  dir : m.directory.length ≤ nameLimit
  files : ∀ f ∈ m.files, f ≠ [] ∧ f.length ≤ nameLimit
  dirs : ∀ d ∈ m.dirs, d ≠ [] ∧ d.length ≤ nameLimit

theorem Deleted.Names.bytes_le {m : Deleted} (h : m.Names) : m.bytes ≤ m.directory.length + 11 + 12 * m.payload := by
  have h1 := bytesField_le (n := m.directory.length) (by have := h.dir; unfold nameLimit at this; omega)
  have key : ∀ l : List Str, (∀ d ∈ l, d ≠ [] ∧ d.length ≤ nameLimit) → total (l.map fun d => lenField d.length) ≤ 12 * total (l.map List.length) := by
    intro l hl
    rw [← total_mul]
    refine total_le _ _ _ fun d hd => ?_
    obtain ⟨hn, hl⟩ := hl d hd
    have := List.length_pos_iff.2 hn
    have := lenField_le (n := d.length) (by unfold nameLimit at hl; omega)
    omega
  have h2 := key _ h.files
  have h3 := key _ h.dirs
  unfold Deleted.bytes Deleted.payload
  omega

structure DelInv (t : Nat) (s : Deleter) : Prop where
  size : s.size = s.response.directory.length + s.response.payload
  small : (s.response.files = [] ∧ s.response.dirs = []) ∨ s.size < t
  names : s.response.Names
  sent : ∀ m ∈ s.sent, m.Names ∧ m.payload ≤ t + nameLimit

theorem del_payload_empty {m : Deleted} (h : m.files = [] ∧ m.dirs = []) : m.payload = 0 := by
  unfold Deleted.payload; rw [h.1, h.2]; rfl

theorem DelInv.send {t : Nat} {s : Deleter} (size : s.size = s.response.directory.length + s.response.payload) (names : s.response.Names)
    (hp : s.response.payload ≤ t + nameLimit) (sent : ∀ m ∈ s.sent, m.Names ∧ m.payload ≤ t + nameLimit) :
    DelInv t s.send ∧ s.send.response.files = [] ∧ s.send.response.dirs = [] := by
  unfold Deleter.send
  split
  · next h => exact ⟨⟨size, .inl h, names, sent⟩, h⟩
  · refine ⟨⟨rfl, .inl ⟨rfl, rfl⟩, ⟨by simp, by simp, by simp⟩, ?_⟩, rfl, rfl⟩
    intro m hm
    rcases List.mem_append.mp hm with hm | hm
    · exact sent m hm
    · simp only [List.mem_singleton] at hm; subst hm; exact ⟨names, hp⟩

theorem DelInv.payload_le {t : Nat} {s : Deleter} (h : DelInv t s) : s.response.payload ≤ t := by
  rcases h.small with h1 | h1
  · rw [del_payload_empty h1]; omega
  · have := h.size; omega

theorem DelInv.sent' {t : Nat} {s : Deleter} (h : DelInv t s) : DelInv t s.send ∧ s.send.response.files = [] ∧ s.send.response.dirs = [] :=
  DelInv.send h.size h.names (by have := h.payload_le; omega) h.sent

theorem plain_base {p : Str} (h : Plain p) : Text.Path.baseName p ≠ [] := by
  obtain ⟨d, n, hn, hns, (⟨rfl, rfl⟩ | ⟨rfl, hd, hl⟩)⟩ := h
  · have h2 := Text.Path.baseName_parts (d := []) (m := []) (n := p) (t := []) (by intro c hc; cases hc) hns (by intro c hc; cases hc) hn (fun _ => rfl)
    simp only [List.nil_append, List.append_nil] at h2
    rw [h2]; exact hn
  · have hm : Text.Path.AllSep [47] := by intro c hc; simp only [List.mem_singleton] at hc; subst hc; rfl
    have h2 := Text.Path.baseName_parts (d := d) (m := [47]) (n := n) (t := []) (by intro c hc; cases hc) hns hm hn (by simp)
    simp only [List.append_nil] at h2
    show Text.Path.baseName (d ++ ([47] ++ n)) ≠ []
    rw [h2]; exact hn

theorem DelInv.add {t : Nat} {s : Deleter} (h : DelInv t s) {p : Str} (hp : Plain p) (hl : p.length ≤ nameLimit) (isDir : Bool) :
    DelInv t (s.add t p isDir) := by
  have hb := plain_base hp
  have hsplit := plain_split hp
  unfold Deleter.add
  dsimp only
  generalize hdir : (if Text.Path.dirName p ≠ [] then Text.Path.ensureEndsWithSep false (Text.Path.dirName p) else Text.Path.dirName p) = dir at hsplit ⊢
  generalize Text.Path.baseName p = name at hb hsplit ⊢
  have hlen : dir.length + name.length ≤ nameLimit := by rw [← List.length_append, hsplit]; exact hl
  have hn : name ≠ [] ∧ name.length ≤ nameLimit := ⟨hb, by omega⟩
  obtain ⟨s1, he1, h1⟩ : ∃ s1 : Deleter, s1 = (if s.response.directory ≠ dir then
      { s.send with response := { s.send.response with directory := dir }, size := dir.length } else s) ∧ DelInv t s1 := by
    refine ⟨_, rfl, ?_⟩
    split
    · obtain ⟨hs, a, b⟩ := h.sent'
      refine ⟨?_, .inl ⟨a, b⟩, ⟨?_, hs.names.files, hs.names.dirs⟩, hs.sent⟩
      · have : ({ s.send.response with directory := dir } : Deleted).payload = 0 := del_payload_empty ⟨a, b⟩
        show dir.length = dir.length + _
        rw [this]; rfl
      · show dir.length ≤ _
        omega
    · exact h
  rw [← he1]
  have hp := h1.payload_le
  have fin : ∀ s2 : Deleter, s2.size = s2.response.directory.length + s2.response.payload → s2.response.Names →
      s2.response.payload ≤ t + nameLimit → (∀ m ∈ s2.sent, m.Names ∧ m.payload ≤ t + nameLimit) →
      DelInv t (if s2.size ≥ t then s2.send else s2) := by
    intro s2 a b c d
    split
    · exact (DelInv.send a b c d).1
    · exact ⟨a, .inr (by omega), b, d⟩
  have := hn.2
  have mem : ∀ (l : List Str), (∀ d ∈ l, d ≠ [] ∧ d.length ≤ nameLimit) → ∀ d ∈ l ++ [name], d ≠ [] ∧ d.length ≤ nameLimit := by
    intro l hl d hd
    rcases List.mem_append.mp hd with hd | hd
    · exact hl d hd
    · simp only [List.mem_singleton] at hd; subst hd; exact hn
  cases isDir with
  | true =>
    refine fin _ ?_ ⟨h1.names.dir, h1.names.files, mem _ h1.names.dirs⟩ ?_ h1.sent
    · simp only [if_true, Deleted.payload, List.map_append, List.map_cons, List.map_nil, total_append, h1.size]
      simp only [total, List.foldr_cons, List.foldr_nil]; omega
    · simp only [if_true, Deleted.payload, List.map_append, List.map_cons, List.map_nil, total_append] at hp ⊢
      simp only [total, List.foldr_cons, List.foldr_nil] at hp ⊢; omega
  | false =>
    refine fin _ ?_ ⟨h1.names.dir, mem _ h1.names.files, h1.names.dirs⟩ ?_ h1.sent
    · simp only [Bool.false_eq_true, if_false, Deleted.payload, List.map_append, List.map_cons, List.map_nil, total_append, h1.size]
      simp only [total, List.foldr_cons, List.foldr_nil]; omega
    · simp only [Bool.false_eq_true, if_false, Deleted.payload, List.map_append, List.map_cons, List.map_nil, total_append] at hp ⊢
      simp only [total, List.foldr_cons, List.foldr_nil] at hp ⊢; omega

/-- C186: every message that reports deletions fits into a packet, however many there are. 10000 is the limit the server uses
(file_deleter_and_sender.h:33). -/
theorem C186_deletions (ops : List (Str × Bool)) (hp : ∀ op ∈ ops, Plain op.1 ∧ op.1.length ≤ nameLimit) :
    ∀ m ∈ deletionMessages 10000 ops, Fits m.bytes := by
  have hall : ∀ (l : List (Str × Bool)) (s : Deleter), (∀ op ∈ l, Plain op.1 ∧ op.1.length ≤ nameLimit) → DelInv 10000 s →
      DelInv 10000 (l.foldl (fun s op => s.add 10000 op.1 op.2) s) := by
    intro l
    induction l with
    | nil => intro s _ h; exact h
    | cons op l ih =>
      intro s hl h
      rw [List.foldl_cons]
      exact ih _ (fun x hx => hl x (by simp [hx])) (h.add (hl op (by simp)).1 (hl op (by simp)).2 op.2)
  have h := (hall ops {} hp ⟨rfl, .inl ⟨rfl, rfl⟩, ⟨by simp, by simp, by simp⟩, by simp⟩).sent'.1
  have key : ∀ m : Deleted, m.Names → m.payload ≤ 10000 + nameLimit → Fits m.bytes := by
    intro m hn hp
    refine fits_of_le ?_
    have a := hn.bytes_le
    have b := hn.dir
    unfold nameLimit at hp b
    omega
  intro m hm
  unfold deletionMessages Deleter.flush at hm
  dsimp only at hm
  rcases List.mem_append.mp hm with hm | hm
  · obtain ⟨a, b⟩ := h.sent m hm
    exact key m a b
  · simp only [List.mem_singleton] at hm
    subst hm
    exact key _ h.names (by have := h.payload_le; omega)

/-! ## Index lists -/

/-- C186: every message of an index list fits into a packet (indices are 32 bit numbers). -/
theorem C186_indices (l : List Nat) (hl : ∀ i ∈ l, i < 2 ^ 32) : ∀ m ∈ sendIndices [] l, Fits (indicesBytes m) := by
  have hmem : ∀ (l batch : List Nat), (∀ i ∈ batch, i < 2 ^ 32) → (∀ i ∈ l, i < 2 ^ 32) → ∀ m ∈ sendIndices batch l, ∀ i ∈ m, i < 2 ^ 32 := by
    intro l
    induction l with
    | nil =>
      intro batch hb _ m hm
      unfold sendIndices at hm
      split at hm <;> simp at hm
      · subst hm; simp
      · rcases hm with rfl | rfl
        · exact hb
        · simp
    | cons i l ih =>
      intro batch hb hl m hm
      have hb' : ∀ j ∈ batch ++ [i], j < 2 ^ 32 := by
        intro j hj
        rcases List.mem_append.mp hj with hj | hj
        · exact hb j hj
        · simp only [List.mem_singleton] at hj; subst hj; exact hl _ (by simp)
      unfold sendIndices at hm
      dsimp only at hm
      split at hm
      · rcases List.mem_cons.mp hm with rfl | hm
        · exact hb'
        · exact ih [] (by simp) (fun x hx => hl x (by simp [hx])) m hm
      · exact ih _ hb' (fun x hx => hl x (by simp [hx])) m hm
  intro m hm
  have hlen := sendIndices_sizes l [] (by decide) m hm
  have hs := total_const m varintLen 10 fun i hi => varint10 (Nat.lt_trans (hmem l [] (by simp) hl m hm i hi) (by decide))
  unfold maxBatch at hlen
  have := bytesField_le (n := total (m.map varintLen)) (by omega)
  refine fits_of_le ?_
  unfold indicesBytes
  omega

/-! ## Signatures -/

open Verif.Delta in
/-- The number of signatures in a message, given that of chunks found in one block. -/
theorem sig_count {α : Type} (P : Params) (hb : 0 < P.sigBatch) (ht : 0 < P.maxTasks) (hash : Bytes → α) (k : Nat) (evs : List (List Bytes × Nat))
    (last : List Bytes) (he : ∀ e ∈ evs, e.1.length ≤ k) (hl : last.length ≤ k) :
    ∀ m ∈ createSignature P hash evs last, m.length ≤ P.sigBatch + P.maxTasks + k := by
  have hfold : ∀ (evs : List (List Bytes × Nat)) (st : SigState α), (∀ e ∈ evs, e.1.length ≤ k) → st.inFlight.length < P.maxTasks →
      st.response.length < P.sigBatch → (∀ m ∈ st.sent, m.length ≤ P.sigBatch + P.maxTasks + k) →
      (evs.foldl (sigStep P hash) st).inFlight.length < P.maxTasks ∧ (evs.foldl (sigStep P hash) st).response.length < P.sigBatch ∧
      (∀ m ∈ (evs.foldl (sigStep P hash) st).sent, m.length ≤ P.sigBatch + P.maxTasks + k) := by
    intro evs
    induction evs with
    | nil => intro st _ h1 h2 h3; exact ⟨h1, h2, h3⟩
    | cons e evs ih =>
      intro st he h1 h2 h3
      rw [List.foldl_cons]
      have hk := he e (by simp)
      have hq : (st.inFlight ++ e.1).length < P.maxTasks + k := by simp; omega
      have hstep : (sigStep P hash st e).inFlight.length < P.maxTasks ∧ (sigStep P hash st e).response.length < P.sigBatch ∧
          (∀ m ∈ (sigStep P hash st e).sent, m.length ≤ P.sigBatch + P.maxTasks + k) := by
        unfold sigStep
        dsimp only
        generalize st.inFlight ++ e.1 = q at hq
        split
        · refine ⟨?_, hb, ?_⟩
          · simp only [List.length_drop]; omega
          · intro m hm
            rcases List.mem_append.mp hm with hm | hm
            · exact h3 m hm
            · simp only [List.mem_singleton] at hm; subst hm
              simp only [List.length_append, List.length_map, List.length_take]; omega
        · next hlt =>
          refine ⟨?_, by simpa using hlt, h3⟩
          simp only [List.length_drop]; omega
      exact ih _ (fun x hx => he x (by simp [hx])) hstep.1 hstep.2.1 hstep.2.2
  obtain ⟨h1, h2, h3⟩ := hfold evs {} he ht hb (by simp)
  intro m hm
  unfold createSignature at hm
  dsimp only at hm
  generalize evs.foldl (sigStep P hash) {} = st at h1 h2 h3 hm
  simp only [List.mem_append, List.mem_singleton] at hm
  rcases hm with (hm | hm) | rfl
  · exact h3 m hm
  · split at hm
    · simp only [List.mem_singleton] at hm
      subst hm
      simp only [List.length_append, List.length_map]; omega
    · cases hm
  · simp

open Verif.FastCdc in
theorem run_rest {w : Nat} (gear : UInt8 → BitVec w) (hw : 0 < w) (c : Config) (hv : c.Valid) (eof : Bool) (buf : List UInt8) :
    ∀ cs rest, run gear c eof buf = some (cs, rest) → rest.length < c.maxSize := by
  refine run_induct gear hw c hv eof (fun buf => ∀ cs rest, run gear c eof buf = some (cs, rest) → rest.length < c.maxSize) ?_ ?_ buf
  · intro buf h cs rest e
    rw [run_stop gear c eof buf h] at e
    cases e
    apply Nat.lt_of_not_le
    intro hle
    exact h (.inl hle)
  · intro buf h ih cs rest e
    rw [run_go gear hw c hv eof buf h] at e
    obtain ⟨⟨cs', rest'⟩, e1, e2⟩ := Option.map_eq_some_iff.mp e
    cases e2
    exact ih _ _ e1

theorem flatten_ge (m : Nat) (l : List (List UInt8)) (h : ∀ x ∈ l, m ≤ x.length) : m * l.length ≤ l.flatten.length := by
  induction l with
  | nil => simp
  | cons x l ih =>
    have h1 := h x (by simp)
    have h2 := ih fun y hy => h y (by simp [hy])
    simp only [List.flatten_cons, List.length_append, List.length_cons, Nat.mul_succ]; omega

open Verif.FastCdc in
/-- The chunks found in one call are few. -/
theorem run_count {w : Nat} (gear : UInt8 → BitVec w) (hw : 0 < w) (c : Config) (hv : c.Valid) (eof : Bool) (buf : List UInt8) (cs : List (List UInt8))
    (rest : List UInt8) (h : run gear c eof buf = some (cs, rest)) : c.minSize * (cs.length - 1) ≤ buf.length := by
  have h1 := (run_sizes gear hw c hv eof buf cs rest h).2
  have h2 := flatten_ge c.minSize cs.dropLast h1
  have h3 := congrArg List.length (run_lossless gear hw c hv eof buf cs rest h)
  have h4 : cs.dropLast.flatten.length ≤ cs.flatten.length := by
    cases hc : cs with
    | nil => simp
    | cons a l =>
      have := List.dropLast_concat_getLast (l := a :: l) (by simp)
      conv => rhs; rw [← this]
      simp
  simp only [List.length_append, List.length_dropLast] at h2 h3
  omega

open Verif.FastCdc Verif.Delta in
theorem events_count {w : Nat} (gear : UInt8 → BitVec w) (hw : 0 < w) (c : Config) (hv : c.Valid) (k b : Nat)
    (hk : ∀ n : Nat, c.minSize * (n - 1) ≤ c.maxSize + b → n ≤ k) : ∀ (blocks : List Bytes) (buf : Bytes), buf.length < c.maxSize →
    (∀ d ∈ blocks, d.length ≤ b) → ∀ ev last, chunkEvents gear c buf blocks = some (ev, last) →
    (∀ e ∈ ev, e.length ≤ k) ∧ last.length ≤ k + k := by
  intro blocks
  induction blocks with
  | nil =>
    intro buf hbuf _ ev last h
    unfold chunkEvents at h
    rw [process_eq gear c hv] at h
    cases h1 : run gear c ([] : Bytes).isEmpty (buf ++ []) with
    | none => rw [h1] at h; cases h
    | some r =>
      obtain ⟨cs, buf'⟩ := r
      rw [h1] at h
      dsimp only at h
      rw [process_eq gear c hv] at h
      cases h2 : run gear c ([] : Bytes).isEmpty (buf' ++ []) with
      | none => rw [h2] at h; cases h
      | some r =>
        obtain ⟨cs', x⟩ := r
        rw [h2] at h
        cases h
        have a := run_count gear hw c hv _ _ _ _ h1
        have b1 := run_count gear hw c hv _ _ _ _ h2
        have d := run_rest gear hw c hv _ _ _ _ h1
        simp only [List.append_nil] at a b1
        have a' := hk cs.length (by omega)
        have b' := hk cs'.length (by omega)
        refine ⟨by simp, ?_⟩
        rw [List.length_append]; omega
  | cons d ds ih =>
    intro buf hbuf hb ev last h
    unfold chunkEvents at h
    rw [process_eq gear c hv] at h
    cases h1 : run gear c d.isEmpty (buf ++ d) with
    | none => rw [h1] at h; cases h
    | some r =>
      obtain ⟨cs, buf'⟩ := r
      rw [h1] at h
      dsimp only at h
      obtain ⟨⟨ev', last'⟩, e1, e2⟩ := Option.map_eq_some_iff.mp h
      cases e2
      have hd := hb d (by simp)
      have a := run_count gear hw c hv _ _ _ _ h1
      have a' := hk cs.length (by rw [List.length_append] at a; omega)
      obtain ⟨i1, i2⟩ := ih buf' (run_rest gear hw c hv _ _ _ _ h1) (fun x hx => hb x (by simp [hx])) ev' _ e1
      refine ⟨fun e he => ?_, i2⟩
      rcases List.mem_cons.mp he with rfl | he
      · exact a'
      · exact i1 e he

open Verif.Delta in
/-- C186: every message with signatures fits into a packet, for every old file, read in blocks of at most 128 KiB (`kFileIoBufferSize`,
cdc_interface.cc:50), and for every timing of the hash worker; the sizes are the shipped ones (cdc_interface.cc:45-58, 96-97). -/
theorem C186_signatures {α : Type} {w : Nat} (gear : UInt8 → BitVec w) (hw : 0 < w) (hash : Bytes → α) (blocks : List Bytes)
    (hb : ∀ b ∈ blocks, b.length ≤ 131072) (tasks : Nat → Nat) (ev : List (List Bytes)) (last : List Bytes)
    (h : chunkEvents gear ⟨4096, 8192, 32768⟩ [] blocks = some (ev, last)) :
    ∀ m ∈ createSignature {} hash (withSched ev tasks) last, Fits (sigBytes m) := by
  have hv : (⟨4096, 8192, 32768⟩ : FastCdc.Config).Valid := shipped_ok.valid
  obtain ⟨h1, h2⟩ := events_count gear hw _ hv 41 131072 (by intro n hn; dsimp only at hn; omega) blocks [] (by decide) hb ev last h
  have hcount := sig_count {} (by decide) (by decide) hash 82 (withSched ev tasks) last
    (by
      intro e he
      have : e.1 ∈ (withSched ev tasks).map Prod.fst := List.mem_map_of_mem he
      rw [withSched_fst] at this
      have := h1 _ this
      omega) h2
  -- the chunks are not large
  obtain ⟨S, hS, hS'⟩ := FastCdc.C01_chunking_lossless gear hw _ hv blocks
  obtain ⟨ev', last', e1, e2⟩ := chunkEvents_eq gear hw _ hv blocks [] S hS
  rw [h] at e1
  cases e1
  have hsz := FastCdc.C02_chunk_sizes_any_blocks gear hw _ hv blocks S hS
  obtain ⟨body, hbody, hne, hflat⟩ := createSignature_spec {} (by decide) hash (withSched ev tasks) last
  rw [withSched_fst, e2] at hflat
  have hmem : ∀ m ∈ createSignature {} hash (withSched ev tasks) last, ∀ s ∈ m, s.1 ≤ 32768 := by
    intro m hm s hs
    rw [hbody] at hm
    rcases List.mem_append.mp hm with hm | hm
    · have : s ∈ body.flatten := List.mem_flatten.2 ⟨m, hm, hs⟩
      rw [hflat] at this
      obtain ⟨x, hx, rfl⟩ := List.mem_map.1 this
      exact (hsz x hx).2
    · simp only [List.mem_singleton] at hm; subst hm; cases hs
  intro m hm
  have a : m.length ≤ 1024 + 64 + 82 := hcount m hm
  have b := total_const m (fun s => varintLen s.1) 10 fun s hs => varint10 (Nat.lt_of_le_of_lt (hmem m hm s hs) (by decide))
  have c := bytesField_le (n := total (m.map fun s => varintLen s.1)) (by omega)
  have d := bytesField_le (n := 16 * m.length) (by omega)
  refine fits_of_le ?_
  unfold sigBytes
  omega

/-! ## Patches -/

section Patch
open Verif.Delta
variable {α : Type} [DecidableEq α]

/-- The request is not larger than the sender thinks. -/
structure PatchInv (P : Params) (B : Nat) (s : Delta.Sender) : Prop where
  size : P.metaSize * s.req.cmds.length + s.req.data.length ≤ s.reqSize
  small : s.reqSize ≤ P.request
  sent : ∀ r ∈ s.sent, P.metaSize * r.cmds.length + r.data.length ≤ P.request + P.metaSize + B

theorem PatchInv.added {P : Params} {B : Nat} {s : Delta.Sender} {n : Nat} (size : P.metaSize * s.req.cmds.length + s.req.data.length ≤ s.reqSize)
    (le : s.reqSize ≤ P.request + P.metaSize + B) (sent : ∀ r ∈ s.sent, P.metaSize * r.cmds.length + r.data.length ≤ P.request + P.metaSize + B) :
    PatchInv P B (s.onChunkAdded P n) := by
  unfold Delta.Sender.onChunkAdded
  dsimp only
  split
  · refine ⟨by simp, by simp, ?_⟩
    intro r hr
    rcases List.mem_append.mp hr with hr | hr
    · exact sent r hr
    · simp only [List.mem_singleton] at hr; subst hr; omega
  · next h => exact ⟨size, by dsimp only at h ⊢; omega, sent⟩

theorem dropLast_snoc_length {β : Type} {l : List β} {a b : β} (h : l.getLast? = some a) : (l.dropLast ++ [b]).length = l.length := by
  have := congrArg List.length (getLast?_split h)
  simp only [List.length_append, List.length_cons, List.length_nil] at this ⊢
  omega

theorem PatchInv.existing {P : Params} {B : Nat} {s : Delta.Sender} (h : PatchInv P B s) (off n : Nat) : PatchInv P B (s.addExisting P off n) := by
  have h1 := h.size
  have h2 := h.small
  have fresh : PatchInv P B (Delta.Sender.onChunkAdded P { s with
      req := { s.req with cmds := s.req.cmds ++ [(⟨.basis, off, n⟩ : Cmd)] }, reqSize := s.reqSize + P.metaSize } n) := by
    refine PatchInv.added ?_ ?_ h.sent
    · simp only [List.length_append, List.length_cons, List.length_nil, Nat.mul_add, Nat.mul_one, Nat.zero_add]; omega
    · dsimp only; omega
  unfold Delta.Sender.addExisting
  dsimp only
  split
  · exact fresh
  · next l hl =>
    split
    · refine PatchInv.added ?_ ?_ h.sent
      · dsimp only; rw [dropLast_snoc_length hl]; exact h1
      · dsimp only; omega
    · exact fresh

theorem PatchInv.new {P : Params} {B : Nat} {s s' : Delta.Sender} (h : PatchInv P B s) (file : Bytes) {n : Nat} (hn : n ≤ B)
    (hs : s.addNew P file n = some s') : PatchInv P B s' := by
  have h1 := h.size
  have h2 := h.small
  unfold Delta.Sender.addNew at hs
  dsimp only at hs
  split at hs
  · cases hs
  · next hlen =>
    have hlen : ((file.drop s.fileOffset).take n).length = n := Classical.not_not.mp hlen
    injection hs with hs
    rw [← hs]
    cases hl : s.req.cmds.getLast? with
    | none =>
      refine PatchInv.added ?_ ?_ h.sent
      · simp only [List.length_append, List.length_cons, List.length_nil, Nat.mul_add, Nat.mul_one, hlen]; simp; omega
      · dsimp only; omega
    | some l =>
      dsimp only
      by_cases hd : l.src = .data
      · rw [if_pos hd]
        refine PatchInv.added ?_ ?_ h.sent
        · dsimp only
          rw [dropLast_snoc_length hl, List.length_append, hlen]; omega
        · dsimp only; omega
      · rw [if_neg hd]
        refine PatchInv.added ?_ ?_ h.sent
        · simp only [List.length_append, List.length_cons, List.length_nil, Nat.mul_add, Nat.mul_one, hlen]; simp; omega
        · dsimp only; omega

theorem PatchInv.idx {P : Params} {B : Nat} {s : Delta.Sender} (h : PatchInv P B s) (i : Nat) : PatchInv P B { s with idx := i } := ⟨h.size, h.small, h.sent⟩

omit [DecidableEq α] in
theorem PatchInv.tryAdd {P : Params} {B : Nat} (file : Bytes) (r : Recv α) : ∀ (cs : List (α × Nat)) (s s' : Delta.Sender), PatchInv P B s →
    (∀ c ∈ cs, c.2 ≤ B) → s.tryAdd P file r cs = some s' → PatchInv P B s' := by
  intro cs
  induction cs with
  | nil => intro s s' h _ e; unfold Delta.Sender.tryAdd at e; cases e; exact h
  | cons c cs ih =>
    intro s s' h hb e
    unfold Delta.Sender.tryAdd at e
    cases ho : r.offsets c.1 with
    | none =>
      rw [ho] at e
      dsimp only at e
      split at e
      · cases e; exact h
      · obtain ⟨s1, e1, e2⟩ := Option.map_eq_some_iff.mp e
        subst e2
        exact (h.new file (hb c (by simp)) e1).idx _
    | some off =>
      rw [ho] at e
      dsimp only at e
      split at e
      · cases e; exact (h.existing off c.2).idx _
      · exact ih _ _ ((h.existing off c.2).idx _) (fun x hx => hb x (by simp [hx])) e

theorem round_inv {P : Params} {B : Nat} (file : Bytes) {block avail : Bool} {c c' : Delta.Client α} (h : PatchInv P B c.snd)
    (hb : ∀ x ∈ c.chunks, x.2 ≤ B) (e : c.round P file block avail = some c') : PatchInv P B c'.snd ∧ c'.chunks = c.chunks := by
  unfold Delta.Client.round at e
  cases h1 : c.recv.receive block avail c.inbox with
  | none => rw [h1] at e; cases e
  | some q =>
    obtain ⟨r, inbox⟩ := q
    rw [h1] at e
    dsimp only at e
    cases h2 : c.snd.tryAdd P file r (c.chunks.drop c.snd.idx) with
    | none => rw [h2] at e; cases e
    | some s =>
      rw [h2] at e
      cases e
      exact ⟨PatchInv.tryAdd file r _ _ _ h (fun x hx => hb x (List.mem_of_mem_drop hx)) h2, rfl⟩

theorem finalLoop_inv {P : Params} {B : Nat} (file : Bytes) : ∀ (f : Nat) (c c' : Delta.Client α), PatchInv P B c.snd →
    (∀ x ∈ c.chunks, x.2 ≤ B) → c.finalLoop P file f = some c' → PatchInv P B c'.snd := by
  intro f
  induction f with
  | zero => intro c c' _ _ e; cases e
  | succ f ih =>
    intro c c' h hb e
    unfold Delta.Client.finalLoop at e
    cases h1 : c.round P file true true with
    | none => rw [h1] at e; cases e
    | some c1 =>
      rw [h1] at e
      obtain ⟨a, b⟩ := round_inv file h hb h1
      dsimp only at e
      split at e
      · exact ih c1 c' a (by rw [b]; exact hb) e
      · cases e; exact a

/-- What the sender counts for a message that `createDiff` sends. -/
theorem createDiff_sizes {P : Params} {B : Nat} (hash : Bytes → α) (file : Bytes) (evs : List (List Bytes × Bool)) (last : List Bytes)
    (inbox rest : List (SigMsg α)) (reqs : List Req) (he : ∀ e ∈ evs, ∀ x ∈ e.1, x.length ≤ B) (hl : ∀ x ∈ last, x.length ≤ B)
    (h : createDiff P hash file evs last inbox = some (reqs, rest)) :
    ∀ r ∈ reqs, P.metaSize * r.cmds.length + r.data.length ≤ P.request + P.metaSize + B := by
  have hfold : ∀ (evs : List (List Bytes × Bool)) (c c' : Delta.Client α), (∀ e ∈ evs, ∀ x ∈ e.1, x.length ≤ B) → PatchInv P B c.snd →
      (∀ x ∈ c.chunks, x.2 ≤ B) → evs.foldlM (Delta.Client.onBlock P hash file) c = some c' →
      PatchInv P B c'.snd ∧ ∀ x ∈ c'.chunks, x.2 ≤ B := by
    intro evs
    induction evs with
    | nil => intro c c' _ h1 h2 e; rw [List.foldlM_nil] at e; cases e; exact ⟨h1, h2⟩
    | cons e evs ih =>
      intro c c' he h1 h2 hf
      rw [List.foldlM_cons] at hf
      cases hb : c.onBlock P hash file e with
      | none => rw [hb] at hf; cases hf
      | some c1 =>
        rw [hb] at hf
        have hch : ∀ x ∈ c.chunks ++ e.1.map (chunkOf hash), x.2 ≤ B := by
          intro x hx
          rcases List.mem_append.mp hx with hx | hx
          · exact h2 x hx
          · obtain ⟨y, hy, rfl⟩ := List.mem_map.1 hx
            exact he e (by simp) y hy
        unfold Delta.Client.onBlock at hb
        obtain ⟨a, b⟩ := round_inv file (c := { c with chunks := c.chunks ++ e.1.map (chunkOf hash) }) h1 hch hb
        exact ih c1 c' (fun x hx => he x (by simp [hx])) a (by rw [b]; exact hch) hf
  unfold createDiff at h
  cases h1 : evs.foldlM (Delta.Client.onBlock P hash file) { inbox := inbox } with
  | none => rw [h1] at h; cases h
  | some c =>
    rw [h1] at h
    dsimp only at h
    obtain ⟨a, b⟩ := hfold evs _ _ he ⟨by simp, by simp, by simp⟩ (by simp) h1
    obtain ⟨c', e1, e2⟩ := Option.map_eq_some_iff.mp h
    have hch : ∀ x ∈ c.chunks ++ last.map (chunkOf hash), x.2 ≤ B := by
      intro x hx
      rcases List.mem_append.mp hx with hx | hx
      · exact b x hx
      · obtain ⟨y, hy, rfl⟩ := List.mem_map.1 hx
        exact hl y hy
    have hinv := finalLoop_inv file _ { c with chunks := c.chunks ++ last.map (chunkOf hash) } c' a hch e1
    cases e2
    have hreq := hinv.size
    have hsm := hinv.small
    intro r hr
    unfold Delta.Sender.flush at hr
    split at hr
    · rcases List.mem_append.mp hr with hr | hr
      · rcases List.mem_append.mp hr with hr | hr
        · exact hinv.sent r hr
        · simp only [List.mem_singleton] at hr; subst hr; omega
      · simp only [List.mem_singleton] at hr; subst hr; simp
    · rcases List.mem_append.mp hr with hr | hr
      · exact hinv.sent r hr
      · simp only [List.mem_singleton] at hr; subst hr; omega

/-- C186: every message with patch commands fits into a packet, for every new file and whatever the server has sent, at whatever time
it arrives. -/
theorem C186_patches {w : Nat} (gear : UInt8 → BitVec w) (hw : 0 < w) (hash : Bytes → α) (blocks : List Bytes)
    (avail : Nat → Bool) (ev : List (List Bytes)) (last : List Bytes)
    (h : chunkEvents gear ⟨4096, 8192, 32768⟩ [] blocks = some (ev, last)) (inbox rest : List (SigMsg α)) (reqs : List Req)
    (hd : createDiff {} hash blocks.flatten (withSched ev avail) last inbox = some (reqs, rest)) :
    ∀ r ∈ reqs, Fits (patchBytes r.toWire) := by
  have hv : (⟨4096, 8192, 32768⟩ : FastCdc.Config).Valid := shipped_ok.valid
  obtain ⟨S, hS, hS'⟩ := FastCdc.C01_chunking_lossless gear hw _ hv blocks
  obtain ⟨ev', last', e1, e2⟩ := chunkEvents_eq gear hw _ hv blocks [] S hS
  rw [h] at e1
  cases e1
  have hsz : ∀ x ∈ ev.flatten ++ last, x.length ≤ 32768 := by
    rw [e2]; exact fun x hx => (FastCdc.C02_chunk_sizes_any_blocks gear hw _ hv blocks S hS x hx).2
  have hb := createDiff_sizes (P := {}) (B := 32768) hash blocks.flatten (withSched ev avail) last inbox rest reqs
    (by
      intro e he x hx
      have : e.1 ∈ (withSched ev avail).map Prod.fst := List.mem_map_of_mem he
      rw [withSched_fst] at this
      exact hsz x (List.mem_append_left _ (List.mem_flatten.2 ⟨e.1, this, hx⟩)))
    (fun x hx => hsz x (List.mem_append_right _ hx)) hd
  intro r hr
  have a : 13 * r.cmds.length + r.data.length ≤ 65536 + 13 + 32768 := hb r hr
  have hsrc : ∀ s : Src, srcCode s < 2 ^ 64 := by
    intro s; cases s with
    | data => exact (by decide)
    | basis => exact (by decide)
    | other n => exact wire64_lt n
  have t1 := total_const r.toWire.sources (fun s => varintLen (srcCode s)) 10 fun s _ => varint10 (hsrc s)
  have t2 := total_const r.toWire.offsets (fun o => varintLen o.toNat) 10 fun o _ => varint10 o.toNat_lt
  have t3 := total_const r.toWire.sizes (fun o => varintLen o.toNat) 10 fun o _ => varint10 (Nat.lt_trans o.toNat_lt (by decide))
  have l1 : r.toWire.sources.length = r.cmds.length := List.length_map ..
  have l2 : r.toWire.offsets.length = r.cmds.length := List.length_map ..
  have l3 : r.toWire.sizes.length = r.cmds.length := List.length_map ..
  rw [l1] at t1; rw [l2] at t2; rw [l3] at t3
  have hdata : r.toWire.data.length = r.data.length := rfl
  have b1 := bytesField_le (n := total (r.toWire.sources.map fun s => varintLen (srcCode s))) (by omega)
  have b2 := bytesField_le (n := total (r.toWire.offsets.map fun o => varintLen o.toNat)) (by omega)
  have b3 := bytesField_le (n := total (r.toWire.sizes.map fun o => varintLen o.toNat)) (by omega)
  have b4 := bytesField_le (n := r.toWire.data.length) (by omega)
  refine fits_of_le ?_
  unfold patchBytes
  omega

end Patch

/-- C186: the raw packets of a copied file (`kBufferSize`, cdc_rsync_client.cc:650, 665-676) fit, including the empty one at the end. -/
theorem C186_raw (file : List UInt8) : ∀ b ∈ Delta.readBlocks (128 * 1024) file ++ [[]], Fits b.length := by
  have key : ∀ (n : Nat) (file : List UInt8), file.length ≤ n → ∀ b ∈ Delta.readBlocks (128 * 1024) file, b.length ≤ 128 * 1024 := by
    intro n
    induction n with
    | zero =>
      intro file hf b hb
      have : file = [] := List.length_eq_zero_iff.1 (by omega)
      subst this
      unfold Delta.readBlocks at hb
      simp at hb
    | succ n ih =>
      intro file hf b hb
      unfold Delta.readBlocks at hb
      split at hb
      · cases hb
      · next hne =>
        have : file ≠ [] := fun h => hne (.inr h)
        have := List.length_pos_iff.2 this
        rcases List.mem_cons.mp hb with rfl | hb
        · simp; omega
        · exact ih _ (by simp; omega) b hb
  intro b hb
  rcases List.mem_append.mp hb with hb | hb
  · have := key file.length file (Nat.le_refl _) b hb
    exact fits_of_le (by omega)
  · simp only [List.mem_singleton] at hb; subst hb; exact fits_of_le (by decide)

/-! ## Instances -/

/-- The pump does refuse: the bound is not empty. -/
theorem not_fits {n : Nat} (h : Pump.maxPacketSize < n) : ¬ Fits n := by
  intro hf
  refine hf ⟨0, List.replicate n 0⟩ List.length_replicate ?_
  unfold Pump.serialize
  rw [if_pos (by dsimp only; rw [List.length_replicate]; exact h)]

/-- Without the limit on names: a name as long as a packet is not sent. -/
theorem long_name (n : Str) (h : Pump.maxPacketSize < n.length) : ¬ Fits (AddFiles.bytes ⟨[], [], [n]⟩) := by
  refine not_fits ?_
  unfold AddFiles.bytes lenField
  simp only [List.map_cons, List.map_nil, total, List.foldr_cons, List.foldr_nil]
  omega

/-- The sizes are protobuf's: a file `a`, 5 bytes, changed at 1 in `s\`. -/
example : AddFiles.bytes ⟨[115, 92], [([97], 1, 5)], [[98]]⟩ = 4 + 9 + 3 := by decide +kernel
example : (findAndSend { BatchExample.cfg with threshold := 10000 } BatchExample.l).map (fun s => s.sent.map AddFiles.bytes) = some [9, 22, 3, 0] := by
  decide +kernel
example : (deletionMessages 10000 BatchExample.ops).map Deleted.bytes = [3, 10, 3, 0] := by decide +kernel
example : ∀ e ∈ BatchExample.l, e.found.dir.length ≤ nameLimit ∧ e.found.name ≠ [] ∧ e.found.name.length ≤ nameLimit ∧ e.found.size < 2 ^ 64 := by
  decide +kernel
/-- Time before 1970 takes ten bytes. -/
example : fileBytes ([97], -1, 0) = 3 + 11 := by simp [fileBytes, wire64, intField, bytesField, lenField, varintLen]
/-- The hypotheses of `C186_signatures` and `C186_patches` are met: chunking always succeeds (C01), and so does the diff (C07). -/
example (gear : UInt8 → BitVec 64) (blocks : List Delta.Bytes) : ∃ ev last, Delta.chunkEvents gear ⟨4096, 8192, 32768⟩ [] blocks = some (ev, last) := by
  obtain ⟨S, hS, -⟩ := FastCdc.C01_chunking_lossless gear (by decide) ⟨4096, 8192, 32768⟩ Delta.shipped_ok.valid blocks
  obtain ⟨ev, last, h, -⟩ := Delta.chunkEvents_eq gear (by decide) ⟨4096, 8192, 32768⟩ Delta.shipped_ok.valid blocks [] S hS
  exact ⟨ev, last, h⟩
example : Delta.createDiff {} (fun b => b.length) [1, 2, 3, 4, 5] [([[1, 2, 3]], true)] [[4, 5]] [[(3, 3)], []] =
    some ([⟨[⟨.basis, 0, 3⟩, ⟨.data, 0, 2⟩], [4, 5]⟩, ⟨[], []⟩], []) := by decide +kernel
example : patchBytes (Delta.Req.toWire ⟨[⟨.basis, 0, 3⟩, ⟨.data, 0, 2⟩], [4, 5]⟩) = 4 + 4 + 4 + 4 := by decide +kernel

end Verif.Sync
