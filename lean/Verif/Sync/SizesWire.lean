import Verif.Sync.Sizes

/-! # The sizes of C186 are those of the protobuf encoding

The encoder follows the specification of protobuf (base 128 numbers; a key with field number and wire type; fields with the default
value are left out; repeated numbers are packed). `Sync/Sizes.lean` only computes lengths; here they are shown to be the lengths of the
encoded messages. -/
namespace Verif.Sync.Enc
open Verif.Manifest (varintLen lenField bytesField intField)

abbrev Bytes := List UInt8

def varint (n : Nat) : Bytes := if n < 128 then [n.toUInt8] else (n % 128 + 128).toUInt8 :: varint (n / 128)
decreasing_by omega

/-- Key of a field: number and wire type. -/
def key (field wire : Nat) : Bytes := varint (8 * field + wire)
def number (field n : Nat) : Bytes := if n = 0 then [] else key field 0 ++ varint n
def message (field : Nat) (b : Bytes) : Bytes := key field 2 ++ varint b.length ++ b
def bytes (field : Nat) (b : Bytes) : Bytes := if b = [] then [] else message field b
def packed (field : Nat) (l : List Nat) : Bytes := bytes field (l.flatMap varint)

/-- messages.proto:66-73 -/
def file (f : Bytes × Int × Nat) : Bytes := bytes 1 f.1 ++ number 2 (wire64 f.2.1) ++ number 3 f.2.2
/-- messages.proto:65-83 -/
def addFiles (m : AddFiles) : Bytes := bytes 1 m.directory ++ m.files.flatMap (fun f => message 2 (file f)) ++ m.dirs.flatMap (message 3)
/-- messages.proto:119-122 -/
def indices (l : List Nat) : Bytes := packed 1 l
/-- messages.proto:143-149; the hashes of the chunks one after the other -/
def signatures {α : Type} (hash : α → Bytes) (m : Delta.SigMsg α) : Bytes :=
  packed 1 (m.map (·.1)) ++ bytes 2 (m.flatMap fun s => hash s.2)
/-- messages.proto:153-175 -/
def patch (r : Delta.WireReq) : Bytes :=
  packed 1 (r.sources.map srcCode) ++ packed 2 (r.offsets.map (·.toNat)) ++ packed 3 (r.sizes.map (·.toNat)) ++ bytes 4 r.data
/-- messages.proto:178-187 -/
def deleted (m : Deleted) : Bytes := bytes 1 m.directory ++ m.files.flatMap (message 2) ++ m.dirs.flatMap (message 3)

theorem varint_length (n : Nat) : (varint n).length = varintLen n := by
  induction n using Nat.strongRecOn with
  | _ n ih =>
    rw [varint, varintLen]
    split
    · rfl
    · rw [List.length_cons, ih _ (by omega)]

theorem varint_ne (n : Nat) : varint n ≠ [] := by
  rw [varint]; split <;> simp

theorem key_length {f w : Nat} (h : f < 16) (hw : w < 8) : (key f w).length = 1 := by
  rw [key, varint, if_pos (by omega)]; rfl

theorem message_length {f : Nat} (h : f < 16) (b : Bytes) : (message f b).length = lenField b.length := by
  simp only [message, List.length_append, key_length h (by decide : 2 < 8), varint_length, lenField]

theorem bytes_length {f : Nat} (h : f < 16) (b : Bytes) : (bytes f b).length = bytesField b.length := by
  unfold bytes bytesField
  cases b with
  | nil => rfl
  | cons x b => rw [if_neg (by simp), if_neg (by simp), message_length h]

theorem number_length {f : Nat} (h : f < 16) (n : Nat) : (number f n).length = intField n := by
  unfold number intField
  split
  · rfl
  · simp only [List.length_append, key_length h (by decide : 0 < 8), varint_length]

theorem flat_length {β : Type} (g : β → Bytes) (k : β → Nat) (l : List β) (h : ∀ x ∈ l, (g x).length = k x) :
    (l.flatMap g).length = total (l.map k) := by
  induction l with
  | nil => rfl
  | cons x l ih =>
    rw [List.flatMap_cons, List.length_append, h x List.mem_cons_self, ih fun y hy => h y (List.mem_cons_of_mem _ hy)]
    rfl

theorem packed_length {f : Nat} (h : f < 16) {β : Type} (g : β → Nat) (l : List β) :
    (packed f (l.map g)).length = bytesField (total (l.map fun x => varintLen (g x))) := by
  unfold packed
  rw [bytes_length h, flat_length varint varintLen _ (fun x _ => varint_length x), List.map_map]
  rfl

/-- **C186, the sizes are right.** The numbers that are shown to fit into a packet are the lengths of the encoded messages. -/
theorem C186_encoded_length :
    (∀ m : AddFiles, (addFiles m).length = m.bytes) ∧ (∀ m : Deleted, (deleted m).length = m.bytes) ∧
    (∀ l, (indices l).length = indicesBytes l) ∧ (∀ r, (patch r).length = patchBytes r) ∧
    (∀ (α : Type) (hash : α → Bytes) (m : Delta.SigMsg α), (∀ s ∈ m, (hash s.2).length = 16) → (signatures hash m).length = sigBytes m) := by
  refine ⟨fun m => ?_, fun m => ?_, fun l => ?_, fun r => ?_, fun α hash m h => ?_⟩
  · have hf : ∀ f ∈ m.files, (message 2 (file f)).length = lenField (fileBytes f) := by
      intro f _
      rw [message_length (by decide), file, List.length_append, List.length_append, bytes_length (by decide), number_length (by decide),
        number_length (by decide)]
      rfl
    rw [addFiles, List.length_append, List.length_append, bytes_length (by decide), flat_length _ _ _ hf,
      flat_length _ (fun d => lenField d.length) _ (fun d _ => message_length (by decide) d)]
    rfl
  · rw [deleted, List.length_append, List.length_append, bytes_length (by decide),
      flat_length _ (fun d => lenField d.length) _ (fun d _ => message_length (by decide) d),
      flat_length _ (fun d => lenField d.length) _ (fun d _ => message_length (by decide) d)]
    rfl
  · have := packed_length (f := 1) (by decide) id l
    rw [List.map_id] at this
    exact this
  · rw [patch, List.length_append, List.length_append, List.length_append, packed_length (by decide), packed_length (by decide),
      packed_length (by decide), bytes_length (by decide)]
    rfl
  · rw [signatures, List.length_append, packed_length (by decide), bytes_length (by decide),
      flat_length _ (fun _ => 16) _ h]
    have : ∀ m : Delta.SigMsg α, total (m.map fun _ => 16) = 16 * m.length := by
      intro m
      induction m with
      | nil => rfl
      | cons x m ih => rw [List.map_cons, List.length_cons, Nat.mul_succ, ← ih]; simp only [total, List.foldr_cons]; omega
    rw [this]
    rfl

/-- A signature message with two chunks: 2 + 5 bytes and 2 + 32 bytes. -/
example : sigBytes ([(8192, 0), (20000, 1)] : Delta.SigMsg Nat) = 41 := by decide +kernel
example : signatures (fun n : Nat => List.replicate 16 n.toUInt8) [(8192, 7)] = [10, 2, 128, 64, 18, 16] ++ List.replicate 16 7 := by decide +kernel
example : patch ⟨[.basis, .data], [70000, 0], [300, 2], [1, 2]⟩ = [10, 2, 1, 0, 18, 4, 240, 162, 4, 0, 26, 3, 172, 2, 2, 34, 2, 1, 2] := by decide +kernel

end Verif.Sync.Enc
