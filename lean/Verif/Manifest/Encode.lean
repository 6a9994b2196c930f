import Verif.Sync.SizesWire

/-! # The sizes the manifest builder computes are those of the encoded messages (C27, C28)

proto/manifest.proto, encoded as in `Sync/SizesWire.lean`. -/
namespace Verif.Manifest.Enc
open Verif.Sync.Enc (varint key number message bytes message_length bytes_length number_length flat_length)
open Verif.Sync (wire64)

/-- manifest.proto:23-31 -/
def contentId (id : Id) : List UInt8 := bytes 1 id
/-- manifest.proto:36-41 -/
def chunkRef (r : Ref) : List UInt8 := number 1 r.offset ++ message 2 (contentId r.id)
/-- manifest.proto:45-52 -/
def chunkList (l : List Ref) : List UInt8 := l.flatMap fun r => message 1 (chunkRef r)
/-- manifest.proto:58-65 -/
def indirectList (i : Indirect) : List UInt8 := number 1 i.offset ++ message 2 (contentId i.listId)

def kindCode : Kind → Nat
  | .unknown => 0
  | .file => 1
  | .directory => 2
  | .symlink => 3

/-- The fields 1 to 7, manifest.proto:84-101. -/
def before (m : Meta) : List UInt8 :=
  bytes 1 m.name ++ number 2 (kindCode m.kind) ++ number 3 (wire64 m.mtime) ++ number 4 m.perms ++ number 5 m.fileSize ++
  m.chunks.flatMap (fun r => message 6 (chunkRef r)) ++ m.indirect.flatMap (fun i => message 7 (indirectList i))

/-- The fields 10 and 11, manifest.proto:110-117. -/
def after (m : Meta) : List UInt8 := bytes 10 m.symlink ++ number 11 (if m.inProgress then 1 else 0)

mutual
/-- manifest.proto:70-118 -/
def asset : Asset → List UInt8
  | .mk m cs ids => before m ++ children cs ++ ids.flatMap (fun i => message 9 (contentId i)) ++ after m
/-- `dir_assets`, manifest.proto:104 -/
def children : List Asset → List UInt8
  | [] => []
  | a :: as => message 8 (asset a) ++ children as
end

/-- manifest.proto:124-126 -/
def assetList (l : List Asset) : List UInt8 := l.flatMap fun a => message 1 (asset a)

mutual
/-- Modification times are 64 bit numbers. -/
def Times : Asset → Prop
  | .mk m cs _ => (-2 ^ 63 ≤ m.mtime ∧ m.mtime < 2 ^ 63) ∧ TimesIn cs
def TimesIn : List Asset → Prop
  | [] => True
  | a :: as => Times a ∧ TimesIn as
end

theorem flat_sum {β : Type} (g : β → List UInt8) (k : β → Nat) (l : List β) (h : ∀ x ∈ l, (g x).length = k x) :
    (l.flatMap g).length = (l.map k).sum := by
  induction l with
  | nil => rfl
  | cons x l ih =>
    rw [List.flatMap_cons, List.length_append, h x List.mem_cons_self, ih fun y hy => h y (List.mem_cons_of_mem _ hy),
      List.map_cons, List.sum_cons]

theorem contentId_length (id : Id) : (contentId id).length = idSize id := bytes_length (by decide) id

theorem chunkRef_length (r : Ref) : (chunkRef r).length = refSize r := by
  rw [chunkRef, List.length_append, number_length (by decide), message_length (by decide), contentId_length]
  rfl

theorem chunkList_length (l : List Ref) : (chunkList l).length = chunkListSize l :=
  flat_sum _ (fun r => lenField (refSize r)) l fun r _ => by rw [message_length (by decide), chunkRef_length]

theorem indirect_length (i : Indirect) : (indirectList i).length = indirectSize i := by
  rw [indirectList, List.length_append, number_length (by decide), message_length (by decide), contentId_length]
  rfl

theorem varintLen_ten {n : Nat} (h1 : 2 ^ 63 ≤ n) (h2 : n < 2 ^ 64) : varintLen n = 10 := by
  have step : ∀ n, 128 ≤ n → varintLen n = varintLen (n / 128) + 1 := by
    intro n h; rw [varintLen, if_neg (by omega)]
  rw [step n (by omega), step (n / 128) (by omega), step (n / 128 / 128) (by omega), step (n / 128 / 128 / 128) (by omega),
    step (n / 128 / 128 / 128 / 128) (by omega), step (n / 128 / 128 / 128 / 128 / 128) (by omega),
    step (n / 128 / 128 / 128 / 128 / 128 / 128) (by omega), step (n / 128 / 128 / 128 / 128 / 128 / 128 / 128) (by omega),
    step (n / 128 / 128 / 128 / 128 / 128 / 128 / 128 / 128) (by omega), varintLen, if_pos (by omega)]

theorem meta_length (m : Meta) (h : -2 ^ 63 ≤ m.mtime ∧ m.mtime < 2 ^ 63) : (before m).length + (after m).length = metaSize m := by
  have hk : (number 2 (kindCode m.kind)).length = if m.kind = .unknown then 0 else 2 := by
    rw [number_length (by decide)]
    cases m.kind <;> decide +kernel
  have hp : (number 11 (if m.inProgress then 1 else 0)).length = if m.inProgress then 2 else 0 := by
    rw [number_length (by decide)]
    cases m.inProgress <;> decide +kernel
  have ht : (number 3 (wire64 m.mtime)).length = if m.mtime = 0 then 0 else if m.mtime < 0 then 11 else intField m.mtime.toNat := by
    rw [number_length (by decide)]
    unfold wire64
    split
    · rename_i h0; rw [h0]; rfl
    split
    · unfold intField
      rw [if_neg (by omega), varintLen_ten (by omega) (by omega)]
    · congr 1; omega
  simp only [before, after, List.length_append]
  rw [bytes_length (by decide), hk, ht, number_length (by decide), number_length (by decide),
    flat_sum _ (fun r => lenField (refSize r)) m.chunks (fun r _ => by rw [message_length (by decide), chunkRef_length]),
    flat_sum _ (fun i => lenField (indirectSize i)) m.indirect (fun i _ => by rw [message_length (by decide), indirect_length]),
    bytes_length (by decide), hp]
  unfold metaSize
  omega

mutual
theorem asset_length : ∀ a : Asset, Times a → (asset a).length = assetSize a
  | .mk m cs ids, h => by
    have h1 := meta_length m h.1
    have h2 := children_length cs h.2
    have h3 := flat_sum (fun i => message 9 (contentId i)) (fun i => lenField (idSize i)) ids
      (fun i _ => by rw [message_length (by decide), contentId_length])
    simp only [asset, assetSize, List.length_append]
    omega
theorem children_length : ∀ l : List Asset, TimesIn l → (children l).length = assetListSize l
  | [], _ => rfl
  | a :: as, h => by
    rw [children, assetListSize, List.length_append, message_length (by decide), asset_length a h.1, children_length as h.2]
end

/-- **C27, the size of a list is the length of the encoded list.** -/
theorem C27_encoded_length (l : List Ref) : (chunkList l).length = chunkListSize l := chunkList_length l

/-- **C28, the sizes of directories and of lists of entries are the lengths of the encoded messages.** -/
theorem C28_encoded_length :
    (∀ a, Times a → (asset a).length = assetSize a) ∧ ∀ l, TimesIn l → (assetList l).length = assetListSize l := by
  refine ⟨asset_length, fun l => ?_⟩
  induction l with
  | nil => intro _; rfl
  | cons a as ih =>
    intro h
    rw [assetList, List.flatMap_cons, List.length_append, message_length (by decide), asset_length a h.1, assetListSize]
    rw [← ih h.2]
    rfl

/-- Non-vacuity: a directory with one file that has one chunk, and its encoding. -/
def exDir : Asset := .mk { name := [100], kind := .directory, mtime := -1 }
  [.mk { name := [102], kind := .file, mtime := 300, perms := 6, fileSize := 7, chunks := [⟨0, [1, 2]⟩] } [] []] [[9]]
example : asset exDir = [10, 1, 100, 16, 2, 24, 255, 255, 255, 255, 255, 255, 255, 255, 255, 1,
    66, 20, 10, 1, 102, 16, 1, 24, 172, 2, 32, 6, 40, 7, 50, 6, 18, 4, 10, 2, 1, 2, 74, 3, 10, 1, 9] := by decide +kernel
example : Times exDir := by simp [exDir, Times, TimesIn]

end Verif.Manifest.Enc
