/-!
# The manifest messages (proto/manifest.proto)

Names and symlink targets are byte strings. Offsets and sizes are natural numbers: all sums formed by
the modelled code are at most a file size, which is below 2^64.
-/
namespace Verif.Manifest

abbrev Id := List UInt8
abbrev Name := List UInt8

/-- `ChunkRef`, manifest.proto:36-41. -/
structure Ref where
  offset : Nat
  id : Id
deriving DecidableEq, Repr, Inhabited

/-- `IndirectChunkList`, manifest.proto:57-65. -/
structure Indirect where
  offset : Nat
  listId : Id
deriving DecidableEq, Repr, Inhabited

/-- `Asset.Type`, manifest.proto:72-81. -/
inductive Kind where
  | unknown | file | directory | symlink
deriving DecidableEq, Repr, Inhabited

/-- The fields of `Asset` (manifest.proto:70-115) except those of directories. -/
structure Meta where
  name : Name := []
  kind : Kind := .unknown
  mtime : Int := 0
  perms : Nat := 0
  fileSize : Nat := 0
  chunks : List Ref := []
  indirect : List Indirect := []
  symlink : Name := []
  inProgress : Bool := false
deriving DecidableEq, Repr, Inhabited

/-- `Asset`, manifest.proto:70-115: fields, `dir_assets`, `dir_indirect_assets`. -/
inductive Asset where
  | mk (info : Meta) (children : List Asset) (indirect : List Id)
deriving Repr, Inhabited

namespace Asset

def info : Asset → Meta
  | mk m _ _ => m

def children : Asset → List Asset
  | mk _ c _ => c

def indirect : Asset → List Id
  | mk _ _ i => i

def name (a : Asset) : Name := a.info.name

@[simp] theorem info_mk (m c i) : (mk m c i).info = m := rfl
@[simp] theorem children_mk (m c i) : (mk m c i).children = c := rfl
@[simp] theorem indirect_mk (m c i) : (mk m c i).indirect = i := rfl
@[simp] theorem name_mk (m c i) : (mk m c i).name = m.name := rfl

mutual
/-- Equality of assets is decidable. -/
def decEq : (a b : Asset) → Decidable (a = b)
  | .mk m cs i, .mk m' cs' i' =>
    if h1 : m = m' then
      if h2 : i = i' then
        match decEqL cs cs' with
        | isTrue h3 => isTrue (by rw [h1, h2, h3])
        | isFalse h3 => isFalse (by rintro ⟨⟩; exact h3 rfl)
      else isFalse (by rintro ⟨⟩; exact h2 rfl)
    else isFalse (by rintro ⟨⟩; exact h1 rfl)

def decEqL : (a b : List Asset) → Decidable (a = b)
  | [], [] => isTrue rfl
  | [], _ :: _ => isFalse (by rintro ⟨⟩)
  | _ :: _, [] => isFalse (by rintro ⟨⟩)
  | a :: as, b :: bs =>
    match decEq a b, decEqL as bs with
    | isTrue h1, isTrue h2 => isTrue (by rw [h1, h2])
    | isFalse h, _ => isFalse (by rintro ⟨⟩; exact h rfl)
    | _, isFalse h => isFalse (by rintro ⟨⟩; exact h rfl)
end

instance : DecidableEq Asset := decEq

end Asset

end Verif.Manifest
