import Verif.Indexer.Model

/-! Specification of the indexer: what is to be found. -/
namespace Verif.Indexer
open Verif Verif.DirIter

/-- The files of an input: itself, or all files in the directory and those below it that may be read. -/
def Input.files (i : Input) : List Job :=
  match i.found with
  | .file => [⟨i.path, none⟩]
  | .dir .ok es => (es.listing true false true []).map fun e => ⟨i.path, some e⟩
  | .dir _ _ => []

/-- All files to be indexed. -/
def filesOf (inputs : List Input) : List Job := inputs.flatMap Input.files

/-- There are only files, symlinks, FIFOs, character devices and directories (see C134). -/
def Input.Kinds (i : Input) : Prop :=
  match i.found with
  | .file => True
  | .dir _ es => es.Kinds

/-- The input is there, and no error happens when its directories are read, other than missing permissions. -/
def Input.Readable (i : Input) : Prop :=
  match i.found with
  | .file => True
  | .dir .ok es => es.Readable
  | .dir .denied _ => True
  | .dir .error _ => False

/-- The chunks of all files (for files that are not read to their ends: those before). -/
def chunksOf {w : Nat} (E : Env w) (j : Job) : List (List UInt8) :=
  if (E.file j).opens then ((E.file j).chunks E.gear E.cfg.cdc).getD [] else []

def allChunks {w : Nat} (E : Env w) (inputs : List Input) : List (List UInt8) := (filesOf inputs).flatMap (chunksOf E)

/-- `u` has each element of `l` once. -/
def OnceEach (u l : List (List UInt8)) : Prop := u.Nodup ∧ ∀ x, x ∈ u ↔ x ∈ l

/-- The sizes of the buckets: 1024, twice as much as long as the minimum chunk size is not reached, then a step more each. -/
inductive IsBucket (c : Cfg) : Nat → Prop where
  | first : IsBucket c 1024
  | double {b : Nat} : IsBucket c b → b < c.minSize → IsBucket c (2 * b)
  | step {b : Nat} : IsBucket c b → c.minSize ≤ b → IsBucket c (b + c.step)

/-- `b` is the bucket of a chunk of size `n`: the smallest it fits in. -/
def BucketOf (c : Cfg) (n b : Nat) : Prop := IsBucket c b ∧ n ≤ b ∧ ∀ b', IsBucket c b' → n ≤ b' → b ≤ b'

end Verif.Indexer
