import Verif.FastCdc.Model
import Verif.Util.DirIter

/-! # The indexer (cdc_indexer), C136-C141: model

cdc_indexer/indexer.cc and cdc_indexer/main.cc. Sizes are natural numbers; no counter reaches 2^64. -/
namespace Verif.Indexer
open Verif Verif.DirIter

/-! ### Configuration -/

/-- `IndexerConfig`, indexer.h:38-68, as far as it is given by the user. -/
structure Cfg where
  threads : Nat
  block : Nat
  minSize : Nat
  avgSize : Nat
  maxSize : Nat
  step : Nat
  deriving DecidableEq, Repr

/-- The constructor of `Impl`, indexer.cc:122-136. `hw` is `std::thread::hardware_concurrency()`. -/
def Cfg.checked (hw : Nat) (c : Cfg) : Cfg :=
  let avg := if c.avgSize = 0 then 262144 else c.avgSize
  let min := if c.minSize = 0 ∨ c.minSize > avg then avg / 2 else c.minSize
  let max := if c.maxSize = 0 ∨ c.maxSize < avg then 2 * avg else c.maxSize
  { threads := if c.threads = 0 then hw else c.threads
    block := if c.block = 0 then 4096 else c.block
    minSize := min, avgSize := avg, maxSize := max
    step := if c.step = 0 then (if min > 0 then min else 128) else c.step }

/-- The parameters of the chunker, indexer.cc:317-320. -/
def Cfg.cdc (c : Cfg) : FastCdc.Config := ⟨c.minSize, c.avgSize, c.maxSize⟩

/-! ### Jobs -/

/-- What is at the path of an input: a regular file, or a directory (`opendir` gives an error if there is nothing). -/
inductive Found where
  | file
  | dir (result : OpenResult) (entries : Entries)

/-- An input of `Run`. -/
structure Input where
  path : Name
  found : Found

/-- A file to index: the path of the input, and the entry found in it, if it is a directory (`IndexerJob`, indexer.cc:35-37, where both parts are joined). -/
structure Job where
  path : Name
  entry : Option Entry
  deriving DecidableEq, Repr

/-- `inputs_` and `dir_iter_`, indexer.cc:74-75. -/
structure Jobs where
  inputs : List Input
  iter : Option (Name × DirIter.State)

/-- `DirectoryIterator::Valid`, dir_iter.cc:207-209. -/
def Jobs.Valid (s : Jobs) : Prop := ∃ p d, s.iter = some (p, d) ∧ d.ok = true ∧ d.dirs ≠ []

/-- `Indexer::Impl::GetNextJob` while it holds the mutex, indexer.cc:174-218. The results are the job, if there is one, and whether `SetError` is called. -/
inductive Get : Jobs → Option Job → Bool → Jobs → Prop where
  /-- 183-185 -/
  | done (s : Jobs) : ¬ s.Valid → s.inputs = [] → Get s none false s
  /-- 187-194 -/
  | file (s : Jobs) (p : Name) (is : List Input) : ¬ s.Valid → s.inputs = ⟨p, .file⟩ :: is → Get s (some ⟨p, none⟩) false { s with inputs := is }
  /-- 198-200; the iterator is not valid -/
  | denied (s s' : Jobs) (p : Name) (es : Entries) (is : List Input) (d : DirIter.State) (o : Option Job) (e : Bool) : ¬ s.Valid → s.inputs = ⟨p, .dir .denied es⟩ :: is → d.ok = false →
      Get { inputs := is, iter := some (p, d) } o e s' → Get s o e s'
  /-- 201-204 -/
  | error (s : Jobs) (p : Name) (es : Entries) (is : List Input) (d : DirIter.State) : ¬ s.Valid → s.inputs = ⟨p, .dir .error es⟩ :: is → d.ok = false →
      Get s none true { inputs := is, iter := some (p, d) }
  /-- 196, for a directory that can be opened; `name` is the last part of the path. The call then goes on with `NextEntry`. -/
  | opened (s s' : Jobs) (p name : Name) (ptr : Nat) (es : Entries) (is : List Input) (o : Option Job) (e : Bool) : ¬ s.Valid → s.inputs = ⟨p, .dir .ok es⟩ :: is → ptr ≠ 0 →
      Get { inputs := is, iter := some (p, DirIter.opened true false true ptr name es) } o e s' → Get s o e s'
  /-- 208-209, 216-217 -/
  | entry (s : Jobs) (p : Name) (d d' : DirIter.State) (x : Entry) : s.iter = some (p, d) → s.Valid → Next d (some x) d' →
      Get s (some ⟨p, some x⟩) false { s with iter := some (p, d') }
  /-- 210-213 -/
  | failed (s : Jobs) (p : Name) (d d' : DirIter.State) : s.iter = some (p, d) → s.Valid → Next d none d' → d'.ok = false →
      Get s none true { s with iter := some (p, d') }
  /-- The directory is finished, and the loop goes on. -/
  | finished (s s' : Jobs) (p : Name) (d d' : DirIter.State) (o : Option Job) (e : Bool) : s.iter = some (p, d) → s.Valid → Next d none d' → d'.ok = true →
      Get { s with iter := some (p, d') } o e s' → Get s o e s'

/-! ### Files -/

/-- What happens when a file is read: the blocks read one after the other (none of them empty), and how it ends. -/
structure File where
  opens : Bool
  blocks : List (List UInt8)
  /-- The end of the file is reached, without `ferror`. -/
  complete : Bool

/-- The file can be opened and read to its end. -/
def File.Readable (f : File) : Prop := f.opens = true ∧ f.complete = true

/-- The chunks of the blocks without a call of `Finalize`, as if a read error follows. -/
def fed {w : Nat} (gear : UInt8 → BitVec w) (c : FastCdc.Config) : List UInt8 → List (List UInt8) → Option (List (List UInt8))
  | _, [] => some []
  | buf, d :: ds =>
    match FastCdc.process gear c buf d with
    | none => none
    | some (cs, buf') => (fed gear c buf' ds).map (cs ++ ·)

/-- The chunks that `IndexFile` gives to `AddChunk`, indexer.cc:341-357. -/
def File.chunks {w : Nat} (gear : UInt8 → BitVec w) (c : FastCdc.Config) (f : File) : Option (List (List UInt8)) :=
  if f.complete then FastCdc.chunkBlocks gear c f.blocks else fed gear c [] f.blocks

/-! ### Workers -/

/-- `OpStats`, indexer.h:94-102, without the time. -/
structure Stats where
  files : Nat := 0
  totalChunks : Nat := 0
  uniqueChunks : Nat := 0
  totalBytes : Nat := 0
  uniqueBytes : Nat := 0
  deriving DecidableEq, Repr

/-- `SizeBucket`, the first loop, indexer.cc:225-226. The first argument bounds the number of passes. -/
def doubling (min size : Nat) : Nat → Nat → Nat
  | 0, b => b
  | f + 1, b => if b < size ∧ b < min ∧ b < 2 ^ 63 then doubling min size f (2 * b) else b

/-- The second loop, indexer.cc:228-229. -/
def stepping (step size : Nat) : Nat → Nat → Nat
  | 0, b => b
  | f + 1, b => if b < size ∧ b < 2 ^ 63 then stepping step size f (b + step) else b

/-- `SizeBucket`, indexer.cc:222-231. Each pass of a loop adds at least 1. -/
def sizeBucket (c : Cfg) (size : Nat) : Nat :=
  let b := stepping c.step size size (doubling c.minSize size size 1024)
  if b ≥ size then b else 2 ^ 64 - 1

/-- Where a worker is: at the beginning of `GetNextJob` (indexer.cc:176), before it takes `jobs_mutex_` (177), before it adds the first of the chunks left (268), before it updates the statistics for a chunk (276), before it counts the size of a new one (286), at the end of a file (358), before it sets the error (327), or at its end. `ok` is whether the file is read to its end. -/
inductive Worker where
  | check
  | get
  | chunk (rest : List (List UInt8)) (ok : Bool)
  | stats (new : Bool) (x : List UInt8) (rest : List (List UInt8)) (ok : Bool)
  | size (x : List UInt8) (rest : List (List UInt8)) (ok : Bool)
  | addFile
  | setError
  | stopped

/-- `Indexer::Impl`, indexer.cc:71-88. The chunk map is a list of hashes with sizes. -/
structure Sys where
  jobs : Jobs
  chunks : List (List UInt8 × Nat) := []
  stats : Stats := {}
  sizes : Nat → Nat := fun _ => 0
  err : Bool := false
  worker : Nat → Worker := fun _ => .check

def set {α : Type} (f : Nat → α) (k : Nat) (v : α) : Nat → α := fun i => if i = k then v else f i

/-- What the program runs on: the checked configuration, the gear table, the hash function and the files. -/
structure Env (w : Nat) where
  cfg : Cfg
  gear : UInt8 → BitVec w
  hash : List UInt8 → List UInt8
  file : Job → File

/-- A step of one of the workers: `Worker::Run` and `IndexFile`, indexer.cc:322-361, `AddChunk`, 265-292, `AddFile`, 294-297, `HasError` and `SetError`, 299-315. -/
inductive Step {w : Nat} (E : Env w) : Sys → Sys → Prop where
  | checkOk (s : Sys) (i : Nat) : i < E.cfg.threads → s.worker i = .check → s.err = false → Step E s { s with worker := set s.worker i .get }
  | checkError (s : Sys) (i : Nat) : i < E.cfg.threads → s.worker i = .check → s.err = true → Step E s { s with worker := set s.worker i .stopped }
  | noJob (s : Sys) (i : Nat) (jobs : Jobs) (e : Bool) : i < E.cfg.threads → s.worker i = .get → Get s.jobs none e jobs →
      Step E s { s with jobs := jobs, err := s.err || e, worker := set s.worker i .stopped }
  | unreadable (s : Sys) (i : Nat) (jobs : Jobs) (j : Job) : i < E.cfg.threads → s.worker i = .get → Get s.jobs (some j) false jobs → (E.file j).opens = false →
      Step E s { s with jobs := jobs, worker := set s.worker i .setError }
  | job (s : Sys) (i : Nat) (jobs : Jobs) (j : Job) (cs : List (List UInt8)) : i < E.cfg.threads → s.worker i = .get → Get s.jobs (some j) false jobs → (E.file j).opens = true →
      (E.file j).chunks E.gear E.cfg.cdc = some cs → Step E s { s with jobs := jobs, worker := set s.worker i (.chunk cs (E.file j).complete) }
  /-- 268-273, a chunk that is in the map -/
  | oldChunk (s : Sys) (i : Nat) (x : List UInt8) (rest : List (List UInt8)) (ok : Bool) : i < E.cfg.threads → s.worker i = .chunk (x :: rest) ok → (∃ c ∈ s.chunks, c.1 = E.hash x) →
      Step E s { s with worker := set s.worker i (.stats false x rest ok) }
  /-- 268-273, a new chunk -/
  | newChunk (s : Sys) (i : Nat) (x : List UInt8) (rest : List (List UInt8)) (ok : Bool) : i < E.cfg.threads → s.worker i = .chunk (x :: rest) ok → (∀ c ∈ s.chunks, c.1 ≠ E.hash x) →
      Step E s { s with chunks := s.chunks ++ [(E.hash x, x.length)], worker := set s.worker i (.stats true x rest ok) }
  /-- 276-283, 286 -/
  | statsOld (s : Sys) (i : Nat) (x : List UInt8) (rest : List (List UInt8)) (ok : Bool) : i < E.cfg.threads → s.worker i = .stats false x rest ok →
      Step E s { s with stats := { s.stats with totalBytes := s.stats.totalBytes + x.length, totalChunks := s.stats.totalChunks + 1 }, worker := set s.worker i (.chunk rest ok) }
  /-- 276-283, 286 -/
  | statsNew (s : Sys) (i : Nat) (x : List UInt8) (rest : List (List UInt8)) (ok : Bool) : i < E.cfg.threads → s.worker i = .stats true x rest ok →
      Step E s { s with stats := { s.stats with totalBytes := s.stats.totalBytes + x.length, totalChunks := s.stats.totalChunks + 1, uniqueBytes := s.stats.uniqueBytes + x.length, uniqueChunks := s.stats.uniqueChunks + 1 }, worker := set s.worker i (.size x rest ok) }
  /-- 287-290 -/
  | size (s : Sys) (i : Nat) (x : List UInt8) (rest : List (List UInt8)) (ok : Bool) : i < E.cfg.threads → s.worker i = .size x rest ok →
      Step E s { s with sizes := set s.sizes (sizeBucket E.cfg x.length) (s.sizes (sizeBucket E.cfg x.length) + 1), worker := set s.worker i (.chunk rest ok) }
  /-- 357-358 -/
  | fileRead (s : Sys) (i : Nat) : i < E.cfg.threads → s.worker i = .chunk [] true → Step E s { s with worker := set s.worker i .addFile }
  /-- 349-351 -/
  | fileFailed (s : Sys) (i : Nat) : i < E.cfg.threads → s.worker i = .chunk [] false → Step E s { s with worker := set s.worker i .setError }
  | addFile (s : Sys) (i : Nat) : i < E.cfg.threads → s.worker i = .addFile →
      Step E s { s with stats := { s.stats with files := s.stats.files + 1 }, worker := set s.worker i .check }
  | setError (s : Sys) (i : Nat) : i < E.cfg.threads → s.worker i = .setError → Step E s { s with err := true, worker := set s.worker i .stopped }

/-- The beginning of `Run`, indexer.cc:378-391. -/
def Sys.start (inputs : List Input) : Sys := { jobs := ⟨inputs, none⟩ }

/-- A number of steps, in any order. -/
inductive Steps {w : Nat} (E : Env w) : Sys → Sys → Prop where
  | refl (s : Sys) : Steps E s s
  | step {s s' s'' : Sys} : Steps E s s' → Step E s' s'' → Steps E s s''

/-- `Run` returns, indexer.cc:394-402: all workers are at their ends. -/
def Sys.Returned {w : Nat} (E : Env w) (s : Sys) : Prop := ∀ i, i < E.cfg.threads → s.worker i = .stopped

/-! ### Tables -/

/-- `ChunkSizeBuckets`, the loop with powers of two, main.cc:236-240 (with at most `f` passes): the buckets and the size after the loop. -/
def powers (stop : Nat) : Nat → Nat → List Nat × Nat
  | 0, b => ([], b)
  | f + 1, b => if b < stop then ((powers stop f (2 * b)).1.cons b, (powers stop f (2 * b)).2) else ([], b)

/-- The loop with steps, main.cc:243-247. -/
def steps (step stop : Nat) : Nat → Nat → List Nat
  | 0, _ => []
  | f + 1, b => if b ≤ stop then b :: steps step stop f (b + step) else []

/-- `ChunkSizeBuckets`, main.cc:210-253. `sizes` are the sizes in the map with their numbers. -/
def buckets (c : Cfg) (sizes : List (Nat × Nat)) (fixedMin fixedMax : Nat) : List Nat :=
  let least := sizes.foldl (fun m x => if x.1 < m then x.1 else m) (2 ^ 31)
  let most := sizes.foldl (fun m x => if x.1 > m then x.1 else m) 0
  let first := if fixedMin > 0 then fixedMin else least
  let stop := min c.minSize most
  let p := powers stop stop first
  let last := if fixedMax > most then fixedMax else most
  p.1 ++ steps c.step last (last + 1) p.2

/-- The number of a size in the map, or 0 (`sizes.find`). -/
def count (sizes : List (Nat × Nat)) (b : Nat) : Nat :=
  match sizes.find? fun x => x.1 = b with
  | some x => x.2
  | none => 0

/-- `ShowChunkSizes`, main.cc:255-265: a line for each bucket, with its number. -/
def shown (c : Cfg) (sizes : List (Nat × Nat)) : List (Nat × Nat) :=
  (buckets c sizes 0 0).map fun b => (b, count sizes b)

/-- `WriteResultsFile`, the distribution, main.cc:320-326, 350-361: what is added to the first and the last column. -/
def column (c : Cfg) (sizes : List (Nat × Nat)) (bs : List Nat) (i : Nat) : Nat :=
  let below := ((sizes.filter fun x => x.1 < c.minSize).map (·.2)).sum
  let above := ((sizes.filter fun x => x.1 > c.maxSize).map (·.2)).sum
  count sizes (bs.getD i 0) + if i = 0 then below else if i + 1 = bs.length then above else 0

/-- `WriteResultsFile`, main.cc:267-365: the sizes in the header, and the numbers of chunks in the row (each is then divided by `unique_chunks`). `none` is the division by 0 in line 348, the end of the program. -/
def results (c : Cfg) (uniqueChunks : Nat) (sizes : List (Nat × Nat)) : Option (List Nat × List Nat) :=
  let bs := buckets c sizes c.minSize c.maxSize
  if uniqueChunks = 0 then none else some (bs, (List.range bs.length).map (column c sizes bs))

end Verif.Indexer
