/-!
# Model of the chunk provider

`data_store/data_provider.cc`, the batch reads of `data_store/data_store_reader.cc`,
`data_store/grpc_reader.cc` and `data_store/mem_data_store.cc`, and the locks of the provider.

Programs are nondeterministic: the cache can fail, the process can crash at every primitive, and
between any two primitives other threads may change every cached chunk whose mutex is not held.
-/
namespace Verif.Provider

abbrev Bytes := List UInt8
abbrev Id := List UInt8

/-! ## Programs -/

/-- Result of a program: a value, or the process was killed. -/
inductive Out (α : Type) where
  | ret (a : α)
  | crashed

/-- Result of one request to a store: `StatusOr`, distinguishing NotFound. -/
inductive Res where
  | ok (data : Bytes)
  | notFound
  | error
deriving DecidableEq

/-- The cache (`writer_`), the content mutexes held by the running call, and a flag recording that a
cache write or removal failed. -/
structure State where
  cache : Id → Option Bytes
  held : Nat → Bool
  ioFailed : Bool := false

/-- `GetContentMutex`, data_provider.cc:231-235, with `ContentId::GetByte`, content_id.cc:95-98: the
index is the first byte of the id. -/
def mutexOf (id : Id) : Nat := (id.headD 0).toNat

/-- A program: relates a start state to possible outcomes. -/
def Prog (α : Type) := State → Out α → State → Prop

def Prog.pure {α : Type} (a : α) : Prog α := fun s o s' =>
  match o with
  | .ret b => b = a ∧ s' = s
  | .crashed => False

def Prog.bind {α β : Type} (m : Prog α) (f : α → Prog β) : Prog β := fun s o s'' =>
  (∃ a s', m s (.ret a) s' ∧ f a s' o s'') ∨
  (match o with
   | .crashed => m s .crashed s''
   | .ret _ => False)

instance : Monad Prog where
  pure := Prog.pure
  bind := Prog.bind

/-! ## The environment -/

/-- The kinds of readers in `readers_`: the gRPC reader, the in-memory store, and one that uses the
default batch read of `DataStoreReader`. -/
inductive Kind where
  | grpc | mem | dflt
deriving DecidableEq

/-- The outside world. -/
structure Env where
  /-- some reader may deliver these bytes for the chunk -/
  src : Id → Bytes → Prop
  /-- a write to the cache can be torn: after a failure or a crash only a prefix of the bytes is there -/
  torn : Prop
  /-- a reader of this kind may answer that it has no such chunk, or fail; any may if nothing else is said -/
  missing : Kind → Id → Prop := fun _ _ => True
  fails : Kind → Id → Prop := fun _ _ => True

/-- `p` may be on disk after an attempt to write `d`. -/
def Written (E : Env) (p d : Bytes) : Prop := p <+: d ∧ (¬ E.torn → p = d)

section
variable (E : Env)

/-- What other threads and the cleanup thread can do to a cached chunk: leave it, remove it
(data_provider.cc:324-338, 284-286), or write it, completely or partially, with data a reader
delivered (data_provider.cc:107-114, 162-171, 211-213). -/
def CellStep (id : Id) (before after : Option Bytes) : Prop :=
  after = before ∨ after = none ∨ ∃ d p, E.src id d ∧ Written E p d ∧ after = some p

/-- Interference by other threads: every chunk whose mutex this call does not hold can change. -/
def interfere : Prog Unit := fun s o s' =>
  o = .ret () ∧ s'.held = s.held ∧ s'.ioFailed = s.ioFailed ∧
    ∀ id, (s.held (mutexOf id) = true → s'.cache id = s.cache id) ∧
      CellStep E id (s.cache id) (s'.cache id)

/-- The process is killed here, or not. -/
def mayCrash : Prog Unit := fun s o s' => s' = s ∧ (o = .ret () ∨ o = .crashed)

/-- An atomic access to the cache. -/
def access {α : Type} (r : State → α → State → Prop) : Prog α := fun s o s' =>
  match o with
  | .ret a => r s a s'
  | .crashed => False

/-- `writer_->Get(id, data, offset, size)`: `DiskDataStore::Get`, disk_data_store.cc:112-124, or
`MemDataStore::Get`, mem_data_store.cc:39-55, or an I/O error. -/
def cacheGetRange (id : Id) (offset size : Nat) : Prog Res := do
  interfere E
  mayCrash
  access fun s r s' => s' = s ∧
    match s.cache id with
    | some d => r = .error ∨ r = .ok ((d.drop offset).take size)
    | none => r = .error ∨ r = .notFound ∨ (size = 0 ∧ r = .ok [])

/-- `writer_->Get(id, buffer)`, disk_data_store.cc:126-146. -/
def cacheGet (id : Id) : Prog Res := do
  interfere E
  mayCrash
  access fun s r s' => s' = s ∧
    match s.cache id with
    | some d => r = .error ∨ r = .ok d
    | none => r = .error ∨ r = .notFound

/-- `writer_->Contains(id)`, disk_data_store.cc:215-217. -/
def cacheContains (id : Id) : Prog Bool := do
  interfere E
  mayCrash
  access fun s r s' => s' = s ∧ r = (s.cache id).isSome

/-- `writer_->Put(id, data, size)`, disk_data_store.cc:100-110: the file is opened for writing and
the bytes are written in order. A failure or a crash leaves the old content or (torn write) any prefix. -/
def cachePut (id : Id) (d : Bytes) : Prog Bool := fun s o s'' =>
  ∃ s', interfere E s (.ret ()) s' ∧
    match o with
    | .ret true => s'' = { s' with cache := fun i => if i = id then some d else s'.cache i }
    | .ret false =>
      s'' = { s' with ioFailed := true } ∨
      ∃ p, Written E p d ∧
        s'' = { s' with cache := fun i => if i = id then some p else s'.cache i, ioFailed := true }
    | .crashed =>
      s'' = s' ∨ ∃ p, Written E p d ∧ s'' = { s' with cache := fun i => if i = id then some p else s'.cache i }

/-- `writer_->Remove(id)`, disk_data_store.cc:210-213. -/
def cacheRemove (id : Id) : Prog Bool := do
  interfere E
  mayCrash
  access fun s r s' =>
    match r with
    | true => s' = { s with cache := fun i => if i = id then none else s.cache i }
    | false => s' = { s with ioFailed := true }

/-! ## Readers -/

/-- Fetching the whole chunk from a reader, which may also fail or not have it. -/
def fetch (k : Kind) (id : Id) : Prog Res := fun s o s' =>
  s' = s ∧
    match o with
    | .ret (.ok d) => E.src id d
    | .ret .notFound => E.missing k id
    | .ret .error => E.fails k id
    | .crashed => True

/-- `ChunkTransferTask`, data_store_reader.h:32-50. `buf` is the content of the target buffer (of
length `size`). -/
structure Task where
  id : Id
  offset : Nat
  size : Nat
  buf : Bytes
  chunkData : Bytes := []
  done : Bool := false
deriving DecidableEq

/-- `memcpy` to the start of a buffer. -/
def overwrite (buf d : Bytes) : Bytes := d ++ buf.drop d.length

/-- `ChunkTransferList::ReadDone`, data_store_reader.cc:23-28. -/
def readDone (ts : List Task) : Bool := ts.all fun t => t.size == 0 || t.done

/-- `ChunkTransferList::PrefetchDone`, data_store_reader.cc:30-35. -/
def prefetchDone (ts : List Task) : Bool := ts.all fun t => t.done

/-- `GrpcReader::Get(chunks)`, grpc_reader.cc:52-90. The remote store answers all ids in one request;
an error there is an error of the call (`false`); chunks before a truncated one are already done.
The model asks for the chunks one by one, so that it allows more outcomes than the code. -/
def grpcBatch : List Task → Prog (Bool × List Task)
  | [] => pure (true, [])
  | t :: ts => do
    if t.done then
      let r ← grpcBatch ts
      pure (r.1, t :: r.2)
    else
      match ← fetch E .grpc t.id with
      | .ok d =>
        let t := { t with chunkData := d }
        if d.length < t.offset + t.size then pure (false, t :: ts)
        else
          let t := { t with buf := overwrite t.buf ((d.drop t.offset).take t.size), done := true }
          let r ← grpcBatch ts
          pure (r.1, t :: r.2)
      | _ => pure (false, t :: ts)

/-- `MemDataStore::Get(chunks)`, mem_data_store.cc:70-102. -/
def memBatch : List Task → Prog (Bool × List Task)
  | [] => pure (true, [])
  | t :: ts => do
    if t.done then
      let r ← memBatch ts
      pure (r.1, t :: r.2)
    else
      match ← fetch E .mem t.id with
      | .ok d =>
        let t := { t with chunkData := d }
        if t.size = 0 then
          let r ← memBatch ts
          pure (r.1, { t with done := true } :: r.2)
        else if t.offset ≥ d.length then pure (false, t :: ts)
        else if min (d.length - t.offset) t.size < t.size then pure (false, t :: ts)
        else
          let t := { t with buf := overwrite t.buf ((d.drop t.offset).take t.size), done := true }
          let r ← memBatch ts
          pure (r.1, t :: r.2)
      | _ =>
        let r ← memBatch ts
        pure (r.1, t :: r.2)

/-- `DataStoreReader::Get(chunks)`, data_store_reader.cc:57-76, over a store whose range read clips the
chunk at its end. -/
def dfltBatch : List Task → Prog (Bool × List Task)
  | [] => pure (true, [])
  | t :: ts => do
    if t.done || t.size == 0 then
      let r ← dfltBatch ts
      pure (r.1, t :: r.2)
    else
      match ← fetch E .dflt t.id with
      | .ok d =>
        let part := (d.drop t.offset).take t.size
        let t := { t with buf := overwrite t.buf part }
        if part.length ≠ t.size then pure (false, t :: ts)
        else
          let r ← dfltBatch ts
          pure (r.1, { t with done := true } :: r.2)
      | .notFound =>
        let r ← dfltBatch ts
        pure (r.1, t :: r.2)
      | .error => pure (false, t :: ts)

def batch : Kind → List Task → Prog (Bool × List Task)
  | .grpc => grpcBatch E
  | .mem => memBatch E
  | .dflt => dfltBatch E

/-! ## `DataProvider` -/

/-- Loop of `GetFromWriter`, data_provider.cc:260-300. `acc` are the tasks already visited. -/
def fromWriterLoop (lockRequired : Bool) (acc : List Task) : List Task → Prog (List Task)
  | [] => pure acc
  | t :: ts => do
    if t.done then fromWriterLoop lockRequired (acc ++ [t]) ts
    else if t.size = 0 then
      let c ← cacheContains E t.id
      fromWriterLoop lockRequired (acc ++ [{ t with done := c }]) ts
    else
      match ← cacheGetRange E t.id t.offset t.size with
      | .ok d =>
        let t := { t with buf := overwrite t.buf d }
        if d.length = t.size then
          let t := { t with done := true }
          if readDone (acc ++ t :: ts) then pure (acc ++ t :: ts)
          else fromWriterLoop lockRequired (acc ++ [t]) ts
        else do
          if lockRequired then pure () else do
            let _ ← cacheRemove E t.id
            pure ()
          fromWriterLoop lockRequired (acc ++ [t]) ts
      | _ => fromWriterLoop lockRequired (acc ++ [t]) ts

/-- `DataProvider::GetFromWriter`, data_provider.cc:255-302. It never returns an error. -/
def getFromWriter (hasWriter lockRequired : Bool) (ts : List Task) : Prog (List Task) :=
  if !hasWriter || readDone ts then pure ts else fromWriterLoop E lockRequired [] ts

/-- Acquiring or releasing content mutexes: `f` tells which are held afterwards. That this can be done
without deadlock is a separate model (`Locks.lean`). -/
def setHeld (f : Nat → Bool) : Prog Unit := do
  interfere E
  access fun s _ s' => s' = { s with held := f }

/-- The reader loop of `Get(chunks)`, data_provider.cc:152-161. -/
def readersLoop : List Kind → List Task → Prog (Bool × List Task)
  | [], ts => pure (true, ts)
  | k :: ks, ts => do
    let r ← batch E k ts
    if !r.1 then pure r
    else if prefetchDone r.2 then pure r
    else readersLoop ks r.2

/-- The caching loop of `Get(chunks)`, data_provider.cc:163-173. -/
def putLoop : List Task → Prog Unit
  | [] => pure ()
  | t :: ts => do
    if !t.done || t.chunkData.isEmpty then putLoop ts
    else do
      let _ ← cachePut E t.id t.chunkData
      putLoop ts

/-- Result of a call: did it return OK, and what are the tasks and the cache at that time. -/
structure Answer where
  ok : Bool
  tasks : List Task
  /-- the mutexes held when returning (`WriteLockAll` happened) -/
  locked : Bool

/-- `DataProvider::Get(chunks)`, data_provider.cc:129-175, up to the release of the locks. -/
def getChunks (hasWriter : Bool) (readers : List Kind) (ts : List Task) : Prog Answer := do
  let ts ← getFromWriter E hasWriter true ts
  if readDone ts then pure ⟨true, ts, false⟩
  else
    let ids := (ts.filter fun t => !t.done).map Task.id
    setHeld E (fun m => (ids.map mutexOf).contains m)
    let ts ← getFromWriter E hasWriter false ts
    if readDone ts then pure ⟨true, ts, true⟩
    else
      let r ← readersLoop E readers ts
      if !r.1 then pure ⟨false, r.2, true⟩
      else
        if hasWriter then putLoop E r.2 else pure ()
        pure ⟨true, r.2, true⟩

/-- The reader loop of the single reads, data_provider.cc:97-124 and 202-218: whole chunk. -/
def firstReader (hasWriter : Bool) (id : Id) : List Kind → Prog Res
  | [] => pure .notFound
  | k :: ks => do
    match ← fetch E k id with
    | .notFound => firstReader hasWriter id ks
    | .error => pure .error
    | .ok d =>
      if hasWriter then
        let _ ← cachePut E id d
        pure (.ok d)
      else pure (.ok d)

/-- The guarded cache reads of the single reads, data_provider.cc:80-96 and 181-201. -/
def cacheGetIf (b : Bool) (id : Id) : Prog Res := if b then cacheGet E id else pure .notFound

/-- See `cacheGetIf`. -/
def cacheGetRangeIf (b : Bool) (id : Id) (offset size : Nat) : Prog Res :=
  if b then cacheGetRange E id offset size else pure .notFound

/-- `DataProvider::Get(id, buffer)`, data_provider.cc:177-221. -/
def getWhole (hasWriter : Bool) (readers : List Kind) (id : Id) : Prog Res := do
  let r1 ← cacheGetIf E hasWriter id
  match r1 with
  | .ok d => pure (.ok d)
  | r1 =>
    setHeld E (fun m => m == mutexOf id)
    let r2 ← cacheGetIf E (hasWriter && r1 == .notFound) id
    match r2 with
    | .ok d => pure (.ok d)
    | _ => firstReader E hasWriter id readers

/-- `DataProvider::Get(id, data, offset, size)`, data_provider.cc:74-127. -/
def getRange (hasWriter : Bool) (readers : List Kind) (id : Id) (offset size : Nat) : Prog Res := do
  let r1 ← cacheGetRangeIf E hasWriter id offset size
  match r1 with
  | .ok d => pure (.ok d)
  | r1 =>
    setHeld E (fun m => m == mutexOf id)
    let r2 ← cacheGetRangeIf E (hasWriter && r1 == .notFound) id offset size
    match r2 with
    | .ok d => pure (.ok d)
    | _ =>
      match ← firstReader E hasWriter id readers with
      | .ok b =>
        if b.length ≤ offset then pure (.ok [])
        else pure (.ok ((b.drop offset).take (min (b.length - offset) size)))
      | r => pure r

end

/-! ## Range reads of the individual sources -/

/-- `GrpcReader::Get(id, data, size, offset)`, grpc_reader.cc:37-50, on the chunk `chunk` the server
returned. -/
def grpcGetImpl (chunk : Bytes) (size offset : Nat) : Bytes :=
  if offset ≥ chunk.length then []
  else (chunk.drop offset).take (min (chunk.length - offset) size)

/-- The same function called through the base class, `DataStoreReader::Get(id, data, offset, size)`
(data_store_reader.h:92-94). The override (grpc_reader.h:46-47) declares its last two parameters in
the other order, so the offset is received as size and the size as offset. -/
def grpcGet (chunk : Bytes) (offset size : Nat) : Bytes := grpcGetImpl chunk offset size

/-- `MemDataStore::Get`, mem_data_store.cc:39-55. -/
def memGet (chunk : Bytes) (offset size : Nat) : Bytes :=
  if offset ≥ chunk.length then []
  else (chunk.drop offset).take (min (chunk.length - offset) size)

/-- `DiskDataStore::Get`, disk_data_store.cc:112-124, on a file with content `chunk`
(`path::ReadFile`, path.cc:848-870: seek to `offset`, read up to `size` bytes). -/
def diskGet (chunk : Bytes) (offset size : Nat) : Bytes :=
  if size = 0 then [] else (chunk.drop offset).take size

end Verif.Provider
