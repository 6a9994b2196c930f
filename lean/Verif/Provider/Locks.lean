import Verif.Util.Sort
import Verif.Provider.Model
import Mathlib.Logic.Relation

/-!
# Model of the provider's locks

The order in which the calls of `DataProvider` and its cleanup thread acquire and release mutexes, for
any number of threads.
-/
namespace Verif.Provider

/-- The mutexes of one `DataProvider`, data_provider.h:119-148. -/
inductive Lock where
  | shutdown
  | content (index : Nat)
  | cleaned
deriving DecidableEq, Repr

inductive Mode where
  | read | write
deriving DecidableEq, Repr

inductive Act where
  | lock (l : Lock) (m : Mode)
  | unlock (l : Lock)
  /-- wait for the cleanup thread to end -/
  | join
deriving DecidableEq, Repr

/-- Lexicographic order of content ids: `operator<`, content_id.h:68-70 (`std::string` compares bytes as
unsigned numbers). -/
def idLe : Id → Id → Bool
  | [], _ => true
  | _ :: _, [] => false
  | a :: as, b :: bs => if a = b then idLe as bs else decide (a.toNat < b.toNat)

/-- Loop of `WriteLockAll`, data_provider.cc:246-252: the mutexes locked, in order. -/
def writeLockLoop (locked : List Nat) : List Id → List Nat
  | [] => []
  | id :: ids =>
    if mutexOf id ∈ locked then writeLockLoop locked ids
    else mutexOf id :: writeLockLoop (mutexOf id :: locked) ids

/-- `WriteLockAll`, data_provider.cc:237-253. -/
def writeLockAll (ids : List Id) : List Nat := writeLockLoop [] (Util.isort idLe ids)

/-- `LockAllMutexes`, data_provider.cc:304-308, with `kNumberOfMutexes` (data_provider.h:111). -/
def allMutexes : List Nat := List.range 256

/-- Locking and unlocking one mutex around an access. -/
def guarded (id : Id) (m : Mode) : List Act :=
  [.lock (.content (mutexOf id)) m, .unlock (.content (mutexOf id))]

def lockThenUnlock (ms : List Nat) (inside : List Act) : List Act :=
  (ms.map fun m => Act.lock (.content m) .write) ++ inside ++ ms.map fun m => Act.unlock (.content m)

/-- What a thread can do with a provider; the arguments are the outcomes that decide which way a call
goes. -/
inductive Call where
  /-- the two single-chunk reads; `readCache`: there is a cache, `readers`: it did not have the chunk -/
  | getOne (id : Id) (readCache readers : Bool)
  /-- a batch read: chunks looked for in the cache, then, if any were missing, the missing ones -/
  | getMany (cached : List Id) (missing : List Id)
  | shutdown
  /-- waiting for a cleanup, with that many wake-ups -/
  | waitCleaned (wakeups : Nat)

/-- One round of the cleanup thread's loop, data_provider.cc:316-348: wait (which releases
`shutdown_mutex_` and takes it again), then possibly clean up. -/
def cleanerRound (cleans : Bool) : List Act :=
  [.unlock .shutdown, .lock .shutdown .write] ++
    (if cleans then lockThenUnlock allMutexes [.lock .cleaned .write, .unlock .cleaned] else [])

/-- `CleanupThreadMain`, data_provider.cc:310-350. -/
def cleanerActs (rounds : List Bool) : List Act :=
  .lock .shutdown .write :: ((rounds.map cleanerRound).flatten ++ [.unlock .shutdown])

/-- The lock operations of a call, in program order. -/
def acts : Call → List Act
  -- data_provider.cc:74-127, 177-221
  | .getOne id readCache readers =>
    (if readCache then guarded id .read else []) ++ (if readers then guarded id .write else [])
  -- data_provider.cc:129-175 with GetFromWriter, 255-302
  | .getMany cached missing =>
    (cached.map fun id => guarded id .read).flatten ++ lockThenUnlock (writeLockAll missing) []
  -- data_provider.cc:56-65
  | .shutdown => [.lock .shutdown .write, .unlock .shutdown, .join]
  -- data_provider.cc:352-360
  | .waitCleaned n =>
    .lock .cleaned .write ::
      ((List.replicate n [Act.unlock .cleaned, .lock .cleaned .write]).flatten ++ [.unlock .cleaned])

/-- A thread: what it holds and what it will do next in its current call. -/
structure Thread where
  held : List (Lock × Mode) := []
  todo : List Act := []

/-- Thread 0 is the cleanup thread. -/
abbrev Sys := Nat → Thread

def Sys.set (s : Sys) (i : Nat) (t : Thread) : Sys := fun j => if j = i then t else s j

/-- A mutex can be had in a mode unless somebody holds it in a conflicting mode (`absl::Mutex`; it is not
re-entrant). -/
def Sys.available (s : Sys) (l : Lock) (m : Mode) : Prop :=
  ∀ j m', (l, m') ∈ (s j).held → m = .read ∧ m' = .read

inductive Sys.Step : Sys → Sys → Prop
  | start (s : Sys) (i : Nat) (c : Call) (hi : i ≠ 0) (h : (s i).todo = []) :
      Step s (s.set i { s i with todo := acts c })
  | lock (s : Sys) (i : Nat) (l : Lock) (m : Mode) (rest : List Act)
      (h : (s i).todo = .lock l m :: rest) (ha : s.available l m) :
      Step s (s.set i { held := (l, m) :: (s i).held, todo := rest })
  | unlock (s : Sys) (i : Nat) (l : Lock) (rest : List Act) (h : (s i).todo = .unlock l :: rest) :
      Step s (s.set i { held := (s i).held.filter (fun e => e.1 ≠ l), todo := rest })
  | join (s : Sys) (i : Nat) (rest : List Act) (h : (s i).todo = .join :: rest) (hd : (s 0).todo = []) :
      Step s (s.set i { s i with todo := rest })

/-- All threads idle, the cleanup thread about to do the given rounds. -/
def Sys.init (rounds : List Bool) : Sys := fun i => if i = 0 then { todo := cleanerActs rounds } else {}

def Sys.Reachable (s : Sys) : Prop :=
  ∃ rounds, Relation.ReflTransGen Sys.Step (Sys.init rounds) s

end Verif.Provider
