import Verif.FuseFs.Listing
/-! # All requests of the kernel (C171-C173): cdc_fuse_fs/cdc_fuse_fs.cc

Each request that the kernel can send is handled by a function that has to reply exactly once, with a reply of a kind that belongs to the request. -/
namespace Verif.FuseFs.Ops

/-! ### Model -/

abbrev Ino := Nat
abbrev Name := List UInt8

/-- `AssetProto::Type`. -/
inductive Kind where
  | file | dir | other
  deriving DecidableEq, Repr

/-- The fields of an `AssetProto` that a reply can have. -/
structure Asset where
  kind : Kind
  perms : Nat
  size : Nat
  mtime : Int
  inProgress : Bool
  parent : Ino
  deriving DecidableEq, Repr

/-- The manifest with the data store behind it. Simplification: a node has the number of its asset; how nodes are created and freed is in Inodes.lean.
`none`, from the functions: something cannot be fetched from the data store. -/
structure Manifest where
  asset : Ino → Asset
  /-- `Asset::Lookup`. -/
  lookup : Ino → Name → Option (Option Ino)
  /-- `Asset::GetAllChildProtos`. -/
  all : Ino → Option (List (Name × Ino))
  /-- `Asset::Read` with offset and size. -/
  bytes : Ino → Nat → Nat → Option (List UInt8)

/-- The requests, `fuse_lowlevel_ops` in fuse_lowlevel.h of libfuse 2.9. Arguments that are not looked at are left out where they do not say what is asked for. -/
inductive Op where
  | lookup (parent : Ino) (name : Name)
  | forget (ino : Ino) (n : Nat)
  | getattr (ino : Ino)
  /-- Changes the mode (chmod), the owner, the size (truncate) or the times. -/
  | setattr (ino : Ino) (mode size : Option Nat) (mtime : Option Int)
  | readlink (ino : Ino)
  | mknod (parent : Ino) (name : Name)
  | mkdir (parent : Ino) (name : Name)
  | unlink (parent : Ino) (name : Name)
  | rmdir (parent : Ino) (name : Name)
  | symlink (target : Name) (parent : Ino) (name : Name)
  | rename (parent : Ino) (name : Name) (newParent : Ino) (newName : Name)
  | link (ino newParent : Ino) (newName : Name)
  | open (ino : Ino) (flags : Nat)
  | read (ino : Ino) (size off : Nat)
  | write (ino : Ino) (data : List UInt8) (off : Nat)
  | flush (ino : Ino)
  | release (ino : Ino)
  | fsync (ino : Ino)
  | opendir (ino : Ino)
  | readdir (ino : Ino) (size off : Nat)
  | releasedir (ino : Ino)
  | fsyncdir (ino : Ino)
  | statfs (ino : Ino)
  | setxattr (ino : Ino) (name value : List UInt8)
  | getxattr (ino : Ino) (name : List UInt8)
  | listxattr (ino : Ino)
  | removexattr (ino : Ino) (name : List UInt8)
  | access (ino : Ino) (mask : Nat)
  | create (parent : Ino) (name : Name)
  | getlk (ino : Ino)
  | setlk (ino : Ino)
  | bmap (ino : Ino)
  | ioctl (ino : Ino)
  | poll (ino : Ino)
  | writeBuf (ino : Ino) (data : List UInt8) (off : Nat)
  | retrieveReply (ino : Ino)
  | forgetMulti (l : List (Ino × Nat))
  | flock (ino : Ino)
  | fallocate (ino : Ino) (off len : Nat)
  deriving DecidableEq, Repr

/-- `struct stat`, the fields that are filled (`FillStatBuffer`, 257-281; the owner is always the same). -/
structure Attr where
  ino : Ino
  mode : Nat
  size : Nat
  mtime : Int
  deriving DecidableEq, Repr

/-- What is told to the kernel with the functions `fuse_reply_...`. -/
inductive Reply where
  /-- `fuse_reply_err`; 0 is success. -/
  | err (n : Nat)
  | none
  | entry (a : Attr)
  | attr (a : Attr)
  | opened (keepCache direct : Bool)
  | buf (b : List UInt8)
  /-- Block size and length of names, and the fields that are not set. -/
  | statfs (bsize namemax : Nat) (rest : List Nat)
  /-- Replies the code never gives. -/
  | readlink | created | written (n : Nat) | xattr (n : Nat) | lock | bmapped (n : Nat) | ioctl (n : Nat) | poll (n : Nat)
  deriving DecidableEq, Repr

def ENOENT : Nat := 2
def EIO : Nat := 5
def EBADF : Nat := 9
def EACCES : Nat := 13
def ENOTDIR : Nat := 20
def EISDIR : Nat := 21
def EINVAL : Nat := 22
def ENOSYS : Nat := 38

/-- The state. -/
structure State where
  m : Manifest
  /-- `IsValid()`. -/
  valid : Ino → Bool
  /-- `IsUpdated()`. -/
  updated : Ino → Bool

/-- What a handler does: the replies it gives to the request, whether it puts the request into the queue, and the state after it. -/
structure Result where
  replies : List Reply
  queued : Bool
  state : State

/-- `GetMode`, 245-254. -/
def mode (a : Asset) : Nat :=
  match a.kind with
  | .file => a.perms ||| 0o100000
  | .dir => a.perms ||| 0o040000
  | .other => a.perms

/-- `FillStatBuffer`, 257-281. -/
def stat (m : Manifest) (i : Ino) : Attr := ⟨i, mode (m.asset i), (m.asset i).size, (m.asset i).mtime⟩

/-- `ValidateInode`, 384-391: the reply it gives, if any, and what it returns. -/
def validate (s : State) (i : Ino) : List Reply × Bool := if s.valid i then ([], true) else ([.err ENOENT], false)

/-- `CdcFuseLookup`, 465-512. -/
def lookup (s : State) (parent : Ino) (name : Name) : Result :=
  let (r, ok) := validate s parent
  if !ok then ⟨r, false, s⟩
  else if (s.m.asset parent).inProgress then ⟨r, true, s⟩
  else match s.m.lookup parent name with
    | .none => ⟨r ++ [.err ENOENT], false, s⟩
    | some .none => ⟨r ++ [.err ENOENT], false, s⟩
    | some (some i) =>
      let (r', ok) := validate s i
      if !ok then ⟨r ++ r', false, s⟩
      else ⟨r ++ r' ++ [.entry (stat s.m i)], false, s⟩

/-- `CdcFuseGetAttr`, 516-529. -/
def getattr (s : State) (i : Ino) : Result :=
  let (r, ok) := validate s i
  if !ok then ⟨r, false, s⟩ else ⟨r ++ [.attr (stat s.m i)], false, s⟩

/-- `CdcFuseSetAttr`, 531-538. -/
def setattr (s : State) (i : Ino) : Result := getattr s i

/-- `CdcFuseOpen`, 542-591. `O_DIRECT` is bit 14. -/
def openFile (s : State) (i : Ino) (flags : Nat) : Result :=
  let (r, ok) := validate s i
  if !ok then ⟨r, false, s⟩
  else if (s.m.asset i).kind = .dir then ⟨r ++ [.err EISDIR], false, s⟩
  else if (s.m.asset i).kind ≠ .file then ⟨r ++ [.err EINVAL], false, s⟩
  else if flags % 4 ≠ 0 then ⟨r ++ [.err EACCES], false, s⟩
  else if (s.m.asset i).size > 0 && (s.m.asset i).inProgress then ⟨r, true, s⟩
  else
    let direct := flags.testBit 14
    let keep := !direct
    if s.updated i then ⟨r ++ [.opened false direct], false, { s with updated := fun j => if j = i then false else s.updated j }⟩
    else ⟨r ++ [.opened keep direct], false, s⟩

/-- `CdcFuseRead`, 595-621. -/
def read (s : State) (i : Ino) (size off : Nat) : Result :=
  let (r, ok) := validate s i
  if !ok then ⟨r, false, s⟩
  else if s.updated i then ⟨r ++ [.err EIO], false, s⟩
  else match s.m.bytes i off size with
    | .none => ⟨r ++ [.err EIO], false, s⟩
    | some b => ⟨r ++ [.buf b], false, s⟩

/-- `CdcFuseRelease`, 625-645. -/
def release (s : State) (i : Ino) : Result :=
  let (r, ok) := validate s i
  if !ok then ⟨r, false, s⟩
  else if (s.m.asset i).kind = .dir then ⟨r ++ [.err EISDIR], false, s⟩
  else if (s.m.asset i).kind ≠ .file then ⟨r ++ [.err EINVAL], false, s⟩
  else ⟨r ++ [.err 0], false, s⟩

/-- `CdcFuseOpenDir`, 649-674. `fi` is as the kernel sent it, without flags. -/
def openDir (s : State) (i : Ino) : Result :=
  let (r, ok) := validate s i
  if !ok then ⟨r, false, s⟩
  else if (s.m.asset i).kind ≠ .dir then ⟨r ++ [.err ENOTDIR], false, s⟩
  else if (s.m.asset i).inProgress then ⟨r, true, s⟩
  else ⟨r ++ [.opened false false], false, s⟩

/-- The type of an entry in a listing. -/
def typ (a : Asset) : Nat := (mode a) / 4096 % 16

/-- `CdcFuseReadDir`, 678-727. -/
def readDir (s : State) (i : Ino) (size off : Nat) : Result :=
  let (r, ok) := validate s i
  if !ok then ⟨r, false, s⟩
  else
    let (r', ok) := validate s (s.m.asset i).parent
    if !ok then ⟨r ++ r', false, s⟩
    else if (s.m.asset i).kind ≠ .dir then ⟨r ++ r' ++ [.err ENOTDIR], false, s⟩
    else match s.m.all i with
      | .none => ⟨r ++ r' ++ [.err EBADF], false, s⟩
      | some l =>
        let es := Listing.entries i (s.m.asset i).parent ((l.filter fun x => s.valid x.2).map fun x => ⟨x.2, typ (s.m.asset x.2), x.1⟩)
        ⟨r ++ r' ++ [.buf (Listing.readDir es size off)], false, s⟩

/-- `CdcFuseReleaseDir`, 729-744. -/
def releaseDir (s : State) (i : Ino) : Result :=
  let (r, ok) := validate s i
  if !ok then ⟨r, false, s⟩
  else if (s.m.asset i).kind ≠ .dir then ⟨r ++ [.err ENOTDIR], false, s⟩
  else ⟨r ++ [.err 0], false, s⟩

/-- `CdcFuseAccess`, 775-807, with the context that a low-level file system gets, which is the one of root (see C70). -/
def access (s : State) (_i : Ino) (_mask : Nat) : Result := ⟨[.err 0], false, s⟩

/-- The handlers, registered at 955-993. A request without a handler gets ENOSYS from libfuse. `rest`: what happens to be on the stack. -/
def handle (rest : List Nat) (s : State) : Op → Result
  | .lookup p n => lookup s p n
  | .forget _ _ => ⟨[.none], false, s⟩ -- 748-758; nodes: Inodes.lean
  | .getattr i => getattr s i
  | .setattr i _ _ _ => setattr s i
  | .readlink _ => ⟨[.err ENOSYS], false, s⟩ -- 811-814
  | .mknod _ _ => ⟨[.err ENOSYS], false, s⟩ -- not registered, as are the next six
  | .mkdir _ _ => ⟨[.err ENOSYS], false, s⟩
  | .unlink _ _ => ⟨[.err ENOSYS], false, s⟩
  | .rmdir _ _ => ⟨[.err ENOSYS], false, s⟩
  | .symlink _ _ _ => ⟨[.err ENOSYS], false, s⟩
  | .rename _ _ _ _ => ⟨[.err ENOSYS], false, s⟩
  | .link _ _ _ => ⟨[.err ENOSYS], false, s⟩
  | .open i f => openFile s i f
  | .read i n o => read s i n o
  | .write _ _ _ => ⟨[.err ENOSYS], false, s⟩ -- not registered
  | .flush _ => ⟨[.err ENOSYS], false, s⟩ -- 816-820
  | .release i => release s i
  | .fsync _ => ⟨[.err ENOSYS], false, s⟩ -- 822-827
  | .opendir i => openDir s i
  | .readdir i n o => readDir s i n o
  | .releasedir i => releaseDir s i
  | .fsyncdir _ => ⟨[.err ENOSYS], false, s⟩ -- 829-834
  | .statfs _ => ⟨[.statfs 512 255 rest], false, s⟩ -- 836-844
  | .setxattr _ _ _ => ⟨[.err ENOSYS], false, s⟩ -- 846-851
  | .getxattr _ _ => ⟨[.err ENOSYS], false, s⟩ -- 853-857
  | .listxattr _ => ⟨[.err ENOSYS], false, s⟩ -- 859-863
  | .removexattr _ _ => ⟨[.err ENOSYS], false, s⟩ -- not registered
  | .access i k => access s i k
  | .create _ _ => ⟨[.err ENOSYS], false, s⟩ -- not registered
  | .getlk _ => ⟨[.err ENOSYS], false, s⟩ -- 865-869
  | .setlk _ => ⟨[.err ENOSYS], false, s⟩ -- 871-876
  | .bmap _ => ⟨[.err ENOSYS], false, s⟩ -- 878-882
  | .ioctl _ => ⟨[.err ENOSYS], false, s⟩ -- 884-890
  | .poll _ => ⟨[.err ENOSYS], false, s⟩ -- 892-897
  | .writeBuf _ _ _ => ⟨[.err ENOSYS], false, s⟩ -- not registered
  | .retrieveReply _ => ⟨[.err ENOSYS], false, s⟩ -- 899-904
  | .forgetMulti _ => ⟨[.none], false, s⟩ -- 760-771
  | .flock _ => ⟨[.err ENOSYS], false, s⟩ -- 906-910
  | .fallocate _ _ _ => ⟨[.err ENOSYS], false, s⟩ -- 912-917

/-! ### Specification -/

/-- "Valid replies" of each request, fuse_lowlevel.h. -/
def Valid : Op → Reply → Prop
  | .lookup _ _, r => (∃ a, r = .entry a) ∨ ∃ n, r = .err n
  | .forget _ _, r => r = .none
  | .getattr _, r => (∃ a, r = .attr a) ∨ ∃ n, r = .err n
  | .setattr _ _ _ _, r => (∃ a, r = .attr a) ∨ ∃ n, r = .err n
  | .readlink _, r => r = .readlink ∨ ∃ n, r = .err n
  | .mknod _ _, r => (∃ a, r = .entry a) ∨ ∃ n, r = .err n
  | .mkdir _ _, r => (∃ a, r = .entry a) ∨ ∃ n, r = .err n
  | .unlink _ _, r => ∃ n, r = .err n
  | .rmdir _ _, r => ∃ n, r = .err n
  | .symlink _ _ _, r => (∃ a, r = .entry a) ∨ ∃ n, r = .err n
  | .rename _ _ _ _, r => ∃ n, r = .err n
  | .link _ _ _, r => (∃ a, r = .entry a) ∨ ∃ n, r = .err n
  | .open _ _, r => (∃ k d, r = .opened k d) ∨ ∃ n, r = .err n
  | .read _ size _, r => (∃ b, r = .buf b ∧ b.length ≤ size) ∨ ∃ n, r = .err n
  | .write _ _ _, r => (∃ n, r = .written n) ∨ ∃ n, r = .err n
  | .flush _, r => ∃ n, r = .err n
  | .release _, r => ∃ n, r = .err n
  | .fsync _, r => ∃ n, r = .err n
  | .opendir _, r => (∃ k d, r = .opened k d) ∨ ∃ n, r = .err n
  | .readdir _ size _, r => (∃ b, r = .buf b ∧ b.length ≤ size) ∨ ∃ n, r = .err n
  | .releasedir _, r => ∃ n, r = .err n
  | .fsyncdir _, r => ∃ n, r = .err n
  | .statfs _, r => (∃ a b c, r = .statfs a b c) ∨ ∃ n, r = .err n
  | .setxattr _ _ _, r => ∃ n, r = .err n
  | .getxattr _ _, r => (∃ b, r = .buf b) ∨ (∃ n, r = .xattr n) ∨ ∃ n, r = .err n
  | .listxattr _, r => (∃ b, r = .buf b) ∨ (∃ n, r = .xattr n) ∨ ∃ n, r = .err n
  | .removexattr _ _, r => ∃ n, r = .err n
  | .access _ _, r => ∃ n, r = .err n
  | .create _ _, r => r = .created ∨ ∃ n, r = .err n
  | .getlk _, r => r = .lock ∨ ∃ n, r = .err n
  | .setlk _, r => ∃ n, r = .err n
  | .bmap _, r => (∃ n, r = .bmapped n) ∨ ∃ n, r = .err n
  | .ioctl _, r => (∃ n, r = .ioctl n) ∨ ∃ n, r = .err n
  | .poll _, r => (∃ n, r = .poll n) ∨ ∃ n, r = .err n
  | .writeBuf _ _ _, r => (∃ n, r = .written n) ∨ ∃ n, r = .err n
  | .retrieveReply _, r => r = .none
  | .forgetMulti _, r => r = .none
  | .flock _, r => ∃ n, r = .err n
  | .fallocate _ _ _, r => ∃ n, r = .err n

/-- A read returns no more than was asked for. -/
def Manifest.Fits (m : Manifest) : Prop := ∀ i off size b, m.bytes i off size = some b → b.length ≤ size

/-- The requests that may be put into the queue. -/
def Waits : Op → Prop
  | .lookup _ _ => True
  | .open _ _ => True
  | .opendir _ => True
  | _ => False

/-! ### C171 -/

theorem validate_cases (s : State) (i : Ino) : (validate s i = ([], true) ∧ s.valid i = true) ∨ (validate s i = ([.err ENOENT], false) ∧ s.valid i = false) := by
  unfold validate
  cases s.valid i <;> simp

theorem readDir_le (es : List Listing.Entry) (size off : Nat) : (Listing.readDir es size off).length ≤ size := by
  unfold Listing.readDir
  simp only
  split
  · simp
  · simp; omega

/-- **C171** (for a single request). A handler replies exactly once and with a reply that belongs to the request, or it puts the request into the queue and does not reply; only lookups and
requests to open a file or a directory are put into the queue. (Replies to data the kernel sends back on demand are excluded: nothing is demanded.) -/
theorem C171_one_reply_partial (rest : List Nat) (s : State) (hm : s.m.Fits) (op : Op) (hop : ∀ i, op ≠ .retrieveReply i) :
    (∃ r, (handle rest s op).replies = [r] ∧ (handle rest s op).queued = false ∧ Valid op r) ∨ ((handle rest s op).replies = [] ∧ (handle rest s op).queued = true ∧ Waits op) := by
  cases op with
  | lookup p n =>
    simp only [handle, lookup]
    rcases validate_cases s p with ⟨h1, _⟩ | ⟨h1, _⟩ <;> rw [h1]
    · simp only [Bool.not_true, Bool.false_eq_true, if_false, List.nil_append]
      split
      · exact .inr ⟨rfl, rfl, trivial⟩
      · split
        · exact .inl ⟨_, rfl, rfl, .inr ⟨_, rfl⟩⟩
        · exact .inl ⟨_, rfl, rfl, .inr ⟨_, rfl⟩⟩
        · rename_i i _
          rcases validate_cases s i with ⟨h2, _⟩ | ⟨h2, _⟩ <;> rw [h2]
          · exact .inl ⟨_, rfl, rfl, .inl ⟨_, rfl⟩⟩
          · exact .inl ⟨_, rfl, rfl, .inr ⟨_, rfl⟩⟩
    · exact .inl ⟨_, rfl, rfl, .inr ⟨_, rfl⟩⟩
  | getattr i =>
    simp only [handle, getattr]
    rcases validate_cases s i with ⟨h1, _⟩ | ⟨h1, _⟩ <;> rw [h1]
    · exact .inl ⟨_, rfl, rfl, .inl ⟨_, rfl⟩⟩
    · exact .inl ⟨_, rfl, rfl, .inr ⟨_, rfl⟩⟩
  | setattr i =>
    simp only [handle, setattr, getattr]
    rcases validate_cases s i with ⟨h1, _⟩ | ⟨h1, _⟩ <;> rw [h1]
    · exact .inl ⟨_, rfl, rfl, .inl ⟨_, rfl⟩⟩
    · exact .inl ⟨_, rfl, rfl, .inr ⟨_, rfl⟩⟩
  | «open» i f =>
    simp only [handle, openFile]
    rcases validate_cases s i with ⟨h1, _⟩ | ⟨h1, _⟩ <;> rw [h1]
    · simp only [Bool.not_true, Bool.false_eq_true, if_false, List.nil_append]
      repeat' split
      all_goals first | exact .inl ⟨_, rfl, rfl, .inr ⟨_, rfl⟩⟩ | exact .inr ⟨rfl, rfl, trivial⟩ | exact .inl ⟨_, rfl, rfl, .inl ⟨_, _, rfl⟩⟩
    · exact .inl ⟨_, rfl, rfl, .inr ⟨_, rfl⟩⟩
  | read i n o =>
    simp only [handle, read]
    rcases validate_cases s i with ⟨h1, _⟩ | ⟨h1, _⟩ <;> rw [h1]
    · simp only [Bool.not_true, Bool.false_eq_true, if_false, List.nil_append]
      split
      · exact .inl ⟨_, rfl, rfl, .inr ⟨_, rfl⟩⟩
      · split
        · exact .inl ⟨_, rfl, rfl, .inr ⟨_, rfl⟩⟩
        · rename_i b hb
          exact .inl ⟨_, rfl, rfl, .inl ⟨_, rfl, hm _ _ _ _ hb⟩⟩
    · exact .inl ⟨_, rfl, rfl, .inr ⟨_, rfl⟩⟩
  | release i =>
    simp only [handle, release]
    rcases validate_cases s i with ⟨h1, _⟩ | ⟨h1, _⟩ <;> rw [h1]
    · simp only [Bool.not_true, Bool.false_eq_true, if_false, List.nil_append]
      repeat' split
      all_goals exact .inl ⟨_, rfl, rfl, ⟨_, rfl⟩⟩
    · exact .inl ⟨_, rfl, rfl, ⟨_, rfl⟩⟩
  | opendir i =>
    simp only [handle, openDir]
    rcases validate_cases s i with ⟨h1, _⟩ | ⟨h1, _⟩ <;> rw [h1]
    · simp only [Bool.not_true, Bool.false_eq_true, if_false, List.nil_append]
      repeat' split
      all_goals first | exact .inl ⟨_, rfl, rfl, .inr ⟨_, rfl⟩⟩ | exact .inr ⟨rfl, rfl, trivial⟩ | exact .inl ⟨_, rfl, rfl, .inl ⟨_, _, rfl⟩⟩
    · exact .inl ⟨_, rfl, rfl, .inr ⟨_, rfl⟩⟩
  | readdir i n o =>
    simp only [handle, readDir]
    rcases validate_cases s i with ⟨h1, _⟩ | ⟨h1, _⟩ <;> rw [h1]
    · simp only [Bool.not_true, Bool.false_eq_true, if_false, List.nil_append]
      rcases validate_cases s (s.m.asset i).parent with ⟨h2, _⟩ | ⟨h2, _⟩ <;> rw [h2]
      · simp only [Bool.not_true, Bool.false_eq_true, if_false, List.nil_append]
        split
        · exact .inl ⟨_, rfl, rfl, .inr ⟨_, rfl⟩⟩
        · split
          · exact .inl ⟨_, rfl, rfl, .inr ⟨_, rfl⟩⟩
          · exact .inl ⟨_, rfl, rfl, .inl ⟨_, rfl, readDir_le _ _ _⟩⟩
      · exact .inl ⟨_, rfl, rfl, .inr ⟨_, rfl⟩⟩
    · exact .inl ⟨_, rfl, rfl, .inr ⟨_, rfl⟩⟩
  | releasedir i =>
    simp only [handle, releaseDir]
    rcases validate_cases s i with ⟨h1, _⟩ | ⟨h1, _⟩ <;> rw [h1]
    · simp only [Bool.not_true, Bool.false_eq_true, if_false, List.nil_append]
      repeat' split
      all_goals exact .inl ⟨_, rfl, rfl, ⟨_, rfl⟩⟩
    · exact .inl ⟨_, rfl, rfl, ⟨_, rfl⟩⟩
  | statfs i => exact .inl ⟨_, rfl, rfl, .inl ⟨_, _, _, rfl⟩⟩
  | retrieveReply i => exact absurd rfl (hop i)
  | forget i n => exact .inl ⟨_, rfl, rfl, rfl⟩
  | forgetMulti l => exact .inl ⟨_, rfl, rfl, rfl⟩
  | readlink i => exact .inl ⟨_, rfl, rfl, .inr ⟨_, rfl⟩⟩
  | mknod => exact .inl ⟨_, rfl, rfl, .inr ⟨_, rfl⟩⟩
  | mkdir => exact .inl ⟨_, rfl, rfl, .inr ⟨_, rfl⟩⟩
  | symlink => exact .inl ⟨_, rfl, rfl, .inr ⟨_, rfl⟩⟩
  | link => exact .inl ⟨_, rfl, rfl, .inr ⟨_, rfl⟩⟩
  | write => exact .inl ⟨_, rfl, rfl, .inr ⟨_, rfl⟩⟩
  | writeBuf => exact .inl ⟨_, rfl, rfl, .inr ⟨_, rfl⟩⟩
  | create => exact .inl ⟨_, rfl, rfl, .inr ⟨_, rfl⟩⟩
  | getlk => exact .inl ⟨_, rfl, rfl, .inr ⟨_, rfl⟩⟩
  | bmap => exact .inl ⟨_, rfl, rfl, .inr ⟨_, rfl⟩⟩
  | ioctl => exact .inl ⟨_, rfl, rfl, .inr ⟨_, rfl⟩⟩
  | poll => exact .inl ⟨_, rfl, rfl, .inr ⟨_, rfl⟩⟩
  | getxattr => exact .inl ⟨_, rfl, rfl, .inr (.inr ⟨_, rfl⟩)⟩
  | listxattr => exact .inl ⟨_, rfl, rfl, .inr (.inr ⟨_, rfl⟩)⟩
  | unlink => exact .inl ⟨_, rfl, rfl, ⟨_, rfl⟩⟩
  | rmdir => exact .inl ⟨_, rfl, rfl, ⟨_, rfl⟩⟩
  | rename => exact .inl ⟨_, rfl, rfl, ⟨_, rfl⟩⟩
  | flush => exact .inl ⟨_, rfl, rfl, ⟨_, rfl⟩⟩
  | fsync => exact .inl ⟨_, rfl, rfl, ⟨_, rfl⟩⟩
  | fsyncdir => exact .inl ⟨_, rfl, rfl, ⟨_, rfl⟩⟩
  | setxattr => exact .inl ⟨_, rfl, rfl, ⟨_, rfl⟩⟩
  | removexattr => exact .inl ⟨_, rfl, rfl, ⟨_, rfl⟩⟩
  | access => exact .inl ⟨_, rfl, rfl, ⟨_, rfl⟩⟩
  | setlk => exact .inl ⟨_, rfl, rfl, ⟨_, rfl⟩⟩
  | flock => exact .inl ⟨_, rfl, rfl, ⟨_, rfl⟩⟩
  | fallocate => exact .inl ⟨_, rfl, rfl, ⟨_, rfl⟩⟩

/-- Not true for data the kernel sends back: it is to be replied to with `fuse_reply_none`. -/
theorem C171_retrieve_violated (rest : List Nat) (s : State) (i : Ino) : (handle rest s (.retrieveReply i)).replies = [.err ENOSYS] ∧ ¬ Valid (.retrieveReply i) (.err ENOSYS) :=
  ⟨rfl, fun h => nomatch h⟩

/-! ### Histories -/

/-- The file system with the requests that wait. `log`: the replies given, with the number of the request. -/
structure Server where
  s : State
  queue : List (Nat × Op) := []
  log : List (Nat × Reply) := []

/-- Handles a request. -/
def Server.run (rest : List Nat) (v : Server) (x : Nat × Op) : Server :=
  let r := handle rest v.s x.2
  { s := r.state, queue := if r.queued then v.queue ++ [x] else v.queue, log := v.log ++ r.replies.map fun y => (x.1, y) }

/-- What happens. -/
inductive Event where
  | request (id : Nat) (op : Op)
  /-- `SetManifest`, 1532-1620: new descriptions, some nodes become invalid or updated, and the requests that wait are handled again, in order. Simplification: requests that arrive
  meanwhile come before or after it (interleavings: Queue.lean). -/
  | manifest (s : State)

def Server.step (rest : List Nat) (v : Server) : Event → Server
  | .request id op => v.run rest (id, op)
  | .manifest s => v.queue.foldl (fun v x => v.run rest x) { v with s := s, queue := [] }

/-- A history; what is on the stack differs from one event to the next. -/
def Server.steps : Server → List (List Nat × Event) → Server
  | v, [] => v
  | v, (rest, e) :: es => Server.steps (v.step rest e) es

/-- The requests of a history. -/
def requests : List (List Nat × Event) → List (Nat × Op)
  | [] => []
  | (_, .request id op) :: es => (id, op) :: requests es
  | (_, .manifest _) :: es => requests es

def manifests : List (List Nat × Event) → List State
  | [] => []
  | (_, .request _ _) :: es => manifests es
  | (_, .manifest s) :: es => s :: manifests es

theorem state_m (rest : List Nat) (s : State) (op : Op) : (handle rest s op).state.m = s.m ∧ (handle rest s op).state.valid = s.valid ∧
    ∀ i, s.updated i = false → (handle rest s op).state.updated i = false := by
  cases op with
  | lookup p n =>
    simp only [handle, lookup]
    repeat' split
    all_goals exact ⟨rfl, rfl, fun _ h => h⟩
  | «open» i f =>
    simp only [handle, openFile]
    repeat' split
    all_goals refine ⟨rfl, rfl, fun j h => ?_⟩
    all_goals first
      | exact h
      | (show (if j = i then false else s.updated j) = false; split <;> simp [h])
  | _ =>
    simp only [handle, getattr, setattr, read, release, openDir, readDir, releaseDir, access]
    repeat' split
    all_goals first | exact ⟨rfl, rfl, fun _ h => h⟩ | exact ⟨trivial, trivial, fun _ h => h⟩

/-- Replies and waiting requests of a number, so far. -/
def Server.count (v : Server) (id : Nat) : Nat := v.log.countP (fun x => x.1 = id) + v.queue.countP fun x => x.1 = id

theorem Server.run_count (rest : List Nat) (v : Server) (x : Nat × Op) (hm : v.s.m.Fits) (hx : ∀ i, x.2 ≠ .retrieveReply i) (id : Nat) :
    (v.run rest x).count id = v.count id + if x.1 = id then 1 else 0 := by
  rcases C171_one_reply_partial rest v.s hm x.2 hx with ⟨r, h1, h2, _⟩ | ⟨h1, h2, _⟩
  · simp only [Server.run, Server.count, h1, h2, List.map_cons, List.map_nil, List.countP_append, List.countP_cons, List.countP_nil, decide_eq_true_eq]
    simp
    omega
  · simp only [Server.run, Server.count, h1, h2, List.map_nil, List.append_nil, if_true, List.countP_append, List.countP_cons, List.countP_nil, decide_eq_true_eq]
    omega

theorem Server.fold_count (rest : List Nat) (l : List (Nat × Op)) (v : Server) (hm : v.s.m.Fits) (hl : ∀ x ∈ l, ∀ i, x.2 ≠ .retrieveReply i) (id : Nat) :
    (l.foldl (fun v x => v.run rest x) v).count id = v.count id + l.countP fun x => x.1 = id := by
  induction l generalizing v with
  | nil => simp
  | cons x l ih =>
    rw [List.foldl_cons, ih (v.run rest x) (by show (handle rest v.s x.2).state.m.Fits; rw [(state_m rest v.s x.2).1]; exact hm) (fun y hy => hl y (by simp [hy])),
      Server.run_count rest v x hm (hl x (by simp)), List.countP_cons]
    simp only [decide_eq_true_eq]
    omega

/-- Everything in the queue may wait. -/
theorem Server.run_queue (rest : List Nat) (v : Server) (x : Nat × Op) (hm : v.s.m.Fits) (hx : ∀ i, x.2 ≠ .retrieveReply i) (h : ∀ y ∈ v.queue, Waits y.2) :
    ∀ y ∈ (v.run rest x).queue, Waits y.2 := by
  rcases C171_one_reply_partial rest v.s hm x.2 hx with ⟨r, _, h2, _⟩ | ⟨_, h2, h3⟩
  · simp only [Server.run, h2, Bool.false_eq_true, if_false]
    exact h
  · simp only [Server.run, h2, if_true]
    intro y hy
    rcases List.mem_append.1 hy with hy | hy
    · exact h y hy
    · rw [List.mem_singleton.1 hy]; exact h3

theorem Server.fold_queue (rest : List Nat) (l : List (Nat × Op)) (v : Server) (hm : v.s.m.Fits) (hl : ∀ x ∈ l, Waits x.2) (h : ∀ y ∈ v.queue, Waits y.2) :
    (∀ y ∈ (l.foldl (fun v x => v.run rest x) v).queue, Waits y.2) ∧ (l.foldl (fun v x => v.run rest x) v).s.m.Fits := by
  induction l generalizing v with
  | nil => exact ⟨h, hm⟩
  | cons x l ih =>
    rw [List.foldl_cons]
    refine ih _ ?_ (fun y hy => hl y (by simp [hy])) (Server.run_queue rest v x hm ?_ h)
    · show (handle rest v.s x.2).state.m.Fits
      rw [(state_m rest v.s x.2).1]; exact hm
    · intro i e
      have := hl x (by simp)
      rw [e] at this
      exact this

theorem Waits.ne {op : Op} (h : Waits op) (i : Ino) : op ≠ .retrieveReply i := by rintro rfl; exact h

theorem Server.steps_count (v : Server) (es : List (List Nat × Event)) (hm : v.s.m.Fits) (hq : ∀ y ∈ v.queue, Waits y.2) (hr : ∀ x ∈ requests es, ∀ i, x.2 ≠ .retrieveReply i)
    (hs : ∀ s ∈ manifests es, s.m.Fits) (id : Nat) :
    (v.steps es).count id = v.count id + (requests es).countP (fun x => x.1 = id) ∧ ∀ y ∈ (v.steps es).queue, Waits y.2 := by
  induction es generalizing v with
  | nil => exact ⟨by simp [Server.steps, requests], hq⟩
  | cons e es ih =>
    obtain ⟨rest, e⟩ := e
    cases e with
    | request k op =>
      simp only [Server.steps, requests, manifests] at *
      have h1 := Server.run_count rest v (k, op) hm (hr (k, op) (by simp)) id
      have h2 := ih (v.run rest (k, op)) (by show (handle rest v.s op).state.m.Fits; rw [(state_m rest v.s op).1]; exact hm) (Server.run_queue rest v (k, op) hm (hr (k, op) (by simp)) hq)
        (fun x hx => hr x (by simp [hx])) hs
      refine ⟨?_, h2.2⟩
      show (Server.steps (v.run rest (k, op)) es).count id = _
      rw [h2.1, h1, List.countP_cons]
      simp only [decide_eq_true_eq]
      omega
    | manifest s =>
      simp only [Server.steps, requests, manifests] at *
      have hm' : s.m.Fits := hs s (by simp)
      have h1 := Server.fold_count rest v.queue { v with s := s, queue := [] } hm' (fun x hx => (hq x hx).ne) id
      have h3 := Server.fold_queue rest v.queue { v with s := s, queue := [] } hm' hq (fun y hy => nomatch hy)
      have h2 := ih (v.step rest (.manifest s)) h3.2 h3.1 hr (fun s hs' => hs s (by simp [hs']))
      refine ⟨?_, h2.2⟩
      rw [h2.1, show (v.step rest (.manifest s)).count id = _ from h1]
      simp only [Server.count, List.countP_nil]
      omega

/-- **C171**. In every history of requests and new manifests that begins with no requests, a request whose number is used once has been replied to exactly once, or it has not been replied to
and is in the queue. -/
theorem C171_once_partial (s : State) (es : List (List Nat × Event)) (hm : s.m.Fits) (hs : ∀ t ∈ manifests es, t.m.Fits) (hr : ∀ x ∈ requests es, ∀ i, x.2 ≠ .retrieveReply i)
    {id : Nat} {op : Op} (hid : (id, op) ∈ requests es) (honce : (requests es).countP (fun x => x.1 = id) = 1) :
    let v := Server.steps { s := s } es
    (v.log.countP (fun x => x.1 = id) = 1 ∧ id ∉ v.queue.map (·.1)) ∨ (v.log.countP (fun x => x.1 = id) = 0 ∧ id ∈ v.queue.map (·.1)) := by
  have h := (Server.steps_count { s := s } es hm (fun y hy => nomatch hy) hr hs id).1
  rw [honce] at h
  simp only [Server.count, List.countP_nil] at h
  intro v
  have h : v.log.countP (fun x => x.1 = id) + v.queue.countP (fun x => x.1 = id) = 1 := h
  by_cases hq : v.queue.countP (fun x => x.1 = id) = 0
  · refine .inl ⟨by omega, fun hmem => ?_⟩
    obtain ⟨y, hy, e⟩ := List.mem_map.1 hmem
    exact List.countP_eq_zero.1 hq y hy (by simpa using e)
  · refine .inr ⟨by omega, ?_⟩
    obtain ⟨y, hy, e⟩ := List.countP_pos_iff.1 (Nat.pos_of_ne_zero hq)
    exact List.mem_map.2 ⟨y, hy, by simpa using e⟩

/-! ### C172 -/

/-- What programs can see of the file system. -/
def Sees : Op → Prop
  | .lookup _ _ => True
  | .getattr _ => True
  | .readdir _ _ _ => True
  | .opendir _ => True
  | .readlink _ => True
  | .getxattr _ _ => True
  | .listxattr _ => True
  | _ => False

theorem Server.steps_same (v : Server) (es : List (List Nat × Event)) (hn : manifests es = []) : (v.steps es).s.m = v.s.m ∧ (v.steps es).s.valid = v.s.valid ∧
    ∀ i, v.s.updated i = false → (v.steps es).s.updated i = false := by
  induction es generalizing v with
  | nil => exact ⟨rfl, rfl, fun _ h => h⟩
  | cons e es ih =>
    obtain ⟨rest, e⟩ := e
    cases e with
    | manifest s => simp [manifests] at hn
    | request k op =>
      obtain ⟨h1, h2, h3⟩ := ih (v.step rest (.request k op)) hn
      obtain ⟨k1, k2, k3⟩ := state_m rest v.s op
      exact ⟨h1.trans k1, h2.trans k2, fun i hi => h3 i (k3 i hi)⟩

/-- **C172**. Without a new manifest, requests change nothing: whatever programs do - write, truncate, rename, delete -, names, attributes and listings are the same as before, and so are the
bytes of every file that has been opened since its last change. -/
theorem C172_unchanged_partial (v : Server) (es : List (List Nat × Event)) (hn : manifests es = []) (rest rest' : List Nat) :
    (∀ op, Sees op → (handle rest' (v.steps es).s op).replies = (handle rest v.s op).replies) ∧
    ∀ i size off, v.s.updated i = false → (handle rest' (v.steps es).s (.read i size off)).replies = (handle rest v.s (.read i size off)).replies := by
  obtain ⟨h1, h2, h3⟩ := v.steps_same es hn
  generalize hw : (v.steps es).s = w at *
  have hv : ∀ i, validate w i = validate v.s i := fun i => by unfold validate; rw [h2]
  refine ⟨fun op hop => ?_, fun i size off hi => ?_⟩
  · cases op with
    | lookup p n => simp only [handle, lookup, hv, h1]; repeat' (first | rfl | split)
    | getattr i => simp only [handle, getattr, hv, h1]; repeat' (first | rfl | split)
    | readdir i n o => simp only [handle, readDir, hv, h1, h2]; repeat' (first | rfl | split)
    | opendir i => simp only [handle, openDir, hv, h1]; repeat' (first | rfl | split)
    | readlink => rfl
    | getxattr => rfl
    | listxattr => rfl
    | _ => exact hop.elim
  · simp only [handle, read, hv, h1, hi, h3 i hi]
    repeat' (first | rfl | split)

/-- Not true of the size of the file system and its free space: most fields are not set, and whatever is on the stack is shown. -/
theorem C172_statfs_violated (s : State) (i : Ino) : ∃ a b, (handle a s (.statfs i)).replies ≠ (handle b s (.statfs i)).replies :=
  ⟨[0], [1], by simp [handle]⟩

/-! ### C173 -/

/-- Requests to change something. -/
def Changes : Op → Prop
  | .setattr _ mode size mtime => mode ≠ .none ∨ size ≠ .none ∨ mtime ≠ .none
  | .mknod _ _ => True
  | .mkdir _ _ => True
  | .unlink _ _ => True
  | .rmdir _ _ => True
  | .symlink _ _ _ => True
  | .rename _ _ _ _ => True
  | .link _ _ _ => True
  | .open _ flags => flags % 4 = 1 ∨ flags % 4 = 2
  | .write _ _ _ => True
  | .setxattr _ _ _ => True
  | .removexattr _ _ => True
  | .create _ _ => True
  | .writeBuf _ _ _ => True
  | .fallocate _ _ _ => True
  | _ => False

/-- **C173** (other than changes of attributes). A request to create, change, rename or delete something, or to open a file for writing, is refused at once with an error. -/
theorem C173_refused_partial (rest : List Nat) (s : State) (op : Op) (hc : Changes op) (hs : ∀ i m z t, op ≠ .setattr i m z t) :
    ∃ n, n ≠ 0 ∧ (handle rest s op).replies = [.err n] ∧ (handle rest s op).queued = false := by
  cases op with
  | «open» i f =>
    have hf : f % 4 ≠ 0 := by simp only [Changes] at hc; omega
    simp only [handle, openFile]
    rcases validate_cases s i with ⟨h1, _⟩ | ⟨h1, _⟩ <;> rw [h1]
    · simp only [Bool.not_true, Bool.false_eq_true, if_false, List.nil_append]
      split
      · exact ⟨_, by decide, rfl, rfl⟩
      · split
        · exact ⟨_, by decide, rfl, rfl⟩
        · exact ⟨EACCES, by decide, by simp [hf], by simp [hf]⟩
    · exact ⟨_, by decide, rfl, rfl⟩
  | setattr i m z t => exact absurd rfl (hs i m z t)
  | mknod => exact ⟨ENOSYS, by decide, rfl, rfl⟩
  | mkdir => exact ⟨ENOSYS, by decide, rfl, rfl⟩
  | unlink => exact ⟨ENOSYS, by decide, rfl, rfl⟩
  | rmdir => exact ⟨ENOSYS, by decide, rfl, rfl⟩
  | symlink => exact ⟨ENOSYS, by decide, rfl, rfl⟩
  | rename => exact ⟨ENOSYS, by decide, rfl, rfl⟩
  | link => exact ⟨ENOSYS, by decide, rfl, rfl⟩
  | write => exact ⟨ENOSYS, by decide, rfl, rfl⟩
  | setxattr => exact ⟨ENOSYS, by decide, rfl, rfl⟩
  | removexattr => exact ⟨ENOSYS, by decide, rfl, rfl⟩
  | create => exact ⟨ENOSYS, by decide, rfl, rfl⟩
  | writeBuf => exact ⟨ENOSYS, by decide, rfl, rfl⟩
  | fallocate => exact ⟨ENOSYS, by decide, rfl, rfl⟩
  | _ => exact hc.elim

/-- Not true of chmod, chown, truncate and touch: they succeed for everything that is there, and nothing is changed. -/
theorem C173_setattr_violated (rest : List Nat) (s : State) (i : Ino) (mode size : Option Nat) (mtime : Option Int) (hv : s.valid i = true) :
    (handle rest s (.setattr i mode size mtime)).replies = [.attr (stat s.m i)] ∧ (handle rest s (.setattr i mode size mtime)).state = s := by
  have : validate s i = ([], true) := by simp [validate, hv]
  simp [handle, setattr, getattr, this]

/-! ### Examples -/

/-- A directory with a file that is not ready yet. -/
def exM (ready : Bool) : Manifest where
  asset i := if i = 1 then ⟨.dir, 0o755, 0, 0, false, 1⟩ else ⟨.file, 0o644, 2, 7, !ready, 1⟩
  lookup i n := if i = 1 ∧ n = [97] then some (some 16) else some .none
  all i := if i = 1 then some [([97], 16)] else .none
  bytes _ off size := some (([104, 105] : List UInt8).drop off |>.take size)

theorem exM_fits (b : Bool) : (exM b).Fits := by
  intro i off size b h
  cases h
  simp
  omega

def exS (ready : Bool) : State := ⟨exM ready, fun i => i = 1 || i = 16, fun _ => false⟩

/-- A file is looked up and opened; the request to open it waits for the manifest in which it is ready. Then it is read and truncated. -/
def exEvents : List (List Nat × Event) :=
  [([], .request 1 (.lookup 1 [97])), ([], .request 2 (.open 16 0)), ([], .request 3 (.open 16 1)), ([], .manifest (exS true)), ([], .request 4 (.read 16 10 1)),
   ([], .request 5 (.setattr 16 .none (some 0) .none)), ([], .request 6 (.read 16 10 0)), ([], .request 7 (.unlink 1 [97]))]

example : (Server.steps { s := exS false } (exEvents.take 3)).queue.map (·.1) = [2] := by decide

example : (Server.steps { s := exS false } exEvents).log =
    [(1, .entry ⟨16, 0o100644, 2, 7⟩), (3, .err EACCES), (2, .opened true false), (4, .buf [105]), (5, .attr ⟨16, 0o100644, 2, 7⟩), (6, .buf [104, 105]), (7, .err ENOSYS)] := by decide

/-- The hypotheses of C171. -/
example : (exS false).m.Fits ∧ (∀ t ∈ manifests exEvents, t.m.Fits) ∧ (2, Op.open 16 0) ∈ requests exEvents ∧ (requests exEvents).countP (fun x => x.1 = 2) = 1 :=
  ⟨exM_fits _, by simp [manifests, exEvents]; exact exM_fits _, by simp [requests, exEvents], by decide⟩

end Verif.FuseFs.Ops
