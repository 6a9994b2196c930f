/-!
# Errors of the operating system

Model of common/errno_mapping.cc:21-155 and common/errno_mapping.h:27-55: how the error number of a failed call becomes the code of a status; and of its
callers `OpenFile`, `GetStats`, `FileSize`, `CreateDir`, `CreateDirRec`, `GetSymlinkTarget` (common/path.cc) and `IndexFile` (cdc_indexer/indexer.cc).
The texts of the messages are not modelled.
-/

namespace Verif.Util.Errno

/-! ## Model -/

inductive Os where
  | linux
  | windows
deriving DecidableEq, Repr

/-- The names of the errors the switch knows, errno_mapping.cc:24-151, and two it does not know (`EIO`, `ELOOP`). -/
inductive Errno where
  | EINVAL | ENAMETOOLONG | E2BIG | EDESTADDRREQ | EDOM | EFAULT | EILSEQ | ENOPROTOOPT | ENOSTR | ENOTSOCK | ENOTTY | EPROTOTYPE | ESPIPE
  | ETIMEDOUT | ETIME
  | ENODEV | ENOENT | ENOMEDIUM | ENXIO | ESRCH
  | EEXIST | EADDRNOTAVAIL | EALREADY | ENOTUNIQ
  | EPERM | EACCES | ENOKEY | EROFS
  | ENOTEMPTY | EISDIR | ENOTDIR | EADDRINUSE | EBADF | EBADFD | EBUSY | ECHILD | EISCONN | EISNAM | ENOTBLK | ENOTCONN | EPIPE | ESHUTDOWN | ETXTBSY | EUNATCH
  | ENOSPC | EDQUOT | EMFILE | EMLINK | ENFILE | ENOBUFS | ENODATA | ENOMEM | ENOSR | EUSERS
  | ECHRNG | EFBIG | EOVERFLOW | ERANGE
  | ENOPKG | ENOSYS | ENOTSUP | EAFNOSUPPORT | EPFNOSUPPORT | EPROTONOSUPPORT | ESOCKTNOSUPPORT | EXDEV
  | EAGAIN | ECOMM | ECONNREFUSED | ECONNABORTED | ECONNRESET | EINTR | EHOSTDOWN | EHOSTUNREACH | ENETDOWN | ENETRESET | ENETUNREACH | ENOLCK | ENOLINK | ENONET
  | EDEADLK | ESTALE
  | ECANCELED
  | EIO | ELOOP
deriving DecidableEq, Repr

open Errno

/-- `<errno.h>` of Linux (asm-generic/errno-base.h, asm-generic/errno.h). -/
def linux : Errno → Nat
  | EPERM => 1 | ENOENT => 2 | ESRCH => 3 | EINTR => 4 | .EIO => 5 | ENXIO => 6 | E2BIG => 7 | EBADF => 9 | ECHILD => 10 | EAGAIN => 11 | ENOMEM => 12
  | EACCES => 13 | EFAULT => 14 | ENOTBLK => 15 | EBUSY => 16 | EEXIST => 17 | EXDEV => 18 | ENODEV => 19 | ENOTDIR => 20 | EISDIR => 21 | EINVAL => 22
  | ENFILE => 23 | EMFILE => 24 | ENOTTY => 25 | ETXTBSY => 26 | EFBIG => 27 | ENOSPC => 28 | ESPIPE => 29 | EROFS => 30 | EMLINK => 31 | EPIPE => 32
  | EDOM => 33 | ERANGE => 34 | EDEADLK => 35 | ENAMETOOLONG => 36 | ENOLCK => 37 | ENOSYS => 38 | ENOTEMPTY => 39 | ELOOP => 40 | ECHRNG => 44
  | EUNATCH => 49 | ENOSTR => 60 | ENODATA => 61 | ETIME => 62 | ENOSR => 63 | ENONET => 64 | ENOPKG => 65 | ENOLINK => 67 | ECOMM => 70 | EOVERFLOW => 75
  | ENOTUNIQ => 76 | EBADFD => 77 | EILSEQ => 84 | EUSERS => 87 | ENOTSOCK => 88 | EDESTADDRREQ => 89 | EPROTOTYPE => 91 | ENOPROTOOPT => 92
  | EPROTONOSUPPORT => 93 | ESOCKTNOSUPPORT => 94 | ENOTSUP => 95 | EPFNOSUPPORT => 96 | EAFNOSUPPORT => 97 | EADDRINUSE => 98 | EADDRNOTAVAIL => 99
  | ENETDOWN => 100 | ENETUNREACH => 101 | ENETRESET => 102 | ECONNABORTED => 103 | ECONNRESET => 104 | ENOBUFS => 105 | EISCONN => 106 | ENOTCONN => 107
  | ESHUTDOWN => 108 | ETIMEDOUT => 110 | ECONNREFUSED => 111 | EHOSTDOWN => 112 | EHOSTUNREACH => 113 | EALREADY => 114 | ESTALE => 116 | EISNAM => 120
  | EDQUOT => 122 | ENOMEDIUM => 123 | ECANCELED => 125 | ENOKEY => 126

/-- `<errno.h>` of Windows; `none`: not defined there, and the `#ifdef` leaves the case out. -/
def windows : Errno → Option Nat
  | EPERM => some 1 | ENOENT => some 2 | ESRCH => some 3 | EINTR => some 4 | .EIO => some 5 | ENXIO => some 6 | E2BIG => some 7 | EBADF => some 9
  | ECHILD => some 10 | EAGAIN => some 11 | ENOMEM => some 12 | EACCES => some 13 | EFAULT => some 14 | EBUSY => some 16 | EEXIST => some 17 | EXDEV => some 18
  | ENODEV => some 19 | ENOTDIR => some 20 | EISDIR => some 21 | EINVAL => some 22 | ENFILE => some 23 | EMFILE => some 24 | ENOTTY => some 25
  | EFBIG => some 27 | ENOSPC => some 28 | ESPIPE => some 29 | EROFS => some 30 | EMLINK => some 31 | EPIPE => some 32 | EDOM => some 33 | ERANGE => some 34
  | EDEADLK => some 36 | ENAMETOOLONG => some 38 | ENOLCK => some 39 | ENOSYS => some 40 | ENOTEMPTY => some 41 | EILSEQ => some 42 | EADDRINUSE => some 100
  | EADDRNOTAVAIL => some 101 | EAFNOSUPPORT => some 102 | EALREADY => some 103 | ECANCELED => some 105 | ECONNABORTED => some 106 | ECONNREFUSED => some 107
  | ECONNRESET => some 108 | EDESTADDRREQ => some 109 | EHOSTUNREACH => some 110 | EISCONN => some 113 | ELOOP => some 114 | ENETDOWN => some 116
  | ENETRESET => some 117 | ENETUNREACH => some 118 | ENOBUFS => some 119 | ENODATA => some 120 | ENOLINK => some 121 | ENOPROTOOPT => some 123
  | ENOSR => some 124 | ENOSTR => some 125 | ENOTCONN => some 126 | ENOTSOCK => some 128 | ENOTSUP => some 129 | EOVERFLOW => some 132
  | EPROTONOSUPPORT => some 135 | EPROTOTYPE => some 136 | ETIME => some 137 | ETIMEDOUT => some 138 | ETXTBSY => some 139
  | ENOMEDIUM | ENOTUNIQ | ENOKEY | EBADFD | EISNAM | ENOTBLK | ESHUTDOWN | EUNATCH | EDQUOT | EUSERS | ECHRNG | ENOPKG | EPFNOSUPPORT | ESOCKTNOSUPPORT
  | ECOMM | EHOSTDOWN | ENONET | ESTALE => none

def num : Os → Errno → Option Nat
  | .linux, e => some (linux e)
  | .windows, e => windows e

/-- `absl::StatusCode`. -/
inductive Code where
  | ok | cancelled | unknown | invalidArgument | deadlineExceeded | notFound | alreadyExists | permissionDenied | resourceExhausted | failedPrecondition
  | aborted | outOfRange | unimplemented | internal | unavailable
deriving DecidableEq, Repr

/-- The cases of the switch, errno_mapping.cc:25-151, with what they return. -/
def cases : List (List Errno × Code) := [
  ([EINVAL, ENAMETOOLONG, E2BIG, EDESTADDRREQ, EDOM, EFAULT, EILSEQ, ENOPROTOOPT, ENOSTR, ENOTSOCK, ENOTTY, EPROTOTYPE, ESPIPE], .invalidArgument),
  ([ETIMEDOUT, ETIME], .deadlineExceeded),
  ([ENODEV, ENOENT, ENOMEDIUM, ENXIO, ESRCH], .notFound),
  ([EEXIST, EADDRNOTAVAIL, EALREADY, ENOTUNIQ], .alreadyExists),
  ([EPERM, EACCES, ENOKEY, EROFS], .permissionDenied),
  ([ENOTEMPTY, EISDIR, ENOTDIR, EADDRINUSE, EBADF, EBADFD, EBUSY, ECHILD, EISCONN, EISNAM, ENOTBLK, ENOTCONN, EPIPE, ESHUTDOWN, ETXTBSY, EUNATCH],
    .failedPrecondition),
  ([ENOSPC, EDQUOT, EMFILE, EMLINK, ENFILE, ENOBUFS, ENODATA, ENOMEM, ENOSR, EUSERS], .resourceExhausted),
  ([ECHRNG, EFBIG, EOVERFLOW, ERANGE], .outOfRange),
  ([ENOPKG, ENOSYS, ENOTSUP, EAFNOSUPPORT, EPFNOSUPPORT, EPROTONOSUPPORT, ESOCKTNOSUPPORT, EXDEV], .unimplemented),
  ([EAGAIN, ECOMM, ECONNREFUSED, ECONNABORTED, ECONNRESET, EINTR, EHOSTDOWN, EHOSTUNREACH, ENETDOWN, ENETRESET, ENETUNREACH, ENOLCK, ENOLINK, ENONET],
    .unavailable),
  ([EDEADLK, ESTALE], .aborted),
  ([ECANCELED], .cancelled)]

/-- `ErrnoToCanonicalCode`, errno_mapping.cc:21-155. -/
def codeOf (os : Os) (n : Nat) : Code :=
  if n = 0 then .ok
  else match cases.find? fun c => c.1.any fun e => num os e == some n with
    | some c => c.2
    | none => .unknown

/-- `ErrnoToCanonicalStatus`, errno_mapping.h:30-39, without the message. -/
def errnoStatus (os : Os) (n : Nat) : Code := if n = 0 then .ok else codeOf os n

/-- `std::error_category`, as far as it is distinguished. -/
inductive Category where
  | system
  | generic
deriving DecidableEq, Repr

/-- `ErrorCodeToCanonicalStatus`, errno_mapping.h:41-52, without the message. -/
def errorCodeStatus (os : Os) (category : Category) (n : Nat) : Code :=
  if n = 0 then .ok
  else if category = .system then codeOf os n
  else .unknown

/-- A failed call of the operating system. Its functions of the C library (`open`, `stat`) set `errno`, which is not 0 then. -/
structure Failed (os : Os) where
  errno : Nat
  pos : 0 < errno

/-- What `stat` tells, `path::Stats`, common/path.h. -/
structure Stats where
  mode : Nat := 0
  size : Nat := 0
  time : Int := 0
deriving DecidableEq, Repr

/-- `GetStats`, common/path.cc:923-941. -/
def getStats (os : Os) (r : Except (Failed os) Stats) : Code × Stats :=
  match r with
  | .error f => (errnoStatus os f.errno, {})
  | .ok s => (.ok, s)

/-- `FileSize`, common/path.cc:943-949; `size` is what the caller's variable holds before. -/
def fileSize (os : Os) (r : Except (Failed os) Stats) (size : Nat) : Code × Nat :=
  if (getStats os r).1 ≠ .ok then ((getStats os r).1, size) else (.ok, (getStats os r).2.size)

/-- `DirExists`, `FileExists`, `Exists`, common/path.cc:1009-1022; 0xF000 is `MODE_IFMT`, 0x4000 `MODE_IFDIR`, 0x8000 `MODE_IFREG` (common/path.h:349-352). -/
def dirExists (os : Os) (r : Except (Failed os) Stats) : Bool := (getStats os r).1 == .ok && (getStats os r).2.mode &&& 0xF000 == 0x4000
def fileExists (os : Os) (r : Except (Failed os) Stats) : Bool := (getStats os r).1 == .ok && (getStats os r).2.mode &&& 0xF000 == 0x8000
def pathExists (os : Os) (r : Except (Failed os) Stats) : Bool := (getStats os r).1 == .ok

/-- `OpenFile`, common/path.cc:477-494: the stream, or the code. (A `StatusOr` made from an OK status would be an internal error.) -/
def openFile (os : Os) (r : Except (Failed os) Nat) : Except Code Nat :=
  match r with
  | .error f => .error (if errnoStatus os f.errno = .ok then .internal else errnoStatus os f.errno)
  | .ok file => .ok file

/-- An error of `std::filesystem` (trusted: the library). On Linux libstdc++ and libc++ give `errno` with the generic category; on Windows the library
gives the number of `GetLastError()` with the system category. -/
def fsCategory : Os → Category
  | .linux => .generic
  | .windows => .system

/-- `CreateDir`, `CreateDirRec` and `GetSymlinkTarget` if `std::filesystem` reports the error `n`, common/path.cc:997-1007, 1024-1037. -/
def fsStatus (os : Os) (n : Nat) : Code := errorCodeStatus os (fsCategory os) n

/-- The result of `ferror` after a failed read: 1 on Linux (glibc), `_IOERR` = 0x10 on Windows. -/
def ferror : Os → Nat
  | .linux => 1
  | .windows => 16

/-- `IndexFile` if a read fails, cdc_indexer/indexer.cc:345-351: not `errno` is converted but the result of `ferror`. -/
def indexReadError (os : Os) (_ : Failed os) : Code := errnoStatus os (ferror os)

/-! ## Specification -/

/-- What an error is about. -/
inductive Kind where
  | badArgument | tooLate | missing | alreadyThere | forbidden | wrongState | noRoom | tooLarge | notSupported | tryAgain | conflict | cancelled | other
deriving DecidableEq, Repr

/-- What is wrong, by the description of the error. -/
def kind : Errno → Kind
  -- no such file or directory, device, device or address, process, medium
  | ENOENT | ENODEV | ENXIO | ESRCH | ENOMEDIUM => .missing
  -- file exists, address not available, already in progress, name not unique
  | EEXIST | EADDRNOTAVAIL | EALREADY | ENOTUNIQ => .alreadyThere
  -- not permitted, denied, no key, read only
  | EPERM | EACCES | ENOKEY | EROFS => .forbidden
  -- not empty, is a directory, is not a directory, in use, bad descriptor, busy, no child, connected, not connected, broken pipe, ...
  | ENOTEMPTY | EISDIR | ENOTDIR | EADDRINUSE | EBADF | EBADFD | EBUSY | ECHILD | EISCONN | EISNAM | ENOTBLK | ENOTCONN | EPIPE | ESHUTDOWN | ETXTBSY
  | EUNATCH => .wrongState
  -- no space, quota, too many files or links, no memory, no buffers, no data
  | ENOSPC | EDQUOT | EMFILE | ENFILE | EMLINK | ENOMEM | ENOBUFS | ENODATA | ENOSR | EUSERS => .noRoom
  | EFBIG | EOVERFLOW | ERANGE | ECHRNG => .tooLarge
  | ENOSYS | ENOTSUP | EXDEV | ENOPKG | EAFNOSUPPORT | EPFNOSUPPORT | EPROTONOSUPPORT | ESOCKTNOSUPPORT => .notSupported
  | EAGAIN | EINTR | ENOLCK | ECOMM | ECONNREFUSED | ECONNABORTED | ECONNRESET | EHOSTDOWN | EHOSTUNREACH | ENETDOWN | ENETRESET | ENETUNREACH | ENOLINK
  | ENONET => .tryAgain
  | EDEADLK | ESTALE => .conflict
  | ETIMEDOUT | ETIME => .tooLate
  | ECANCELED => .cancelled
  | EINVAL | ENAMETOOLONG | E2BIG | EDESTADDRREQ | EDOM | EFAULT | EILSEQ | ENOPROTOOPT | ENOSTR | ENOTSOCK | ENOTTY | EPROTOTYPE | ESPIPE => .badArgument
  | .EIO | ELOOP => .other

/-- The code a caller expects for it. -/
def Kind.code : Kind → Code
  | .badArgument => .invalidArgument
  | .tooLate => .deadlineExceeded
  | .missing => .notFound
  | .alreadyThere => .alreadyExists
  | .forbidden => .permissionDenied
  | .wrongState => .failedPrecondition
  | .noRoom => .resourceExhausted
  | .tooLarge => .outOfRange
  | .notSupported => .unimplemented
  | .tryAgain => .unavailable
  | .conflict => .aborted
  | .cancelled => .cancelled
  | .other => .unknown

/-- The error `e` has the number `n`. -/
def Is (os : Os) (n : Nat) (e : Errno) : Prop := num os e = some n

instance (os : Os) (n : Nat) (e : Errno) : Decidable (Is os n e) := by unfold Is; infer_instance

/-- The code tells the kind of the error with this number; `unknown` if the number is no known error. -/
def Tells (os : Os) (n : Nat) (c : Code) : Prop :=
  (∀ e, Is os n e → c = (kind e).code) ∧ ((∀ e, ¬ Is os n e) → c = .unknown)

/-- Errors of the file system of Windows that `GetLastError` reports, with their numbers (winerror.h) and their kinds. -/
inductive Win32 where
  | fileNotFound | pathNotFound | accessDenied | writeProtect | diskFull | alreadyExists | sharingViolation
deriving DecidableEq, Repr

def Win32.num : Win32 → Nat
  | .fileNotFound => 2
  | .pathNotFound => 3
  | .accessDenied => 5
  | .writeProtect => 19
  | .sharingViolation => 32
  | .diskFull => 112
  | .alreadyExists => 183

def Win32.kind : Win32 → Kind
  | .fileNotFound | .pathNotFound => .missing
  | .accessDenied | .writeProtect => .forbidden
  | .sharingViolation => .wrongState
  | .diskFull => .noRoom
  | .alreadyExists => .alreadyThere

/-! ## Proof -/

theorem code_known (os : Os) (e : Errno) (n : Nat) (h : num os e = some n) : codeOf os n = (kind e).code := by
  cases os
  · cases h; cases e <;> decide +kernel
  · cases e <;> first | (cases h; done) | (cases h; decide +kernel)

theorem find_none {os : Os} {n : Nat} (h : ∀ e, num os e ≠ some n) : (cases.find? fun c => c.1.any fun e => num os e == some n) = none := by
  rw [List.find?_eq_none]
  intro c _ hc
  obtain ⟨e, _, he⟩ := List.any_eq_true.1 hc
  exact h e (by simpa using he)

theorem cases_ok : ∀ c ∈ cases, c.2 ≠ .ok := by decide

theorem codeOf_ok (os : Os) (n : Nat) : codeOf os n = .ok ↔ n = 0 := by
  unfold codeOf
  split
  · simp_all
  · rename_i h
    constructor
    · intro hc
      split at hc
      · rename_i c hf
        exact absurd hc (cases_ok c (List.mem_of_find?_eq_some hf))
      · cases hc
    · intro h0; exact absurd h0 h

/-- **C206** The code of an error number tells what is wrong, on both systems: every error has the code of its kind, a number that is no known error is
`unknown`, and only 0 is no error. -/
theorem C206_errno (os : Os) (n : Nat) : (errnoStatus os n = .ok ↔ n = 0) ∧ (0 < n → Tells os n (errnoStatus os n)) := by
  refine ⟨?_, fun h => ⟨fun e he => ?_, fun hn => ?_⟩⟩
  · unfold errnoStatus
    split
    · simp_all
    · exact codeOf_ok os n
  · unfold errnoStatus; rw [if_neg (by omega)]; exact code_known os e n he
  · unfold errnoStatus codeOf; rw [if_neg (by omega), if_neg (by omega), find_none hn]

/-- **C206** Opening a file: what the system gives is returned, and if it fails the error tells why; in particular it is `notFound` for `ENOENT`. -/
theorem C206_open (os : Os) (r : Except (Failed os) Nat) :
    match r, openFile os r with
    | .ok file, .ok file' => file' = file
    | .error f, .error c => c ≠ .ok ∧ Tells os f.errno c
    | _, _ => False := by
  cases r with
  | ok file => rfl
  | error f =>
    have h := C206_errno os f.errno
    have h0 : errnoStatus os f.errno ≠ .ok := fun e => absurd (h.1.1 e) (Nat.pos_iff_ne_zero.1 f.pos)
    show (if errnoStatus os f.errno = .ok then Code.internal else errnoStatus os f.errno) ≠ .ok ∧ _
    rw [if_neg h0]
    exact ⟨h0, h.2 f.pos⟩

/-- **C206** Looking at a file: it succeeds with what the system tells, or the error tells why not, and nothing is said about the file. Its size is stored
if and only if it succeeds. -/
theorem C206_stat (os : Os) (r : Except (Failed os) Stats) (size : Nat) :
    match r with
    | .ok s => getStats os r = (.ok, s) ∧ fileSize os r size = (.ok, s.size)
    | .error f => (getStats os r).1 ≠ .ok ∧ Tells os f.errno (getStats os r).1 ∧ (getStats os r).2 = {} ∧ fileSize os r size = ((getStats os r).1, size) := by
  cases r with
  | ok s => exact ⟨rfl, rfl⟩
  | error f =>
    have h := C206_errno os f.errno
    have h0 : errnoStatus os f.errno ≠ .ok := fun e => absurd (h.1.1 e) (Nat.pos_iff_ne_zero.1 f.pos)
    refine ⟨h0, h.2 f.pos, rfl, ?_⟩
    show (if errnoStatus os f.errno ≠ .ok then _ else _) = _
    rw [if_pos h0]

/-- **C206** Something exists if and only if the system can look at it; and it is a directory or a file if its mode says so, but never both. -/
theorem C206_exists (os : Os) (r : Except (Failed os) Stats) :
    (pathExists os r = true ↔ ∃ s, r = .ok s) ∧
    (dirExists os r = true ↔ ∃ s, r = .ok s ∧ s.mode &&& 0xF000 = 0x4000) ∧
    (fileExists os r = true ↔ ∃ s, r = .ok s ∧ s.mode &&& 0xF000 = 0x8000) ∧
    ¬ (dirExists os r = true ∧ fileExists os r = true) := by
  cases r with
  | ok s =>
    refine ⟨by simp [pathExists, getStats], by simp [dirExists, getStats], by simp [fileExists, getStats], ?_⟩
    rintro ⟨h1, h2⟩
    simp [dirExists, getStats] at h1
    simp [fileExists, getStats] at h2
    omega
  | error f =>
    have h := C206_errno os f.errno
    have h0 : errnoStatus os f.errno ≠ .ok := fun e => absurd (h.1.1 e) (Nat.pos_iff_ne_zero.1 f.pos)
    have hb : ((getStats os (.error f)).1 == Code.ok) = false := by
      show (errnoStatus os f.errno == Code.ok) = false
      simpa using h0
    refine ⟨by simp [pathExists, hb], by simp [dirExists, hb], by simp [fileExists, hb], by simp [dirExists, hb]⟩

/-- **C206** (partial) A directory that cannot be created, or a link that cannot be read, is an error; missing: which one, see the next theorems. -/
theorem C206_filesystem_partial (os : Os) (n : Nat) : fsStatus os n = .ok ↔ n = 0 := by
  unfold fsStatus errorCodeStatus
  split
  · simp_all
  · split
    · exact codeOf_ok os n
    · simp_all

/-- **C206** (violated) On Linux an error of these operations is always `unknown`, also if the error is a known one: no space, no permission, no such file. -/
theorem C206_linux_violated (n : Nat) (h : 0 < n) : fsStatus .linux n = .unknown ∧ (∀ e, Is .linux n e → kind e ≠ .other → ¬ Tells .linux n (fsStatus .linux n)) := by
  have h1 : fsStatus .linux n = .unknown := by
    unfold fsStatus errorCodeStatus
    rw [if_neg (by omega), if_neg (by decide)]
  refine ⟨h1, fun e he hk ht => ?_⟩
  have := ht.1 e he
  rw [h1] at this
  generalize kind e = k at *
  cases k <;> first | (cases this; done) | exact hk rfl

/-- **C206** (violated) On Windows the number of `GetLastError` is looked up as if it were an `errno`: only for a missing file or directory, and (by chance:
32 is `EPIPE`) for a file in use, the code is the right one; a disk that is write protected is `notFound`. -/
theorem C206_windows_violated (w : Win32) :
    (fsStatus .windows w.num = w.kind.code ↔ w = .fileNotFound ∨ w = .pathNotFound ∨ w = .sharingViolation) ∧
    fsStatus .windows Win32.writeProtect.num = .notFound := by
  cases w <;> decide +kernel

/-- **C206** (violated) The indexer reports any error while reading as if permission were denied (Linux) or the file busy (Windows). -/
theorem C206_indexer_violated (f : Failed .linux) (g : Failed .windows) :
    indexReadError .linux f = .permissionDenied ∧ indexReadError .windows g = .failedPrecondition ∧
    (∀ e, Is .linux f.errno e → kind e ≠ .forbidden → ¬ Tells .linux f.errno (indexReadError .linux f)) := by
  have h1 : indexReadError .linux f = .permissionDenied := by show errnoStatus .linux 1 = _; decide +kernel
  refine ⟨h1, by show errnoStatus .windows 16 = _; decide +kernel, fun e he hk ht => ?_⟩
  have := ht.1 e he
  rw [h1] at this
  generalize kind e = k at *
  cases k <;> first | (cases this; done) | exact hk rfl

/-! ### Examples -/

example : Is .linux 28 ENOSPC ∧ errnoStatus .linux 28 = .resourceExhausted := by decide +kernel
example : Is .windows 42 EILSEQ ∧ errnoStatus .windows 42 = .invalidArgument ∧ errnoStatus .linux 42 = .unknown := by decide +kernel
example : openFile .linux (.error ⟨2, by decide⟩) = .error .notFound := by rfl
example : getStats .linux (.ok { mode := 0x81A4, size := 5 }) = (.ok, { mode := 0x81A4, size := 5 }) ∧
    fileExists .linux (.ok { mode := 0x81A4, size := 5 }) = true ∧ dirExists .linux (.ok { mode := 0x41ED }) = true := by decide +kernel
example : indexReadError .linux ⟨5, by decide⟩ = .permissionDenied ∧ Is .linux 5 EIO ∧ kind EIO ≠ .forbidden := by
  refine ⟨by rfl, by decide, by decide⟩
example : fsStatus .linux (linux ENOSPC) = .unknown ∧ (kind ENOSPC).code = .resourceExhausted := by decide +kernel

end Verif.Util.Errno
