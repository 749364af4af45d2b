import Verif.Model.Prog
/-
impl/posix_file.ipp and impl/win32_file.ipp: the loops around the system calls. `Model/File`
treats every member function of `File` as one operation; here its system calls may be
interrupted, may transfer fewer bytes than requested, fail, or be cut short by the death of
the process. Offsets are natural numbers here; `off_t` bounds them by 2^63.
-/
namespace NuDB

/-- What the operating system does with a system call: it transfers (up to) `n` bytes, is
interrupted by a signal (`EINTR`), fails, or the process dies after `n` bytes. -/
inductive Reply
  | some (n : Nat) | intr | fail | die (n : Nat)
deriving DecidableEq, Repr

/-- `SSIZE_MAX`, the largest amount for a system call (posix_file.ipp 123-124). -/
def ssizeMax : Nat := 2 ^ 63 - 1

/-- `numeric_limits<DWORD>::max()` (win32_file.ipp 131-135). -/
def dwordMax : Nat := 2 ^ 32 - 1

/-- How many bytes a successful `pread` of `amount` bytes returns: none only at the end of the
file. -/
def transferred (f : Bytes) (off amount n : Nat) : Nat := min (max n 1) (min amount (f.length - off))

/-- The loop of `posix_file::read` (posix_file.ipp 121-141). The list has, for every system call,
the reply and the content of the file at that moment; `none` if the loop has not ended when the
list is exhausted. The result comes with the rest of the list. -/
def posixRead : List (Reply × Bytes) → (off bytes : Nat) → (buffer : Bytes) → Option (Res Bytes × List (Reply × Bytes))
  | rs, _, 0, buf => .some (.ok buf, rs)
  | [], _, _ + 1, _ => .none
  | (.intr, _) :: rs, off, bytes + 1, buf => posixRead rs off (bytes + 1) buf
  | (.fail, _) :: rs, _, _ + 1, _ => .some (.error (.err .io), rs)
  | (.die _, _) :: rs, _, _ + 1, _ => .some (.error .crash, rs)
  | (.some n, f) :: rs, off, bytes + 1, buf =>
    let m := transferred f off (min (bytes + 1) ssizeMax) n
    if m = 0 then .some (.error (.err .short_read), rs)
    else posixRead rs (off + m) (bytes + 1 - m) (buf ++ slice f off m)

/-- The loop of `win32_file::read` (win32_file.ipp 122-155). A call is not interrupted; reading at
the end of the file fails with `ERROR_HANDLE_EOF` or transfers nothing. -/
def win32Read : List (Reply × Bytes) → (off bytes : Nat) → (buffer : Bytes) → Option (Res Bytes × List (Reply × Bytes))
  | rs, _, 0, buf => .some (.ok buf, rs)
  | [], _, _ + 1, _ => .none
  | (.intr, _) :: rs, _, _ + 1, _ => .some (.error (.err .io), rs)
  | (.fail, _) :: rs, _, _ + 1, _ => .some (.error (.err .io), rs)
  | (.die _, _) :: rs, _, _ + 1, _ => .some (.error .crash, rs)
  | (.some n, f) :: rs, off, bytes + 1, buf =>
    let m := transferred f off (min (bytes + 1) dwordMax) n
    if m = 0 then .some (.error (.err .short_read), rs)
    else win32Read rs (off + m) (bytes + 1 - m) (buf ++ slice f off m)

/-- `pwrite` of these bytes. With `O_APPEND` see `fAppend`. -/
def pwrite (append : Bool) (f : FileSt) (off : Nat) (bs : Bytes) : Res FileSt :=
  if append = true ∧ off ≠ f.cur.length then .error .ub else .ok (f.push (.write off bs))

/-- The loop of `posix_file::write` (posix_file.ipp 151-167). A result of zero is not treated
specially. -/
def posixWrite (append : Bool) : List Reply → FileSt → (off : Nat) → (buffer : Bytes) →
    Option (Res Unit × FileSt × List Reply)
  | rs, f, _, [] => .some (.ok (), f, rs)
  | [], _, _, _ :: _ => .none
  | .intr :: rs, f, off, b :: bs => posixWrite append rs f off (b :: bs)
  | .fail :: rs, f, _, _ :: _ => .some (.error (.err .io), f, rs)
  | .die n :: rs, f, off, b :: bs =>
    match pwrite append f off ((b :: bs).take n) with
    | .error x => .some (.error x, f, rs)
    | .ok f' => .some (.error .crash, f', rs)
  | .some n :: rs, f, off, b :: bs =>
    let m := min n (min (b :: bs).length ssizeMax)
    match pwrite append f off ((b :: bs).take m) with
    | .error x => .some (.error x, f, rs)
    | .ok f' => posixWrite append rs f' (off + m) ((b :: bs).drop m)

/-- The loop of `win32_file::write` (win32_file.ipp 164-192). Files opened for appending are not
special. A result of zero is an error. -/
def win32Write : List Reply → FileSt → (off : Nat) → (buffer : Bytes) → Option (Res Unit × FileSt × List Reply)
  | rs, f, _, [] => .some (.ok (), f, rs)
  | [], _, _, _ :: _ => .none
  | .intr :: rs, f, _, _ :: _ => .some (.error (.err .io), f, rs)
  | .fail :: rs, f, _, _ :: _ => .some (.error (.err .io), f, rs)
  | .die n :: rs, f, off, b :: bs => .some (.error .crash, f.push (.write off ((b :: bs).take n)), rs)
  | .some n :: rs, f, off, b :: bs =>
    let m := min n (min (b :: bs).length dwordMax)
    if m = 0 then .some (.error (.err .io), f, rs)
    else win32Write rs (f.push (.write off ((b :: bs).take m))) (off + m) ((b :: bs).drop m)

/-- The loop of `posix_file::sync` (posix_file.ipp 174-182). -/
def posixSync : List Reply → FileSt → Option (Res Unit × FileSt × List Reply)
  | [], _ => .none
  | .intr :: rs, f => posixSync rs f
  | .fail :: rs, f => .some (.error (.err .io), f, rs)
  | .die _ :: rs, f => .some (.error .crash, f, rs)
  | .some _ :: rs, f => .some (.ok (), f.synced, rs)

/-- The loop of `posix_file::trunc` (posix_file.ipp 190-198). -/
def posixTrunc : List Reply → FileSt → (length : Nat) → Option (Res Unit × FileSt × List Reply)
  | [], _, _ => .none
  | .intr :: rs, f, n => posixTrunc rs f n
  | .fail :: rs, f, _ => .some (.error (.err .io), f, rs)
  | .die _ :: rs, f, _ => .some (.error .crash, f, rs)
  | .some _ :: rs, f, n => .some (.ok (), f.push (.trunc n), rs)

/-- `posix_file::size` (posix_file.ipp 100-113): no loop. -/
def posixSize : List Reply → FileSt → Option (Res Nat × List Reply)
  | [], _ => .none
  | .intr :: rs, _ => .some (.error (.err .io), rs)
  | .fail :: rs, _ => .some (.error (.err .io), rs)
  | .die _ :: rs, _ => .some (.error .crash, rs)
  | .some _ :: rs, f => .some (.ok f.cur.length, rs)

/-- What `last_err` reports (posix_file.hpp 203-215): the value of `errno`, zero being no error. -/
def lastErr (errno : Option Err) : Res Unit :=
  match errno with
  | .some e => .error (.err e)
  | .none => .ok ()

/-- `posix_file::open` (posix_file.ipp 72-86), system calls `open` and `posix_fadvise`. The latter
returns its error and leaves `errno` as it was; the code reports `errno`. -/
def posixOpen (errno : Option Err) (fs : Fs) (p : Path) : List Reply → Option (Res Unit × List Reply)
  | [] => .none
  | .intr :: rs => .some (.error (.err .io), rs)
  | .fail :: rs => .some (.error (.err .io), rs)
  | .die _ :: rs => .some (.error .crash, rs)
  | .some _ :: rs =>
    match fs p with
    | .none => .some (.error (.err .no_such_file), rs)
    | .some _ =>
    match rs with
    | [] => .none
    | .intr :: rs => .some (lastErr errno, rs)
    | .fail :: rs => .some (lastErr errno, rs)
    | .die _ :: rs => .some (.error .crash, rs)
    | .some _ :: rs => .some (.ok (), rs)

/-- `posix_file::create` (posix_file.ipp 56-70), likewise. -/
def posixCreate (errno : Option Err) (fs : Fs) (p : Path) : List Reply → Option (Res Unit × Fs × List Reply)
  | [] => .none
  | .intr :: rs => .some (.error (.err .io), fs, rs)
  | .fail :: rs => .some (.error (.err .io), fs, rs)
  | .die _ :: rs => .some (.error .crash, fs, rs)
  | .some _ :: rs =>
    match fs p with
    | .some _ => .some (.error (.err .file_exists), fs, rs)
    | .none =>
    let fs' := fs.set p (some (FileSt.clean []))
    match rs with
    | [] => .none
    | .intr :: rs => .some (lastErr errno, fs', rs)
    | .fail :: rs => .some (lastErr errno, fs', rs)
    | .die _ :: rs => .some (.error .crash, fs', rs)
    | .some _ :: rs => .some (.ok (), fs', rs)

/-- Continue after a system call that may change a file. -/
def Prog.cont (fs : Fs) (p : Path) (r : Option (Res Unit × FileSt × List Reply))
    (k : Fs → List Reply → Option (Res α × Fs × List Reply)) : Option (Res α × Fs × List Reply) :=
  match r with
  | .none => .none
  | .some (.error x, f, rs) => .some (.error x, fs.set p (some f), rs)
  | .some (.ok (), f, rs) => k (fs.set p (some f)) rs

/-- Running a tree of file operations by system calls of `posix_file`, without interference. -/
def Prog.posix : Prog α → Fs → List Reply → Option (Res α × Fs × List Reply)
  | .ret a, fs, rs => .some (.ok a, fs, rs)
  | .raise x, fs, rs => .some (.error x, fs, rs)
  | .size p k, fs, rs =>
    match fs p with
    | .none => .some (.error .ub, fs, rs)
    | .some f =>
    match posixSize rs f with
    | .none => .none
    | .some (.error x, rs) => .some (.error x, fs, rs)
    | .some (.ok n, rs) => (k n).posix fs rs
  | .read p off n k, fs, rs =>
    match fs p with
    | .none => .some (.error .ub, fs, rs)
    | .some f =>
    match posixRead (rs.map (·, f.cur)) off n [] with
    | .none => .none
    | .some (.error x, rs) => .some (.error x, fs, rs.map (·.1))
    | .some (.ok b, rs) => (k b).posix fs (rs.map (·.1))
  | .write p off bs k, fs, rs =>
    match fs p with
    | .none => .some (.error .ub, fs, rs)
    | .some f => Prog.cont fs p (posixWrite false rs f off bs) (fun fs rs => k.posix fs rs)
  | .append p off bs k, fs, rs =>
    match fs p with
    | .none => .some (.error .ub, fs, rs)
    | .some f => Prog.cont fs p (posixWrite true rs f off bs) (fun fs rs => k.posix fs rs)
  | .sync p k, fs, rs =>
    match fs p with
    | .none => .some (.error .ub, fs, rs)
    | .some f => Prog.cont fs p (posixSync rs f) (fun fs rs => k.posix fs rs)
  | .trunc p n k, fs, rs =>
    match fs p with
    | .none => .some (.error .ub, fs, rs)
    | .some f => Prog.cont fs p (posixTrunc rs f n) (fun fs rs => k.posix fs rs)

end NuDB
