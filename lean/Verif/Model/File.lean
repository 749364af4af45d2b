import Verif.Model.Bucket
/-
file.hpp, impl/posix_file.ipp, native_file.hpp: files with failures and crashes, and the
monad in which the algorithms are written.
-/
namespace NuDB

/-- The three files of a database. The paths given to the API are assumed distinct;
file handles are identified with paths (every handle in the code is used only while its
path refers to the file it opened). -/
inductive Path | dat | key | log
deriving DecidableEq, Repr

/-- A modification of a file that has not been synced yet. -/
inductive POp
  | write (off : Nat) (bs : Bytes)
  | trunc (n : Nat)
deriving DecidableEq, Repr

/-- Writing at an offset: bytes beyond the end extend the file, a gap reads as zeros
(posix_file.ipp 144-167, `pwrite`). Writing no bytes has no effect. -/
def writeAt (f : Bytes) (off : Nat) (bs : Bytes) : Bytes :=
  if bs = [] then f else put (f ++ zeros (off - f.length)) off bs

/-- `ftruncate` (posix_file.ipp 185-199): cut, or extend with zeros. -/
def truncAt (f : Bytes) (n : Nat) : Bytes := f.take n ++ zeros (n - f.length)

/-- Effect of a pending operation on the content. -/
def POp.apply (f : Bytes) : POp → Bytes
  | .write off bs => writeAt f off bs
  | .trunc n => truncAt f n

/-- A file: content at the last successful sync and the operations since then, oldest
first. -/
structure FileSt where
  base : Bytes
  pend : List POp
deriving DecidableEq, Repr

/-- The content that reads return. -/
def FileSt.cur (f : FileSt) : Bytes := f.pend.foldl POp.apply f.base

/-- Append an operation. -/
def FileSt.push (f : FileSt) (op : POp) : FileSt := { f with pend := f.pend ++ [op] }

/-- All operations reached the disk. -/
def FileSt.synced (f : FileSt) : FileSt := { base := f.cur, pend := [] }

/-- A file with given durable content. -/
def FileSt.clean (b : Bytes) : FileSt := { base := b, pend := [] }

/-- The file system as far as the database is concerned. -/
abbrev Fs := Path → Option FileSt

/-- Replace one file. -/
def Fs.set (fs : Fs) (p : Path) (f : Option FileSt) : Fs := fun q => if q = p then f else fs q

/-- What the environment does to a file operation: nothing, let it fail (a write may
have been applied to its first `k` bytes), or kill the process (after `k` bytes). -/
inductive Fault
  | none | fail (k : Nat) | crash (k : Nat)
deriving DecidableEq, Repr

/-- Decision for the i-th file operation. -/
abbrev Schedule := Nat → Fault

/-- No faults. -/
def calm : Schedule := fun _ => .none

/-- Calls to user supplied function objects. -/
inductive Event
  /-- `callback(key, key_size, data, size, ec)` of `visit` -/
  | item (key data : Bytes)
  /-- `progress(amount, total)` -/
  | progress (amount total : Nat)
deriving DecidableEq, Repr

/-- Files, number of file operations so far, user callbacks so far. -/
structure World where
  fs : Fs
  clock : Nat
  out : List Event

/-- Programs operating on files. -/
def M (α : Type) := Schedule → World → Except Exc α × World

namespace M

/-- return -/
def ret (a : α) : M α := fun _ w => (.ok a, w)

/-- sequencing; every exceptional outcome leaves at once, like `if(ec) return;` -/
def bind (m : M α) (k : α → M β) : M β := fun σ w =>
  match m σ w with
  | (.ok a, w') => k a σ w'
  | (.error x, w') => (.error x, w')

instance : Monad M where
  pure := ret
  bind := bind

/-- leave exceptionally -/
def raise (x : Exc) : M α := fun _ w => (.error x, w)

/-- set an error code and return -/
def fail (e : Err) : M α := raise (.err e)

/-- memory-only code -/
def lift (r : Res α) : M α := fun _ w => (r, w)

/-- header checks -/
def check (r : Except Err α) : M α := fun _ w =>
  match r with
  | .ok a => (.ok a, w)
  | .error e => (.error (.err e), w)

/-- Run `m`, turning a reported error code into a value (the caller inspects `ec`). -/
def attempt (m : M α) : M (Except Err α) := fun σ w =>
  match m σ w with
  | (.ok a, w') => (.ok (.ok a), w')
  | (.error (.err e), w') => (.ok (.error e), w')
  | (.error x, w') => (.error x, w')

end M

/-- One file operation: consult the schedule; `ok` is the effect without fault, `part k`
the file system after a fault with parameter `k`. -/
def fileOp (ok : Fs → Except Exc α × Fs) (part : Fs → Nat → Fs) : M α := fun σ w =>
  match σ w.clock with
  | .none => let r := ok w.fs; (r.1, ⟨r.2, w.clock + 1, w.out⟩)
  | .fail k => (.error (.err .io), ⟨part w.fs k, w.clock + 1, w.out⟩)
  | .crash k => (.error .crash, ⟨part w.fs k, w.clock + 1, w.out⟩)

/-- A call to a user supplied function. -/
def emit (e : Event) : M Unit := fun _ w => (.ok (), { w with out := w.out ++ [e] })

/-- The calls so far. -/
def history : M (List Event) := fun _ w => (.ok w.out, w)

/-- `File::open` (posix_file.ipp 72-86): `ENOENT` if absent. -/
def fOpen (p : Path) : M Unit :=
  fileOp (fun fs => match fs p with
    | some _ => (.ok (), fs)
    | none => (.error (.err .no_such_file), fs)) (fun fs _ => fs)

/-- `File::create` (posix_file.ipp 56-70, O_CREAT|O_EXCL): `EEXIST` if present. A
failure may happen after the file was made (`posix_fadvise`), modelled by `k > 0`. -/
def fCreate (p : Path) : M Unit :=
  fileOp (fun fs => match fs p with
    | some _ => (.error (.err .file_exists), fs)
    | none => (.ok (), fs.set p (some (FileSt.clean []))))
    (fun fs k => if k > 0 ∧ fs p = none then fs.set p (some (FileSt.clean [])) else fs)

/-- `File::erase` (posix_file.ipp 88-98): `ENOENT` if absent. -/
def fErase (p : Path) : M Unit :=
  fileOp (fun fs => match fs p with
    | some _ => (.ok (), fs.set p none)
    | none => (.error (.err .no_such_file), fs)) (fun fs _ => fs)

/-- `File::size` (posix_file.ipp 100-113). -/
def fSize (p : Path) : M Nat :=
  fileOp (fun fs => match fs p with
    | some f => (.ok f.cur.length, fs)
    | none => (.error .ub, fs)) (fun fs _ => fs)

/-- `File::read` (posix_file.ipp 114-142): all bytes or `short_read`. -/
def fRead (p : Path) (off n : Nat) : M Bytes :=
  fileOp (fun fs => match fs p with
    | some f => if n = 0 ∨ off + n ≤ f.cur.length then (.ok (slice f.cur off n), fs)
                else (.error (.err .short_read), fs)
    | none => (.error .ub, fs)) (fun fs _ => fs)

/-- `File::write` (posix_file.ipp 144-167) on a file opened with `file_mode::write`. -/
def fWrite (p : Path) (off : Nat) (bs : Bytes) : M Unit :=
  fileOp (fun fs => match fs p with
    | some f => (.ok (), fs.set p (some (f.push (.write off bs))))
    | none => (.error .ub, fs))
    (fun fs k => match fs p with
    | some f => fs.set p (some (f.push (.write off (bs.take k))))
    | none => fs)

/-- `File::write` (posix_file.ipp 144-167) on a file opened with `file_mode::append`
(`O_APPEND`). POSIX lets `pwrite` honour the offset, Linux appends regardless of it; an
offset different from the end of file is therefore classified as undefined. -/
def fAppend (p : Path) (off : Nat) (bs : Bytes) : M Unit :=
  fileOp (fun fs => match fs p with
    | some f => if off = f.cur.length then (.ok (), fs.set p (some (f.push (.write off bs))))
                else (.error .ub, fs)
    | none => (.error .ub, fs))
    (fun fs k => match fs p with
    | some f => if off = f.cur.length then fs.set p (some (f.push (.write off (bs.take k))))
                else fs
    | none => fs)

/-- `File::sync` (posix_file.ipp 169-183, fsync). -/
def fSync (p : Path) : M Unit :=
  fileOp (fun fs => match fs p with
    | some f => (.ok (), fs.set p (some f.synced))
    | none => (.error .ub, fs)) (fun fs _ => fs)

/-- `File::trunc` (posix_file.ipp 185-199, ftruncate). -/
def fTrunc (p : Path) (n : Nat) : M Unit :=
  fileOp (fun fs => match fs p with
    | some f => (.ok (), fs.set p (some (f.push (.trunc n))))
    | none => (.error .ub, fs)) (fun fs _ => fs)

/-- `erase_file(path, ec)` (native_file.hpp 44-52): a missing file is not an error. -/
def eraseFile (p : Path) : M Unit := do
  match ← M.attempt (fErase p) with
  | .ok _ => M.ret ()
  | .error .no_such_file => M.ret ()
  | .error e => M.fail e

end NuDB
