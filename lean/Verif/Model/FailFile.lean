import Verif.Model.Prog
/-
_experimental/test/fail_file.hpp: the wrapper with which the tests of the library let file operations fail. The wrapped file is one of `Model/File` that
works.
-/
namespace NuDB.FailFile

/-- `fail_counter` (fail_file.hpp 110-141). -/
structure Counter where
  target : Nat
  count : Nat
deriving DecidableEq, Repr

/-- `fail_counter::fail` (fail_file.hpp 135-140), through `fail_file::fail` (329-337). -/
def Counter.fail (c : Counter) : Bool × Counter :=
  if c.target ≠ 0 then (decide (c.count + 1 ≥ c.target), { c with count := c.count + 1 }) else (false, c)

/-- Programs on wrapped files. -/
def FM (α : Type) := Counter → Fs → Except Exc α × Counter × Fs

/-- An operation of the wrapped file. -/
def under (m : M α) : FM α := fun c fs =>
  let r := m calm ⟨fs, 0, []⟩
  (r.1, c, r.2.fs)

/-- `do_fail` (fail_file.hpp 233-237); `test_error::failure` is `Err.io` here. -/
def doFail : FM α := fun c fs => (.error (.err .io), c, fs)

/-- `if(fail()) { a } else { b }` -/
def ifFail (a b : FM α) : FM α := fun c fs =>
  let r := c.fail
  if r.1 then a r.2 fs else b r.2 fs

/-- `if(ec) return; do_fail(ec);` -/
def thenFail (a : FM Unit) : FM Unit := fun c fs =>
  match a c fs with
  | (.ok _, c, fs) => doFail c fs
  | r => r

/-- `fail_file::size` (fail_file.hpp 183-187) -/
def size (p : Path) : FM Nat := under (fSize p)

/-- `fail_file::read` (fail_file.hpp 267-279) -/
def read (p : Path) (off n : Nat) : FM Bytes := ifFail doFail (under (fRead p off n))

/-- `fail_file::write` (fail_file.hpp 281-302), on files opened with `file_mode::write` -/
def write (p : Path) (off : Nat) (bs : Bytes) : FM Unit :=
  ifFail doFail (ifFail (thenFail (under (fWrite p off (bs.take ((bs.length + 1) / 2))))) (under (fWrite p off bs)))

/-- `fail_file::write` (fail_file.hpp 281-302), on files opened with `file_mode::append` -/
def append (p : Path) (off : Nat) (bs : Bytes) : FM Unit :=
  ifFail doFail (ifFail (thenFail (under (fAppend p off (bs.take ((bs.length + 1) / 2))))) (under (fAppend p off bs)))

/-- `fail_file::sync` (fail_file.hpp 304-314): nothing is synced -/
def sync (_ : Path) : FM Unit := ifFail doFail (fun c fs => (.ok (), c, fs))

/-- `fail_file::trunc` (fail_file.hpp 316-327) -/
def trunc (p : Path) (n : Nat) : FM Unit := ifFail doFail (under (fTrunc p n))

/-- sequencing -/
def FM.bind (m : FM α) (k : α → FM β) : FM β := fun c fs =>
  match m c fs with
  | (.ok a, c, fs) => k a c fs
  | (.error x, c, fs) => (.error x, c, fs)

/-- A program of `Model/Prog` with `fail_file` as its type `File`. -/
def run : Prog α → FM α
  | .ret a => fun c fs => (.ok a, c, fs)
  | .raise x => fun c fs => (.error x, c, fs)
  | .size p k => (size p).bind (fun n => run (k n))
  | .read p off n k => (read p off n).bind (fun b => run (k b))
  | .write p off bs k => (write p off bs).bind (fun _ => run k)
  | .append p off bs k => (append p off bs).bind (fun _ => run k)
  | .sync p k => (sync p).bind (fun _ => run k)
  | .trunc p n k => (trunc p n).bind (fun _ => run k)

end NuDB.FailFile
