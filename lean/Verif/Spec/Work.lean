import Verif.Model.Prog
/-
The file operations a program may perform, and how much work they are.
-/
namespace NuDB.Spec

/-- A file operation with its arguments. -/
inductive FileOp
  | size (p : Path)
  | read (p : Path) (off n : Nat)
  | write (p : Path) (off : Nat) (b : Bytes)
  | append (p : Path) (off : Nat) (b : Bytes)
  | sync (p : Path)
  | trunc (p : Path) (n : Nat)
deriving DecidableEq

/-- `Trace m l r`: the program may perform the operations `l` and then have the result `r`, where `none` says that it has not ended
yet or was ended by an error. The answers of the file system are arbitrary. -/
inductive Trace : Prog α → List FileOp → Option α → Prop
  | stop {m} : Trace m [] none
  | ret {a} : Trace (.ret a) [] (some a)
  | size {p k l r} (n : Nat) : Trace (k n) l r → Trace (.size p k) (.size p :: l) r
  | read {p off n k l r} (b : Bytes) : Trace (k b) l r → Trace (.read p off n k) (.read p off n :: l) r
  | write {p off b k l r} : Trace k l r → Trace (.write p off b k) (.write p off b :: l) r
  | append {p off b k l r} : Trace k l r → Trace (.append p off b k) (.append p off b :: l) r
  | sync {p k l r} : Trace k l r → Trace (.sync p k) (.sync p :: l) r
  | trunc {p n k l r} : Trace k l r → Trace (.trunc p n k) (.trunc p n :: l) r

/-- The number of reads from the key file. -/
def keyReads (l : List FileOp) : Nat := l.countP (fun | .read .key _ _ => true | _ => false)

/-- The number of writes to the key file. -/
def keyWrites (l : List FileOp) : Nat := l.countP (fun | .write .key _ _ => true | _ => false)

/-- The number of bytes appended to the log file. -/
def bytesLogged (l : List FileOp) : Nat := (l.map (fun | .append .log _ b => b.length | _ => 0)).sum

/-- The number of times a file is synced. -/
def syncs (l : List FileOp) : Nat := l.countP (fun | .sync _ => true | _ => false)

/-- In a file of blocks of `bs` bytes whose first block is the header, the key file is changed only one whole block at a time and the
header is not changed; the other files are only appended to, but the log file may be emptied. -/
def BlockWise (bs : Nat) : FileOp → Prop
  | .write p off b => p = .key ∧ b.length = bs ∧ ∃ n, off = (n + 1) * bs
  | .append p _ _ => p = .dat ∨ p = .log
  | .trunc p n => p = .log ∧ n = 0
  | _ => True

/-- All of a commit of the items in `p0`, as the flusher performs it: the three parts without the waiting between them. -/
def commitP (c : Cfg) (s : Store) : Prog Unit := do
  let x ← commitPrepareP c s
  commitLogP c s.kh.blockSize x.c0
  commitKeysP c s.kh.blockSize x.c1

end NuDB.Spec
