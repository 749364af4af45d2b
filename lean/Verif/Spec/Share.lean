import Verif.Spec.Concurrent
/-
Which bytes of the files a thread is reading and the flusher is changing.
-/
namespace NuDB.Spec

open Conc

/-- The next operation of a program reads byte `i` of file `q`. -/
inductive ReadsByte (q : Path) (i : Nat) : Prog α → Prop
  | read {off n k} (h : off ≤ i) (h' : i < off + n) : ReadsByte q i (.read q off n k)

/-- The next operation of a program may change byte `i` of file `q`, where also a byte behind the end may be changed. -/
inductive ChangesByte (q : Path) (i : Nat) : Prog α → Prop
  | write {off b k} (h : off ≤ i) (h' : i < off + b.length) : ChangesByte q i (.write q off b k)
  | append {off b k} (h : off ≤ i) (h' : i < off + b.length) : ChangesByte q i (.append q off b k)
  | trunc {n k} (h : n ≤ i) : ChangesByte q i (.trunc q n k)

/-- Thread `t` is reading byte `i` of file `q`. -/
inductive IsReading (x : Sys) (t : Nat) (q : Path) (i : Nat) : Prop
  | fetchC {k b blob p} (h : x.pc t = .fetchC k b blob p) (hp : ReadsByte q i p)
  | fetchK {k b g p} (h : x.pc t = .fetchK k b g p) (hp : ReadsByte q i p)
  | insC {k v b blob p rest} (h : x.pc t = .insC k v b blob p rest) (hp : ReadsByte q i p)
  | insS {k v p} (h : x.pc t = .insS k v p) (hp : ReadsByte q i p)
  | insK {k v b g p} (h : x.pc t = .insK k v b g p) (hp : ReadsByte q i p)

/-- The flusher is changing byte `i` of file `q`. -/
inductive IsChanging (x : Sys) (q : Path) (i : Nat) : Prop
  | prep {p} (h : x.fl = .prep p) (hp : ChangesByte q i p)
  | log {p} (h : x.fl = .log p) (hp : ChangesByte q i p)
  | keys {p} (h : x.fl = .keys p) (hp : ChangesByte q i p)

/-- Byte `i` of file `q`. -/
def byteOf (fs : Fs) (q : Path) (i : Nat) : Option UInt8 :=
  match fs q with
  | some f => f.cur[i]?
  | none => none

end NuDB.Spec
