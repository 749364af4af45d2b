import Verif.Model.Concurrent
/-
`genlock` (gentex.hpp 102-254): objects that hold a generation of a `gentex`.
-/
namespace NuDB

open Conc

/-- `--n` for `std::size_t`. -/
def dec64 (n : Nat) : Nat := if n = 0 then 2 ^ 64 - 1 else n - 1

/-- `unlock_gen` (gentex.hpp 82-98), with the wrap-around of the counters. `Gentex.unlock` is the same unless a counter
is 0. -/
def Conc.Gentex.unlockGen (g : Gentex) (gen : Nat) : Gentex :=
  if gen = g.gen then { g with cur := dec64 g.cur } else { g with prev := dec64 g.prev }

/-- A `genlock` (gentex.hpp 102-109). Simplified: there is only one `gentex`, `g` tells whether the pointer is set. `gen` is
`none` as long as the member is uninitialised. -/
structure Genlock where
  owned : Bool
  g : Bool
  gen : Option Nat
deriving DecidableEq

/-- What a program does with its locks, which are numbered; `start` is called by the flushing thread. -/
inductive LockOp
  /-- `genlock x;` -/
  | default (x : Nat)
  /-- `genlock x{g};` -/
  | make (x : Nat)
  /-- `genlock x{g, std::defer_lock};` -/
  | defer (x : Nat)
  /-- `genlock x{std::move(y)};` -/
  | move (x y : Nat)
  /-- `x = std::move(y);` -/
  | assign (x y : Nat)
  /-- `~genlock` -/
  | destroy (x : Nat)
  | lock (x : Nat)
  | unlock (x : Nat)
  | release (x : Nat)
  | swap (x y : Nat)
  | start

/-- The `gentex` and the locks, `none` where no object lives. -/
structure Locks where
  tex : Gentex
  locks : List (Option Genlock)

namespace Locks

/-- The object `x`. Using an object that does not live is undefined behaviour. -/
def obj (s : Locks) (x : Nat) : Res Genlock :=
  match s.locks[x]? with
  | some (some l) => .ok l
  | _ => .error .ub

/-- Storage for the new object `x`. -/
def room (s : Locks) (x : Nat) : Res Unit :=
  match s.locks[x]? with
  | some none => .ok ()
  | _ => .error .ub

def put (s : Locks) (x : Nat) (l : Option Genlock) : Locks := { s with locks := s.locks.set x l }

/-- `lock()` (gentex.hpp 210-221). -/
def lock (s : Locks) (x : Nat) : Res Locks := do
  let l ← s.obj x
  assert l.g
  assert (!l.owned)
  return { tex := s.tex.lock, locks := s.locks.set x (some { l with gen := some s.tex.gen, owned := true }) }

/-- `unlock()` (gentex.hpp 223-234). Reading an uninitialised member is undefined behaviour. -/
def unlock (s : Locks) (x : Nat) : Res Locks := do
  let l ← s.obj x
  assert l.g
  assert l.owned
  match l.gen with
  | none => .error .ub
  | some n => return { tex := s.tex.unlockGen n, locks := s.locks.set x (some { l with owned := false }) }

/-- `if(owns_lock()) unlock();` (gentex.hpp 136-140, 178-179, 206-207). -/
def drop (s : Locks) (x : Nat) : Res Locks := do
  let l ← s.obj x
  if l.g && l.owned then s.unlock x else return s

end Locks

/-- One operation. -/
def LockOp.step (s : Locks) : LockOp → Res Locks
  /- gentex.hpp 115 -/
  | .default x => do
    s.room x
    return s.put x (some ⟨false, false, none⟩)
  /- gentex.hpp 187-193 -/
  | .make x => do
    s.room x
    (s.put x (some ⟨false, true, none⟩)).lock x
  /- gentex.hpp 195-200 -/
  | .defer x => do
    s.room x
    return s.put x (some ⟨false, true, none⟩)
  /- gentex.hpp 163-171: `gen_` is not copied -/
  | .move x y => do
    s.room x
    let o ← s.obj y
    return (s.put x (some ⟨o.owned, o.g, none⟩)).put y (some { o with owned := false, g := false })
  /- gentex.hpp 173-185: `gen_` is not copied -/
  | .assign x y => do
    let s ← s.drop x
    let l ← s.obj x
    let o ← s.obj y
    return (s.put x (some { l with owned := o.owned, g := o.g })).put y
      (some { o with owned := false, g := false })
  /- gentex.hpp 202-208 -/
  | .destroy x => do
    let s ← s.drop x
    return s.put x none
  | .lock x => s.lock x
  | .unlock x => s.unlock x
  /- gentex.hpp 236-245 -/
  | .release x => do
    let l ← s.obj x
    return s.put x (some { l with g := false })
  /- gentex.hpp 247-254: `gen_` is not exchanged -/
  | .swap x y => do
    let a ← s.obj x
    let b ← s.obj y
    return (s.put x (some { a with owned := b.owned, g := b.g })).put y (some { b with owned := a.owned, g := a.g })
  /- gentex.hpp 50-59 -/
  | .start => .ok { s with tex := s.tex.start }

/-- A program. -/
def runLocks : List LockOp → Locks → Res Locks
  | [], s => .ok s
  | op :: ops, s => do
    let s ← op.step s
    runLocks ops s

/-- Before the program: nothing is locked and there is room for `n` locks. -/
def Locks.init (n : Nat) : Locks := ⟨⟨0, 0, 0⟩, List.replicate n none⟩

end NuDB
