import Verif.Model.Concurrent
/-
The locks taken by the calls of a store, including calls made by the callback of `fetch`. Unlike `Model/Concurrent`, only
the locks are modelled: which way a call takes depends on its data and is left open, and callbacks may call the store.
-/
namespace NuDB.Nested

open Conc (Gentex)

/-- The operations on the locks. -/
inductive Step
  /-- `m_.lock_shared()` -/
  | share
  | unshare
  /-- `m_.lock()` -/
  | excl
  | unexcl
  /-- `u_.lock()` -/
  | lockU
  | unlockU
  /-- `g_.lock_gen()` -/
  | lockGen
  | unlockGen
  /-- `g_.start()` -/
  | start
  /-- `g_.finish()` -/
  | finish
deriving DecidableEq

/-- The sequences of operations that a call can perform. `mem` tells whether callbacks that are invoked with `m_` locked may
call the store; the others may in any case. -/
inductive Calls (mem : Bool) : List Step → Prop
  /-- no call -/
  | nil : Calls mem []
  /-- `fetch`, key in `p1`, `p0` (basic_store.ipp 238-249) or a bucket of `c1` (252-254): the callback is invoked with `m_`
  locked shared. It makes the calls `b`. -/
  | fetchMem {b r : List Step} (hb : Calls mem b) (hm : mem = false → b = []) (h : Calls mem r) :
    Calls mem (.share :: b ++ .unshare :: r)
  /-- `fetch` from the files (basic_store.ipp 238, 255-263): the callback is invoked while a generation is held. -/
  | fetchDisk {b r : List Step} (hb : Calls mem b) (h : Calls mem r) :
    Calls mem (.share :: .lockGen :: .unshare :: b ++ .unlockGen :: r)
  /-- `insert`, key found in memory, or error (basic_store.ipp 288-310) -/
  | insertExists {r : List Step} (h : Calls mem r) : Calls mem (.lockU :: .share :: .unshare :: .unlockU :: r)
  /-- `insert`, bucket in `c1`, key not found (basic_store.ipp 288-311, 336-348) -/
  | insertCache {r : List Step} (h : Calls mem r) : Calls mem (.lockU :: .share :: .unshare :: .excl :: .unexcl :: .unlockU :: r)
  /-- `insert`, key found in the files, or error (basic_store.ipp 288-291, 315-332) -/
  | insertFound {r : List Step} (h : Calls mem r) :
    Calls mem (.lockU :: .share :: .lockGen :: .unshare :: .unlockGen :: .unlockU :: r)
  /-- `insert`, key not found in the files (basic_store.ipp 288-291, 315-348) -/
  | insertDisk {r : List Step} (h : Calls mem r) :
    Calls mem (.lockU :: .share :: .lockGen :: .unshare :: .unlockGen :: .excl :: .unexcl :: .unlockU :: r)
  /-- `set_burst` (basic_store.ipp 457-465) -/
  | setBurst {r : List Step} (h : Calls mem r) : Calls mem (.excl :: .unexcl :: r)

/-- The sequences of operations that `flush` can perform, repeatedly (basic_store.ipp 754-803, 582-750). -/
inductive Flushes : List Step → Prop
  | nil : Flushes []
  /-- nothing to do, or an error before the new buckets are published (line 768-771, 590) -/
  | short {r : List Step} (h : Flushes r) : Flushes (.excl :: .unexcl :: r)
  /-- an error in writing the log file (line 688-694) -/
  | log {r : List Step} (h : Flushes r) : Flushes (.excl :: .unexcl :: .excl :: .start :: .unexcl :: r)
  /-- an error in writing the key file (line 728) -/
  | key {r : List Step} (h : Flushes r) : Flushes (.excl :: .unexcl :: .excl :: .start :: .unexcl :: .finish :: r)
  /-- the whole of it (line 748-803) -/
  | full {r : List Step} (h : Flushes r) :
    Flushes (.excl :: .unexcl :: .excl :: .start :: .unexcl :: .finish :: .excl :: .unexcl :: r)

/-- The locks and what each thread has still to do. `shared`: the threads that hold `m_` shared, once for each time;
`waiting`: the member `exclusive_waiting_blocked` of `boost::shared_mutex`; `held`: the generations held, the latest first. -/
structure State where
  prog : Nat → List Step
  shared : List Nat
  owner : Option Nat
  waiting : Bool
  u : Option Nat
  g : Gentex
  held : List (Nat × Nat)

/-- The generation that a thread has locked last, and the others. -/
def takeGen (t : Nat) : List (Nat × Nat) → Option (Nat × List (Nat × Nat))
  | [] => none
  | (t', g) :: l => if t' = t then some (g, l) else (takeGen t l).map (fun (g', l') => (g', (t', g) :: l'))

/-- An operation of thread `t`; `none` if it has to wait. `boost::shared_mutex` (Boost.Thread, pthread/shared_mutex.hpp): a
thread gets the mutex shared unless another owns it or waits for it exclusively; the mark of the waiting thread is
removed when the mutex becomes free. `std::mutex`; gentex.hpp 50-98. -/
def exec (x : State) (t : Nat) : Step → Option State
  | .share => if x.owner = none ∧ x.waiting = false then some { x with shared := t :: x.shared } else none
  | .unshare =>
    let s := x.shared.erase t
    some { x with shared := s, waiting := if s = [] then false else x.waiting }
  | .excl => if x.owner = none ∧ x.shared = [] then some { x with owner := some t } else none
  | .unexcl => some { x with owner := none, waiting := false }
  | .lockU => if x.u = none then some { x with u := some t } else none
  | .unlockU => some { x with u := none }
  | .lockGen => some { x with g := x.g.lock, held := (t, x.g.gen) :: x.held }
  | .unlockGen => (takeGen t x.held).map fun (gen, l) => { x with g := x.g.unlock gen, held := l }
  | .start => some { x with g := x.g.start }
  | .finish => if x.g.prev = 0 then some x else none

/-- Thread `t` performs its next operation. -/
def step (x : State) (t : Nat) : Option State :=
  match x.prog t with
  | [] => none
  | s :: r => (exec x t s).map fun y => { y with prog := fun t' => if t' = t then r else y.prog t' }

/-- Thread `t` finds that it has to wait for `m_` and marks this. -/
def wait (x : State) (t : Nat) : Option State :=
  match x.prog t with
  | .excl :: _ => if x.owner = none ∧ x.shared = [] then none else some { x with waiting := true }
  | _ => none

/-- All locks are free. -/
def initial (prog : Nat → List Step) : State :=
  { prog, shared := [], owner := none, waiting := false, u := none, g := { gen := 0, cur := 0, prev := 0 }, held := [] }

/-- What can happen. -/
inductive Reach (prog : Nat → List Step) : State → Prop
  | init : Reach prog (initial prog)
  | step {x y : State} {t : Nat} (h : Reach prog x) (hs : step x t = some y) : Reach prog y
  | wait {x y : State} {t : Nat} (h : Reach prog x) (hs : wait x t = some y) : Reach prog y

end NuDB.Nested
