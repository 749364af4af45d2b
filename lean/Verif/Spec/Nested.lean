import Verif.Model.Nested
/-
What it means that calls wait for each other forever.
-/
namespace NuDB.Spec

open Nested

/-- Some thread has something left to do, but none can do anything, nor will it ever. -/
def Deadlock (x : State) : Prop := (∃ t, x.prog t ≠ []) ∧ ∀ t, Nested.step x t = none

/-- A program whose threads call the store, and thread 0 flushes. -/
def Program (mem : Bool) (prog : Nat → List Step) : Prop := Flushes (prog 0) ∧ ∀ t, t ≠ 0 → Calls mem (prog t)

/-- An execution in which the threads perform `n` operations, not counting the times they find that they have to wait. -/
inductive Runs (prog : Nat → List Step) : Nat → State → Prop
  | init : Runs prog 0 (initial prog)
  | step {n t : Nat} {x y : State} (h : Runs prog n x) (hs : Nested.step x t = some y) : Runs prog (n + 1) y
  | wait {n t : Nat} {x y : State} (h : Runs prog n x) (hs : Nested.wait x t = some y) : Runs prog n y

/-- The number of operations that the threads below `N` have to perform. -/
def total (prog : Nat → List Step) : Nat → Nat
  | 0 => 0
  | N + 1 => total prog N + (prog N).length

end NuDB.Spec
