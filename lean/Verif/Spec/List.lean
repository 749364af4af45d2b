import Verif.Model.List
import Verif.Spec.Memory
/-
What it means that linked nodes are a sequence, and the operations on sequences.
-/
namespace NuDB.Spec

/-- The nodes `xs` are linked in this order in both directions: `p` is before the first. -/
def Linked (m : Links) (p : Option Nat) : List Nat → Prop
  | [] => True
  | x :: xs => m.prev x = p ∧ m.next x = xs.head? ∧ Linked m (some x) xs

/-- The list object `l` is the sequence `xs`. -/
structure IsList (m : Links) (l : LList) (xs : List Nat) : Prop where
  head : l.head = xs.head?
  tail : l.tail = xs.getLast?
  links : Linked m none xs

/-- What can be done with the lists; lists and nodes are numbered. -/
inductive ListOp
  | pushBack (i node : Nat)
  | erase (i node : Nat)
  | splice (i j : Nat)

/-- Running an operation of the model. -/
def ListOp.run (o : ListOp) (m : Links) (ls : Nat → LList) : Res (Links × (Nat → LList)) :=
  match o with
  | .pushBack i node =>
    let (m, l) := (ls i).pushBack m node
    return (m, upd ls i l)
  | .erase i node =>
    let (m, l) := (ls i).erase m node
    return (m, upd ls i l)
  | .splice i j => do
    let (m, l, r) ← (ls i).splice m (ls j)
    return (m, upd (upd ls i l) j r)

/-- The same on sequences. -/
def ListOp.effect (o : ListOp) (xs : Nat → List Nat) : Nat → List Nat :=
  match o with
  | .pushBack i node => upd xs i (xs i ++ [node])
  | .erase i node => upd xs i ((xs i).filter (fun x => x ≠ node))
  | .splice i j => upd (upd xs i (xs i ++ xs j)) j []

/-- Rules for callers: a node is in one list at most, only elements are erased, a list is not
spliced to itself. -/
def ListOp.legal (xs : Nat → List Nat) : ListOp → Prop
  | .pushBack _ node => ∀ j, node ∉ xs j
  | .erase i node => node ∈ xs i
  | .splice i j => i ≠ j

/-- Running a list of operations. -/
def runList : List ListOp → Links → (Nat → LList) → Res (Links × (Nat → LList))
  | [], m, ls => .ok (m, ls)
  | o :: os, m, ls => do
    let (m, ls) ← o.run m ls
    runList os m ls

/-- The sequences after a list of operations. -/
def effects : List ListOp → (Nat → List Nat) → Nat → List Nat
  | [], xs => xs
  | o :: os, xs => effects os (o.effect xs)

/-- All operations are legal when they are issued. -/
def LegalList : List ListOp → (Nat → List Nat) → Prop
  | [], _ => True
  | o :: os, xs => o.legal xs ∧ LegalList os (o.effect xs)

end NuDB.Spec
