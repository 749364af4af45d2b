import Verif.Model.Bytes
/-
The intrusive list of `context` (context.hpp 113-138, impl/context.ipp 215-265) on memory
with explicit links.
-/
namespace NuDB

/-- The members `next_` and `prev_` of all store objects (store_base.hpp 40-41); stores are
numbered, `none` is `nullptr`. -/
structure Links where
  next : Nat → Option Nat
  prev : Nat → Option Nat

/-- `context::list` (context.hpp 113-138). -/
structure LList where
  head : Option Nat
  tail : Option Nat
deriving DecidableEq

/-- Assignment `node->next_ = v`. -/
def Links.setNext (m : Links) (node : Nat) (v : Option Nat) : Links :=
  { m with next := fun x => if x = node then v else m.next x }

/-- Assignment `node->prev_ = v`. -/
def Links.setPrev (m : Links) (node : Nat) (v : Option Nat) : Links :=
  { m with prev := fun x => if x = node then v else m.prev x }

/-- `push_back` (context.ipp 215-226). -/
def LList.pushBack (m : Links) (l : LList) (node : Nat) : Links × LList :=
  let m := m.setNext node none
  let m := m.setPrev node l.tail
  let m := match l.tail with
    | some t => m.setNext t (some node)
    | none => m
  (m, { head := if l.head.isNone then some node else l.head, tail := some node })

/-- `erase` (context.ipp 228-244). -/
def LList.erase (m : Links) (l : LList) (node : Nat) : Links × LList :=
  let (m, l) := match m.next node with
    | some n => (m.setPrev n (m.prev node), l)
    | none => (m, { l with tail := m.prev node })
  let (m, l) := match m.prev node with
    | some p => (m.setNext p (m.next node), l)
    | none => (m, { l with head := m.next node })
  ((m.setNext node none).setPrev node none, l)

/-- `splice` (context.ipp 246-265): the links, the list and what is left of `right`. -/
def LList.splice (m : Links) (l right : LList) : Res (Links × LList × LList) :=
  match right.head with
  | none => .ok (m, l, right)
  | some rh =>
    match l.head with
    | none => .ok (m, { head := right.head, tail := right.tail }, { head := none, tail := none })
    | some _ =>
      match l.tail with
      | none => .error .ub        -- `tail_->next_` with a null pointer
      | some t => .ok ((m.setPrev rh l.tail).setNext t right.head,
          { l with tail := right.tail }, { head := none, tail := none })

/-- The loops over a list (context.ipp 82-84, 133-135); `fuel` bounds their length. -/
def walk (m : Links) : Nat → Option Nat → List Nat
  | _, none => []
  | 0, some _ => []
  | fuel + 1, some x => x :: walk m fuel (m.next x)

end NuDB
