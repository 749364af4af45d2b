import Verif.Model.Genlock
/-
What `genlock` is for.
-/
namespace NuDB.Spec

/-- The lock holds a generation that satisfies `p`. -/
def HoldsGen (p : Nat → Bool) : Option Genlock → Bool
  | some ⟨true, true, some n⟩ => p n
  | _ => false

/-- The counters of the `gentex` are right: `cur` locks hold the current generation, `prev` locks hold an older one, and
there are no others. -/
structure GenCounted (s : Locks) : Prop where
  cur : s.tex.cur = s.locks.countP (HoldsGen (· == s.tex.gen))
  prev : s.tex.prev = s.locks.countP (HoldsGen (· < s.tex.gen))
  all : ∀ l, some l ∈ s.locks → l.owned = true → l.g = true ∧ ∃ n, l.gen = some n ∧ n ≤ s.tex.gen

/-- Locks are neither moved nor exchanged, and none is detached while it holds a generation. The store does none of
this. -/
def PlainOp (s : Locks) : LockOp → Prop
  | .move _ _ => False
  | .assign _ _ => False
  | .swap _ _ => False
  | .release x => ∀ l, s.locks[x]? = some (some l) → l.owned = false
  | _ => True

/-- A permitted use: objects are made in free storage, used and destroyed while they live, locked when they are not locked,
unlocked when they are. -/
def LockOk (s : Locks) : LockOp → Prop
  | .default x => s.locks[x]? = some none
  | .make x => s.locks[x]? = some none
  | .defer x => s.locks[x]? = some none
  | .move x y => s.locks[x]? = some none ∧ ∃ o, s.locks[y]? = some (some o)
  | .assign x y => (∃ l, s.locks[x]? = some (some l)) ∧ ∃ o, s.locks[y]? = some (some o)
  | .destroy x => ∃ l, s.locks[x]? = some (some l)
  | .lock x => ∃ l, s.locks[x]? = some (some l) ∧ l.g = true ∧ l.owned = false
  | .unlock x => ∃ l, s.locks[x]? = some (some l) ∧ l.g = true ∧ l.owned = true
  | .release x => ∃ l, s.locks[x]? = some (some l)
  | .swap x y => (∃ l, s.locks[x]? = some (some l)) ∧ ∃ o, s.locks[y]? = some (some o)
  | .start => True

/-- Every operation of the program is permitted when it is reached, and satisfies `P`. -/
def AllOps (P : Locks → LockOp → Prop) : List LockOp → Locks → Prop
  | [], _ => True
  | op :: ops, s => P s op ∧ LockOk s op ∧ ∀ s', op.step s = .ok s' → AllOps P ops s'

end NuDB.Spec
