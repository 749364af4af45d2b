import Verif.Model.Display
import Verif.Spec.Layout
/-
Specification for C88: the progress display.
-/
namespace NuDB.Spec

/-- The clock does not go back. -/
def Forward (ks : List Tick) : Prop := (ks.flatMap (fun k => [k.t, k.t'])).Pairwise (· ≤ ·)

/-- Numbers of 64 bits. -/
def In64 (ks : List Tick) : Prop := ∀ k ∈ ks, k.amount < 2 ^ 64 ∧ k.total < 2 ^ 64

/-- These are the calls with the reports `evs`, at whatever times. -/
def Reported (evs : List Event) (ks : List Tick) : Prop := ks.map (fun k => (k.amount, k.total)) = progressed evs

/-- Right lines, if the last one was shown at `before` with the amount `done`. Between two
lines there are at least `wait` nanoseconds: 30 seconds before the first one and a minute
before the others. -/
inductive RightLines (start : Int) : (before : Int) → (done : Nat) → (wait : Int) → List Line → Prop
  | nil {before : Int} {done : Nat} {wait : Int} : RightLines start before done wait []
  | cons {before : Int} {done : Nat} {wait : Int} {l : Line} {ls : List Line}
      (elapsed : l.elapsed = l.time - start) (since : l.since = l.time - before) (gap : before + wait ≤ l.time)
      (delta : done + l.delta = l.amount) (left : l.amount ≤ l.total → l.amount + l.left = l.total)
      (rest : RightLines start l.time l.amount 60000000000 ls) :
      RightLines start before done wait (l :: ls)

/-- What a reader of the display wants: the lines are right and belong to calls that were made;
whenever some work was reported, a line is not older than a minute, or the work began less than
half a minute before. -/
structure GoodDisplay (ks : List Tick) (ls : List Line) : Prop where
  lines : ∃ k0 ∈ ks, k0.amount = 0 ∧ RightLines k0.t' k0.t' 0 30000000000 ls ∧
    ∀ k ∈ ks, k.amount ≠ 0 → k.t < k0.t' + 30000000000 ∨ ∃ l ∈ ls, l.time ≤ k.t ∧ k.t < l.time + 60000000000
  calls : (ls.map (fun l => (l.amount, l.total, l.time))).Sublist (ks.map (fun k => (k.amount, k.total, k.t)))

end NuDB.Spec
