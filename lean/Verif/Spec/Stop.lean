import Verif.Spec.Sched
/-
Executions during a call of `stop_all`.
-/
namespace NuDB.Spec
open NuDB.Sched

/-- A thread executes `run`, or was made by `start` and is about to. -/
def Serves (p : PC) : Bool := InRun p || p == .spawned

/-- `Stops t c n d`: from `c` to `d` by steps of any threads, among them `n` steps of threads that serve the context. Thread `t`
is inside `stop_all` before each step, and no further thread enters `run`. -/
inductive Stops (t : Nat) (c : Ctx) : Nat → Ctx → Prop
  | refl : Stops t c 0 c
  | step {n d u a e es} : Stops t c n d → d.pc t ≠ .out → a ≠ .run → step d u a = some (e, es) →
      Stops t c (n + if Serves (d.pc u) then 1 else 0) e

end NuDB.Spec
