import Verif.Spec.Concurrent
/-
Infinite executions of a store shared by several threads. (A finite execution that cannot be
continued appears here as one in which nothing but `Act.part` happens from some time on.)
-/
namespace NuDB.Spec

open Conc

/-- An infinite execution: `x i` is the state at time `i`, `a i` the action that happens then
and `e i` what it shows to the clients. -/
def Execution (c : Cfg) (x : Nat → Sys) (a : Nat → Act) (e : Nat → List Ev) : Prop :=
  ∀ i, step c (x i) (a i) = some (x (i + 1), e i)

/-- The scheduler is fair to thread `t`: if the thread can go on at every time from `i` on,
then it goes on at some time. Nothing is assumed about which thread gets a mutex that several
threads wait for. -/
def Fair (c : Cfg) (x : Nat → Sys) (a : Nat → Act) (t : Nat) : Prop :=
  ∀ i, (∀ j, i ≤ j → ∃ z, step c (x j) (.go t .none) = some z) → ∃ j f, i ≤ j ∧ a j = .go t f

/-- The scheduler is fair to the flusher. -/
def FairFlusher (c : Cfg) (x : Nat → Sys) (a : Nat → Act) : Prop :=
  ∀ i, (∀ j, i ≤ j → ∃ z, step c (x j) (.goF .none) = some z) → ∃ j f, i ≤ j ∧ a j = .goF f

/-- The flusher is not overtaken forever: if it can go on at infinitely many times, then it
goes on at some time. -/
def StrongFlusher (c : Cfg) (x : Nat → Sys) (a : Nat → Act) : Prop :=
  ∀ i, (∀ l, i ≤ l → ∃ j, l ≤ j ∧ ∃ z, step c (x j) (.goF .none) = some z) → ∃ j f, i ≤ j ∧ a j = .goF f

/-- Again and again there is a moment when no thread holds `m_` shared. -/
def Gaps (x : Nat → Sys) : Prop := ∀ l, ∃ j, l ≤ j ∧ (x j).shared = []

/-- No call is made from time `i` on. -/
def NoCalls (a : Nat → Act) (i : Nat) : Prop := ∀ j t op, i ≤ j → a j ≠ .call t op

/-- No flush starts from time `i` on. -/
def NoFlushes (a : Nat → Act) (i : Nat) : Prop := ∀ j, i ≤ j → a j ≠ .flush

/-- Thread `t` returns from its call at time `j`. -/
def ReturnsAt (e : Nat → List Ev) (t j : Nat) : Prop := ∃ r, .ret t r ∈ e j

end NuDB.Spec
