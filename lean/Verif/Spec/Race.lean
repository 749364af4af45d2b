/-
Data races as in the C++ standard ([intro.races]), for executions given as lists of events in
the order in which they happened.
-/
namespace NuDB.Race

/-- How a mutex is locked. -/
inductive Mode
  | shared | excl
deriving DecidableEq, Repr

/-- What a thread does: it reads or writes a memory location of type `L`, locks or unlocks a mutex
of type `M`, stores to or loads from the atomic variable, or something without significance. -/
inductive Ev (L M : Type)
  | read (l : L)
  | write (l : L)
  | lock (m : M) (k : Mode)
  | unlock (m : M) (k : Mode)
  | store
  | load
  | other
deriving DecidableEq, Repr

/-- An execution: who did what. -/
abbrev Trace (L M : Type) := List (Nat × Ev L M)

/-- `i` happens before `j`: the same thread did `i` first; `i` releases a mutex and `j` acquires it
later, one of them exclusively ([thread.mutex.requirements], [thread.sharedmutex.requirements]); `j`
loads the value that `i` stored; and what follows by transitivity. -/
inductive HB {L M : Type} (tr : Trace L M) : Nat → Nat → Prop
  | order {i j t a b} : i < j → tr[i]? = some (t, a) → tr[j]? = some (t, b) → HB tr i j
  | mutex {i j t u m k k'} : i < j → tr[i]? = some (t, .unlock m k) → tr[j]? = some (u, .lock m k') →
      (k = .excl ∨ k' = .excl) → HB tr i j
  | atomic {i j t u} : i < j → tr[i]? = some (t, .store) → tr[j]? = some (u, .load) →
      (∀ n v, i < n → n < j → tr[n]? ≠ some (v, .store)) → HB tr i j
  | trans {i j k} : HB tr i j → HB tr j k → HB tr i k

/-- Two accesses of the location `l`, at least one of which is a write. -/
def Conflict {L M : Type} (l : L) (a b : Ev L M) : Prop :=
  (a = .write l ∧ b = .write l) ∨ (a = .write l ∧ b = .read l) ∨ (a = .read l ∧ b = .write l)

/-- A data race at the location `l`: conflicting accesses, of which none happens before the other (the
later one never happens before the earlier one). -/
def RaceAt {L M : Type} (tr : Trace L M) (l : L) : Prop :=
  ∃ i j t u a b, i < j ∧ tr[i]? = some (t, a) ∧ tr[j]? = some (u, b) ∧ Conflict l a b ∧ ¬ HB tr i j

end NuDB.Race
