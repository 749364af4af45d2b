import Verif.Model.Concurrent
/-
Locks of a shared store and file operations.
-/
namespace NuDB.Spec
open Conc

/-- The next step of thread `t` reads a file, on behalf of `fetch` (`ins = false`) or `insert` (`ins = true`). -/
inductive ReadsFile (x : Sys) (t : Nat) : (ins : Bool) → Prop
  | fetchC {key n blob q off len k} (h : x.pc t = .fetchC key n blob (.read q off len k)) : ReadsFile x t false
  | fetchK {key n g q off len k} (h : x.pc t = .fetchK key n g (.read q off len k)) : ReadsFile x t false
  | insC {key v n blob q off len k rest} (h : x.pc t = .insC key v n blob (.read q off len k) rest) : ReadsFile x t true
  | insS {key v q off len k} (h : x.pc t = .insS key v (.read q off len k)) : ReadsFile x t true
  | insK {key v n g q off len k} (h : x.pc t = .insK key v n g (.read q off len k)) : ReadsFile x t true

/-- Thread `t` holds the mutex `m_` (shared) or `u_`. -/
def Locks (x : Sys) (t : Nat) : Prop := t ∈ x.shared ∨ x.owner = some t

/-- Thread `t` is in a call of `fetch`. -/
inductive Fetching (x : Sys) (t : Nat) : Prop
  | zero {key} (h : x.pc t = .fetch0 key)
  | one {key} (h : x.pc t = .fetch1 key)
  | cached {key n blob p} (h : x.pc t = .fetchC key n blob p)
  | file {key n g p} (h : x.pc t = .fetchK key n g p)

/-- The next step of the flusher is an operation on a file. -/
inductive FlushesFile (x : Sys) : Prop
  | prep {p} (h : x.fl = .prep p) (h1 : ∀ w, p ≠ .ret w) (h2 : ∀ e, p ≠ .raise e)
  | log {p} (h : x.fl = .log p) (h1 : ∀ w, p ≠ .ret w) (h2 : ∀ e, p ≠ .raise e)
  | keys {p} (h : x.fl = .keys p) (h1 : ∀ w, p ≠ .ret w) (h2 : ∀ e, p ≠ .raise e)

end NuDB.Spec
