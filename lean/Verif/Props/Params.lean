import Verif.Props.Reject
import Verif.Props.Lifetime
/-
C58: parameters that cannot work are refused.
-/
namespace NuDB

open Spec

/-- The load factor is a number that does not lie between zero and one. -/
def Load.OutOfRange : Load → Prop
  | .nan => False
  | .inf => True
  | .rat num den => num ≤ 0 ∨ (den : Int) ≤ num

/-- Why `create` must refuse its arguments: there are no keys of size zero, a block size has 16 bits, the load factor
is a part, and the header of the key file (104 bytes) must fit into a block. -/
inductive Refused (a : CreateArgs) : Err → Prop
  | key (h : a.keySize = 0) : Refused a .invalid_key_size
  | large (h : 65535 < a.blockSize) (hk : a.keySize ≠ 0) : Refused a .invalid_block_size
  | load (h : a.load.OutOfRange) (hk : a.keySize ≠ 0) (hb : a.blockSize ≤ 65535) : Refused a .invalid_load_factor
  | small (h : a.blockSize < 104) (hk : a.keySize ≠ 0) (hl : ¬ a.load.OutOfRange) : Refused a .invalid_block_size

private theorem bad_iff (l : Load) : l.bad = true ↔ l.OutOfRange := by
  cases l with
  | nan => simp [Load.bad, Load.OutOfRange]
  | inf => simp [Load.bad, Load.OutOfRange]
  | rat num den => simp [Load.bad, Load.OutOfRange]

private theorem capacity_small {n : Nat} (h : n < 104) : bucketCapacity n < 1 := by
  unfold bucketCapacity
  rw [if_pos (by
    have : n < keyHeaderSize := h
    simp [this])]
  omega

/-- C58 in part, for `create`: such arguments are refused with the fitting error, and no file operation is
attempted. Missing: `create` lets three more kinds of arguments pass (`C24_long_keys`, `C24_tiny_load_factor`,
`C24_nan`), and `rekey` refuses nothing (below). -/
theorem C58_create_partial {c : Cfg} {asserts : Bool} {a : CreateArgs} {e : Err} (σ : Schedule) (w : World) (h : Refused a e) :
    create c asserts a σ w = (.error (.err e), w) := by
  unfold create
  cases h with
  | key h => rw [if_pos (by omega)]; rfl
  | large h hk => rw [if_neg (by omega), if_pos (by omega)]; rfl
  | load h hk hb => rw [if_neg (by omega), if_neg (by omega), if_pos ((bad_iff _).mpr h)]; rfl
  | small h hk hl =>
    rw [if_neg (by omega), if_neg (by omega), if_neg (fun h => hl ((bad_iff _).mp h)), if_pos (capacity_small h)]; rfl

/-- C58: arguments that can work are not refused: `create` fails then only because of the environment. -/
theorem C58_accepts {c : Cfg} {asserts : Bool} {a : CreateArgs} {lf : Nat} {σ : Schedule} {w w' : World} {x : Exc}
    (ha : Creatable a lf) (hw : ∀ p, w.fs p = none) (h : create c asserts a σ w = (.error x, w')) :
    (x = .crash ∨ x = .err .io) ∧ Disturbed σ := by
  obtain ⟨h1, h2, h3⟩ := creatable_ok ha
  exact wp_elim_error (wp_create h1 h2 h3 (hw _) (hw _) (hw _) (Q := fun _ _ => True) (fun _ _ _ => trivial)) h

/-- Four calls that are refused. -/
example : Refused { demoArgs with keySize := 0 } .invalid_key_size ∧ Refused { demoArgs with blockSize := 65536 } .invalid_block_size ∧
    Refused { demoArgs with load := .rat 0 1 } .invalid_load_factor ∧ Refused { demoArgs with blockSize := 103 } .invalid_block_size :=
  ⟨.key rfl, .large (by decide) (by decide), .load (.inl (by decide)) (by decide) (by decide),
    .small (by decide) (by decide) (by rintro (h | h) <;> revert h <;> decide)⟩

/-- Creation fails at the third file operation. -/
example : Creatable demoArgs 32768 ∧ ∃ w', create demoCfg true demoArgs (faultAt 2 (.crash 0) ⟨fun _ => none, 0, []⟩) ⟨fun _ => none, 0, []⟩ = (.error .crash, w') := by
  refine ⟨demo_creatable, crashed_iff (by decide +kernel)⟩

/-- What `rekey` of an empty database and `open` afterwards report. -/
def rekeyOpen (a : RekeyArgs) : Option Exc × Option Exc :=
  let fs : Fs := fun p => if p = .dat then newFiles demoArgs .dat else none
  match rekey demoCfg a calm ⟨fs, 0, []⟩ with
  | (.error x, _) => (some x, none)
  | (.ok _, w) =>
    match openStore demoCfg calm w with
    | (.error x, _) => (none, some x)
    | (.ok _, _) => (none, none)

/-- C58 is false for `rekey`: zero items, the right number for this database, give zero buckets. `rekey` reports
success, and the database cannot be opened. With a load factor of 2^-17 the same happens. A block size that is too small
makes it write outside of a buffer, and one that is too large fails an assertion (without assertions it would be truncated). -/
theorem C58_rekey_violated : rekeyOpen ⟨120, .rat 1 2, 0, 5, 250⟩ = (none, some (.err .invalid_bucket_count)) ∧
    rekeyOpen ⟨120, .rat 1 131072, 1, 5, 250⟩ = (none, some (.err .invalid_load_factor)) ∧
    rekeyOpen ⟨103, .rat 1 2, 1, 5, 250⟩ = (some .ub, none) ∧ rekeyOpen ⟨65536, .rat 1 2, 1, 5, 250⟩ = (some .abort, none) := by
  decide +kernel

/-- With suitable arguments the database can be opened. -/
example : rekeyOpen ⟨120, .rat 1 2, 1, 5, 250⟩ = (none, none) := by decide +kernel

end NuDB
