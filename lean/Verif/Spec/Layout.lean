import Verif.Spec.Codec
import Verif.Model.File
/-
The layout of a data file, as documented: a header followed by value records and overflow
records.
-/
namespace NuDB.Spec

/-- `n` bytes at offset `o`. -/
def bytesAt (f : Bytes) (o n : Nat) : Bytes := (f.drop o).take n

/-- Records of a data file. -/
inductive Record
  | value (key data : Bytes)
  | overflow (body : Bytes)

/-- Size of the value (6 bytes), key, value; or 6 bytes of zero, size of the body (2 bytes),
body. -/
def Record.bytes : Record → Bytes
  | .value k v => bigEndian 6 v.length ++ k ++ v
  | .overflow b => bigEndian 6 0 ++ bigEndian 2 b.length ++ b

/-- Keys have the size given in the header; values are not empty. -/
def Record.Ok (keySize : Nat) : Record → Prop
  | .value k v => k.length = keySize ∧ 1 ≤ v.length ∧ v.length < 2 ^ 32
  | .overflow b => b.length < 2 ^ 16

/-- The header of a data file: signature "nudb.dat", version 2, uid, application number, key
size, 64 bytes reserved. -/
structure DataHeader (keySize : Nat) (h : Bytes) : Prop where
  length : h.length = 92
  signature : bytesAt h 0 8 = [0x6e, 0x75, 0x64, 0x62, 0x2e, 0x64, 0x61, 0x74]
  version : value (bytesAt h 8 2) = 2
  key : value (bytesAt h 26 2) = keySize
  pos : 1 ≤ keySize

/-- All records one after the other. -/
def layout (rs : List Record) : Bytes := rs.flatMap Record.bytes

/-- `D` is the content of a data file with these records. -/
def DataFile (keySize : Nat) (D : Bytes) (rs : List Record) : Prop :=
  ∃ h, DataHeader keySize h ∧ D = h ++ layout rs ∧ ∀ r ∈ rs, r.Ok keySize

/-- The pairs stored by these records. -/
def values (rs : List Record) : List (Bytes × Bytes) :=
  rs.filterMap (fun
    | .value k v => some (k, v)
    | .overflow _ => none)

/-- The bodies of the overflow records. -/
def overflows (rs : List Record) : List Bytes :=
  rs.filterMap (fun
    | .value _ _ => none
    | .overflow b => some b)

/-- The pairs given to the callback of `visit`. -/
def visited (out : List Event) : List (Bytes × Bytes) :=
  out.filterMap (fun
    | .item k v => some (k, v)
    | .progress _ _ => none)

/-- The pairs of amount and total given to the progress callback. -/
def progressed (out : List Event) : List (Nat × Nat) :=
  out.filterMap (fun
    | .item _ _ => none
    | .progress n t => some (n, t))

/-- Progress reports: the same total each time, amounts that do not decrease and do not exceed
the total. -/
def Steady (out : List Event) : Prop :=
  ∃ total, (∀ p ∈ progressed out, p.2 = total ∧ p.1 ≤ total) ∧
    ((progressed out).map Prod.fst).Pairwise (· ≤ ·)

/-- Progress reports: the same total each time and amounts that do not decrease. -/
def Rising (out : List Event) : Prop :=
  ∃ total, (∀ p ∈ progressed out, p.2 = total) ∧ ((progressed out).map Prod.fst).Pairwise (· ≤ ·)

/-- What the callback set `ec` to, each time it was called. -/
def replies (cb : List Event → Option Err) : (past : List Event) → List Event → List (Option Err)
  | _, [] => []
  | past, .item k v :: es => cb (past ++ [.item k v]) :: replies cb (past ++ [.item k v]) es
  | past, .progress n t :: es => replies cb (past ++ [.progress n t]) es

/-- The ways in which a record can be cut off, and how `visit` takes it: in the middle of a
value it throws an exception, otherwise it reports `short_read`. -/
inductive CutOff (keySize : Nat) : Bytes → Exc → Prop
  | size {t : Bytes} (h : 1 ≤ t.length) (h' : t.length < 6) : CutOff keySize t (.err .short_read)
  | value {t : Bytes} (h : 6 ≤ t.length) (h1 : 1 ≤ value (bytesAt t 0 6)) (h2 : value (bytesAt t 0 6) < 2 ^ 32)
      (h' : t.length < 6 + keySize + value (bytesAt t 0 6)) : CutOff keySize t .throw
  | bodySize {t : Bytes} (h : 6 ≤ t.length) (h0 : value (bytesAt t 0 6) = 0) (h' : t.length < 8) :
      CutOff keySize t (.err .short_read)
  | body {t : Bytes} (h : 8 ≤ t.length) (h0 : value (bytesAt t 0 6) = 0)
      (h' : t.length < 8 + value (bytesAt t 6 2)) : CutOff keySize t (.err .short_read)

end NuDB.Spec
