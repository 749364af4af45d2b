/- Specification of integer fields: positional notation, most significant byte first. -/
namespace NuDB.Spec

/-- The `w` base-256 digits of `n`, most significant first. -/
def bigEndian : (w n : Nat) → List UInt8
  | 0, _ => []
  | w + 1, n => UInt8.ofNat (n / 256 ^ w) :: bigEndian w n

/-- The number denoted by a list of base-256 digits, most significant first. -/
def value : List UInt8 → Nat
  | [] => 0
  | b :: bs => b.toNat * 256 ^ bs.length + value bs

end NuDB.Spec
