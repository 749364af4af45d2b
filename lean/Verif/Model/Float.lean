import Verif.Model.Rekey
/-
The computations with numbers of type `float` in `rekey` (rekey.ipp 84-88).

`float` is taken to be IEEE 754 binary32, with operations rounding to the nearest number and halfway cases going to the even one, and
evaluated in that format (`FLT_EVAL_METHOD` 0). The range of the exponent is not modelled: the results here describe the hardware
as long as no operand or result other than zero is below 2^-126 or above 2^128.
-/
namespace NuDB

/-- A nonnegative number of type `float`, as the fraction `num / den`. -/
structure F32 where
  num : Nat
  den : Nat
deriving DecidableEq, Repr

/-- The result of rounding `n / d` to 24 significant bits, to the nearest and in halfway cases to the even one. The exponent is found from
`n / d * 2^160`, so this is meant for fractions which are zero or at least 2^-160. -/
def F32.round (n d : Nat) : F32 :=
  if n = 0 then ⟨0, 1⟩ else
    let l := Nat.log2 (n * 2 ^ 160 / d)
    let a := n * 2 ^ 183
    let b := d * 2 ^ l
    let q := a / b
    let r := a % b
    let q := if b < 2 * r ∨ (b = 2 * r ∧ q % 2 = 1) then q + 1 else q
    ⟨q * 2 ^ l, 2 ^ 183⟩

/-- The conversion of an unsigned integer to `float`. -/
def F32.ofNat (n : Nat) : F32 := F32.round n 1

/-- The product of two numbers of type `float`. -/
def F32.mul (x y : F32) : F32 := F32.round (x.num * y.num) (x.den * y.den)

/-- The quotient of two numbers of type `float`, the second not zero. -/
def F32.div (x y : F32) : F32 := F32.round (x.num * y.den) (x.den * y.num)

/-- `static_cast<std::size_t>(std::ceil(x))`. The conversion is undefined behaviour if the number does not fit. -/
def F32.ceil (x : F32) : Res Nat :=
  let n := (x.num + x.den - 1) / x.den
  if n < 2 ^ 64 then .ok n else .error .ub

/-- `static_cast<std::size_t>(std::ceil(itemCount / (bucket_capacity(kh.block_size) * loadFactor)))` (rekey.ipp 86-88). Both integers are
converted to `float`. A quotient by zero is infinite or not a number, and then the conversion is undefined behaviour; the quotient by infinity is
zero; for a negative load factor the quotient is negative, and the conversion defined only if the result of `std::ceil` is zero. -/
def rekeyBuckets (itemCount cap : Nat) : Load → Res Nat
  | .nan => .error .ub
  | .inf => if cap = 0 then .error .ub else .ok 0
  | .rat num den =>
    let y := (F32.ofNat cap).mul ⟨num.natAbs, den⟩
    if y.num = 0 then .error .ub else
      let q := (F32.ofNat itemCount).div y
      if num < 0 then (if q.num < q.den then .ok 0 else .error .ub) else q.ceil

/-- The arguments of a call of `rekey` (rekey.ipp 28-38), with the result of `make_salt()`. -/
structure RekeyCall where
  blockSize : Nat
  load : Load
  itemCount : Nat
  salt : Nat
  bufferSize : Nat

/-- `rekey` with the number of buckets as it is computed there (rekey.ipp 84-88). The number is computed before anything is done to the files, here
before the data file and the log file are looked at. -/
def rekeyCall (c : Cfg) (a : RekeyCall) : M Unit := do
  let n ← M.lift (rekeyBuckets a.itemCount (bucketCapacity a.blockSize) a.load)
  rekey c ⟨a.blockSize, a.load, n, a.salt, a.bufferSize⟩

end NuDB
