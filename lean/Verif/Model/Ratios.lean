import Verif.Model.Float
import Verif.Model.Verify
/-
The statistics of `verify` that are quotients (verify.ipp 252-275, 509-532). The sum of the histogram computed there is not used.
-/
namespace NuDB

/-- The quotients reported by `verify`. -/
structure Ratios where
  /-- `avg_fetch` -/
  avgFetch : F32
  /-- `waste` -/
  waste : F32
  /-- `overhead` before 1 is subtracted; nothing if there are no values, then `overhead` is 0 -/
  amplification : Option F32
  /-- `actual_load` -/
  actualLoad : F32
deriving DecidableEq, Repr

/-- The quotients (verify.ipp 255-275, 512-532), from the counters, the header of the key file and the sizes of the files. Where one operand is an integer it is converted to `float`; the difference of the two numbers of bytes
is one of 64 bits. Those by zero are not modelled: this can only be reached with the divisor of `overhead`, and is not (C82). -/
def ratios (info : Info) (kh : KeyHeader) (datSize keySize : Nat) : Ratios where
  avgFetch := if info.valueCount ≠ 0 then (F32.ofNat info.fetches).div (F32.ofNat info.valueCount) else ⟨0, 1⟩
  waste := (F32.ofNat ((info.spillBytesTot + 2 ^ 64 - info.spillBytes) % 2 ^ 64)).div (F32.ofNat datSize)
  amplification := if info.valueCount ≠ 0 then
      some ((F32.ofNat (keySize + datSize)).div (F32.ofNat (info.valueBytes + info.keyCount * (kh.keySize + 6))))
    else none
  actualLoad := (F32.ofNat info.keyCount).div (F32.ofNat (kh.capacity * kh.buckets))

end NuDB
