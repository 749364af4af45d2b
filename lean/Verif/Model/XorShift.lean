import Verif.Model.Bytes
/-
_experimental/test/xor_shift_engine.hpp: the random numbers of the tests, and the items made of them (_experimental/test/test_store.hpp).
-/
namespace NuDB.XorShift

/-- `s_[0]`, `s_[1]` (xor_shift_engine.hpp 61) -/
structure Engine where
  s0 : UInt64
  s1 : UInt64
deriving DecidableEq, Repr

/-- `murmurhash3` (xor_shift_engine.hpp 90-100) -/
def murmurhash3 (x : UInt64) : UInt64 :=
  let x := x ^^^ (x >>> 33)
  let x := x * 0xff51afd7ed558ccd
  let x := x ^^^ (x >>> 33)
  let x := x * 0xc4ceb9fe1a85ec53
  x ^^^ (x >>> 33)

/-- `seed` (xor_shift_engine.hpp 68-76); `none` is the `std::domain_error` -/
def seed (v : UInt64) : Option Engine :=
  if v = 0 then none
  else
    let s0 := murmurhash3 v
    some ⟨s0, murmurhash3 s0⟩

/-- `operator()` (xor_shift_engine.hpp 78-88): the number and the new state -/
def next (e : Engine) : UInt64 × Engine :=
  let s1 := e.s0
  let s0 := e.s1
  let s1 := s1 ^^^ (s1 <<< 23)
  let r := s1 ^^^ s0 ^^^ (s1 >>> 17) ^^^ (s0 >>> 26)
  (r + s0, ⟨s0, r⟩)

/-- The state after `n` numbers. -/
def after : Nat → Engine → Engine
  | 0, e => e
  | n + 1, e => after n (next e).2

/-- The bytes of a number in memory (little endian machine). -/
def bytes (v : UInt64) : Bytes := (List.range 8).map (fun i => (v >>> (8 * UInt64.ofNat i)).toUInt8)

/-- `rngfill` (test_store.hpp 357-380) -/
def rngfill (size : Nat) (g : Engine) : Bytes × Engine :=
  if size ≥ 8 then
    let r := rngfill (size - 8) (next g).2
    (bytes (next g).1 ++ r.1, r.2)
  else if size > 0 then ((bytes (next g).1).take size, (next g).2)
  else ([], g)
termination_by size

/-- `item_type` (test_store.hpp 187-193) -/
structure Item where
  key : Bytes
  data : Bytes
deriving DecidableEq

/-- `basic_test_store::operator[]` (test_store.hpp 307-324). `sizef` is `std::uniform_int_distribution`, whose algorithm is not specified: it draws
numbers and returns a size and the state after it. `none` is the exception of `seed`. -/
def item (sizef : Engine → Nat × Engine) (keySize : Nat) (i : UInt64) : Option Item :=
  match seed (i + 1) with
  | none => none
  | some g =>
    let d := sizef g
    let b := (rngfill (keySize + d.1) d.2).1
    some ⟨b.drop d.1, b.take d.1⟩

end NuDB.XorShift
