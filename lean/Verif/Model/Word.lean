import Verif.Model.Store
/-
The addresses of buckets as computed with machine words: `nbuck_t` and `nsize_t` are `std::size_t` (type_traits.hpp 30, 57),
a word of `W` bits, whereas `noff_t` has 64 bits (type_traits.hpp 47). All other models compute with natural numbers.
-/
namespace NuDB

/-- Conversion to an unsigned word of `W` bits. -/
def word (W n : Nat) : Nat := n % 2 ^ W

/-- The places at which the key file is accessed at a bucket. -/
inductive Access
  /-- `fetch` (basic_store.ipp 260) -/
  | fetch
  /-- `insert` (basic_store.ipp 320-321) -/
  | insert
  /-- `load` (basic_store.ipp 572-573) -/
  | load
  /-- `commit` (basic_store.ipp 732-733) -/
  | commit
  /-- `recover` (recover.ipp 142-166), where the number is read from the log file -/
  | recover
  /-- `rekey` (rekey.ipp 232), the first bucket of a chunk -/
  | rekey
  /-- `verify_normal`, key of a data record (verify.ipp 106-107) -/
  | verifyKey
  /-- `verify_normal`, all buckets (verify.ipp 189-190) -/
  | verifyBucket
  /-- `verify_fast` (verify.ipp 333-334), the first bucket of a chunk -/
  | verifyFast
deriving DecidableEq

/-- `(n + 1) * block_size`, both of type `std::size_t`; then converted to `noff_t`. -/
def mulNarrow (W n blockSize : Nat) : Nat := word W (word W (n + 1) * blockSize)

/-- `static_cast<noff_t>(n + 1) * block_size` with `n` of type `std::size_t`. -/
def mulWide (W n blockSize : Nat) : Nat := word 64 (word W (n + 1) * blockSize)

/-- The address computed at each of these places for the bucket `n`. -/
def Access.addr (W : Nat) (a : Access) (n blockSize : Nat) : Nat :=
  match a with
  | .fetch => mulNarrow W n blockSize
  | .insert => mulWide W n blockSize
  | .load => mulWide W n blockSize
  | .commit => mulNarrow W n blockSize
  | .recover => mulWide W (word W n) blockSize
  | .rekey => mulNarrow W n blockSize
  | .verifyKey => mulWide W n blockSize
  | .verifyBucket => mulWide W n blockSize
  | .verifyFast => mulWide W n blockSize

/-- The position of the byte by which `rekey` extends the key file (rekey.ipp 148-149). -/
def rekeyEnd (W buckets blockSize : Nat) : Nat := mulWide W buckets blockSize - 1

end NuDB
