import Verif.Model.Bytes
/-
How many bytes the two algorithms of `verify` read, as the code estimates it (verify.ipp 599-620), with the load factor as the fraction it stands for.
All numbers are multiplied by 65536, so that the load factor `lf / 65536` need not be rounded.
-/
namespace NuDB.Spec

/-- Both files once, and one block for each of the keys: of `buckets` with room for `(bs - 8) / 18` keys each, filled to `lf / 65536`. -/
def bytesPerKey (dat key buckets lf bs : Nat) : Nat := 65536 * (dat + key) + buckets * lf * ((bs - 8) / 18) * bs

/-- The number of buckets kept in memory by a buffer of `n` bytes, 8 bytes more for each, with one block left over. -/
def bucketsAtOnce (n bs : Nat) : Nat := (n - bs) / (bs + 8)

/-- The number of passes needed: the number of buckets divided by those kept in memory, rounded up. -/
def passesFor (buckets n bs : Nat) : Nat := (buckets + bucketsAtOnce n bs - 1) / bucketsAtOnce n bs

/-- The key file once, and the data file in every pass. -/
def bytesPerPass (dat key passes : Nat) : Nat := 65536 * (passes * dat + key)

end NuDB.Spec
