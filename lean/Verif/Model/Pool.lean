import Verif.Model.BulkIO
/-
detail/pool.hpp and detail/cache.hpp: the insert buffer and the bucket cache.
Memory of the elements (arena) is modelled separately in `Model/Arena`.
-/
namespace NuDB

/-- `pool_t::value_type` (pool.hpp 107-126); `size` is the length of `data`. -/
structure Item where
  hash : Nat
  key : Bytes
  data : Bytes
deriving DecidableEq, Repr

/-- `memcmp(a, b, n) < 0` for buffers of equal length (pool.hpp 147-153): the first
differing byte decides. -/
def memLt : Bytes → Bytes → Bool
  | a :: as, b :: bs => a < b || (a == b && memLt as bs)
  | _, _ => false

/-- `pool_t` (pool.hpp 27-105): the elements of the `std::map` in iteration order. -/
abbrev Pool := List Item

/-- `find` (pool.hpp 195-205): keys have equal length, so equivalence under `memcmp` is
equality. -/
def Pool.find (p : Pool) (key : Bytes) : Option Item := List.find? (fun it => it.key == key) p

/-- `data_size` (pool.hpp 79-84, 224): sum of the value sizes. -/
def Pool.dataSize (p : Pool) : Nat := (List.map (fun it => it.data.length) p).sum

/-- position of a new element in the ordered map -/
def Pool.place (it : Item) : Pool → Pool
  | [] => [it]
  | x :: xs => if memLt it.key x.key then it :: x :: xs else x :: place it xs

/-- `insert` (pool.hpp 207-225): asserts that the key is new. -/
def Pool.insert (p : Pool) (it : Item) : Res Pool := do
  assert (p.find it.key).isNone
  return p.place it

/-- `cache_t` (cache.hpp 24-137): bucket index to blob, in hash table order. -/
abbrev Cache := List (Nat × Bytes)

/-- `find` (cache.hpp 185-195). -/
def Cache.find (c : Cache) (n : Nat) : Option Bytes :=
  (List.find? (fun e => e.1 == n) c).map (·.2)

/-- In C++ buckets obtained from the cache point into its memory, so that changing the
bucket changes the cache. Here the changed blob is stored back explicitly. -/
def Cache.store (c : Cache) (n : Nat) (p : Bytes) : Cache :=
  List.map (fun e => if e.1 == n then (n, p) else e) c

/-- `create` (cache.hpp 197-205). If the index were present already, the returned bucket
would not be reachable from the map; classified as undefined. -/
def Cache.create (cfg : Cfg) (c : Cache) (bs n : Nat) : Res (Cache × Bkt) := do
  let b ← Bkt.ofEmpty bs (cfg.fresh bs)
  if (c.find n).isSome then .error .ub
  else return (c ++ [(n, b.p)], b)

/-- `insert` (cache.hpp 207-218): copies the used part of the bucket to new memory. -/
def Cache.insert (cfg : Cfg) (c : Cache) (n : Nat) (b : Bkt) : Res (Cache × Bkt) := do
  let body ← b.compact
  let p ← poke (cfg.fresh b.bs) 0 body
  if (c.find n).isSome then .error .ub
  else
    let b' ← Bkt.ofMem b.bs p
    return (c ++ [(n, p)], b')

end NuDB
