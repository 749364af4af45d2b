import Verif.Model.Pool
/-
detail/arena.hpp and the memory side of detail/pool.hpp: pointers, blocks obtained from
`new[]`, and the insert buffer as it is stored in them. `Model/Pool` has the insert buffer
as a list of values; the theorems for C43 show that the two agree.
-/
namespace NuDB

/-- Address: an allocated block and an offset into it. -/
structure Ptr where
  block : Nat
  off : Nat
deriving DecidableEq, Repr

/-- The free store. `mem` has the content of the blocks that are allocated, `next` is the
name of the next block (blocks get a new name each, so that an old address never becomes
valid again), `junk` the content of fresh memory, and `deny` tells which requests make
`new[]` throw `std::bad_alloc`. -/
structure Heap where
  mem : Nat → Option Bytes
  next : Nat
  junk : Nat → Nat → UInt8
  deny : Nat → Bool

/-- `new std::uint8_t[n]`; `none` is `std::bad_alloc`. -/
def Heap.new (h : Heap) (n : Nat) : Option (Nat × Heap) :=
  if h.deny h.next then none
  else some (h.next, { h with
    mem := fun b => if b = h.next then some ((List.range n).map (h.junk h.next)) else h.mem b
    next := h.next + 1 })

/-- `delete[]`; the address must be that of an allocated block. -/
def Heap.delete (h : Heap) (b : Nat) : Res Heap :=
  match h.mem b with
  | none => .error .ub
  | some _ => .ok { h with mem := fun b' => if b' = b then none else h.mem b' }

/-- Reading memory through a pointer. -/
def Heap.read (h : Heap) (p : Ptr) (n : Nat) : Res Bytes :=
  match h.mem p.block with
  | none => .error .ub
  | some m => peek m p.off n

/-- `memcpy(p, bs, bs.length)`. -/
def Heap.write (h : Heap) (p : Ptr) (bs : Bytes) : Res Heap :=
  match h.mem p.block with
  | none => .error .ub
  | some m => do
    let m ← poke m p.off bs
    return { h with mem := fun b => if b = p.block then some m else h.mem b }

/-- `arena_t::element` (arena.hpp 87-127), which lies at the start of `block`; `next_` is
the rest of the list. -/
structure Elem where
  block : Nat
  capacity : Nat
  used : Nat
deriving DecidableEq, Repr

/-- `sizeof(element)` on a machine with 64 bit: three words (arena.hpp 90-92). -/
def elemSize : Nat := 24

/-- `arena_t` (arena.hpp 44-48); `label_` and `when_` are left out. -/
structure Arena where
  alloc : Nat
  used : Nat
  list : List Elem
deriving DecidableEq, Repr

/-- Arithmetic of `std::size_t`. -/
def wrap (n : Nat) : Nat := n % 2 ^ 64

/-- `arena_t(label)` (arena.hpp 145-150). -/
def Arena.empty : Arena := ⟨0, 0, []⟩

/-- `element::alloc` (arena.hpp 129-141); `none` is `nullptr`. -/
def Elem.alloc (e : Elem) (n : Nat) : Option (Ptr × Elem) :=
  if n > wrap (e.capacity + 2 ^ 64 - e.used) then none
  else some (⟨e.block, elemSize + e.used⟩, { e with used := wrap (e.used + n) })

/-- `alloc` from a new block (arena.hpp 273-278). `none` is `std::bad_alloc`; placing the
element in a block smaller than it, after an overflow of the size, is undefined. -/
def Arena.grow (h : Heap) (a : Arena) (n : Nat) : Res (Option Ptr × Heap × Arena) :=
  let size := max a.alloc n
  let total := wrap (elemSize + size)
  match h.new total with
  | none => .ok (none, h, a)
  | some (b, h) =>
    if total < elemSize then .error .ub
    else match Elem.alloc ⟨b, size, 0⟩ n with
      | none => .error .ub
      | some (p, e) => .ok (some p, h, { a with used := wrap (a.used + n), list := e :: a.list })

/-- Trying the current block (arena.hpp 264-266). -/
def allocHead (l : List Elem) (n : Nat) : Option (Ptr × List Elem) :=
  match l with
  | [] => none
  | e :: es => (e.alloc n).map (fun x => (x.1, x.2 :: es))

/-- `alloc` after rounding up (arena.hpp 263-278). -/
def Arena.allocRounded (h : Heap) (a : Arena) (n : Nat) : Res (Option Ptr × Heap × Arena) :=
  match allocHead a.list n with
  | some (p, l) => .ok (some p, h, { a with used := wrap (a.used + n), list := l })
  | none => a.grow h n

/-- `alloc` (arena.hpp 255-279). -/
def Arena.allocate (h : Heap) (a : Arena) (n : Nat) : Res (Option Ptr × Heap × Arena) := do
  assert (n ≠ 0)
  a.allocRounded h (8 * (wrap (n + 7) / 8))

/-- The loop of `clear` (arena.hpp 180-186). -/
def freeAll (h : Heap) : List Elem → Res Heap
  | [] => .ok h
  | e :: es => do
    let h ← h.delete e.block
    freeAll h es

/-- `clear` (arena.hpp 174-187), also the destructor. -/
def Arena.clear (h : Heap) (a : Arena) : Res (Heap × Arena) := do
  let h ← freeAll h a.list
  return (h, { a with used := 0, list := [] })

/-- `arena_t(arena_t&&)` (arena.hpp 159-172): the new object and what is left of the old. -/
def Arena.move (a : Arena) : Arena × Arena := (a, { alloc := 0, used := 0, list := [] })

/-- `periodic_activity` (arena.hpp 189-253). The measured rate comes from a clock and
floating point arithmetic; it is an argument, `none` if less than half a second passed. -/
def Arena.periodic (a : Arena) (rate : Option Nat) : Arena :=
  match rate with
  | none => a
  | some r =>
    if r ≥ wrap (a.alloc * 2) then { a with alloc := max r (wrap (a.alloc * 2)) }
    else if r ≤ a.alloc / 2 then { a with alloc := a.alloc / 2 }
    else a

/-- `swap` (arena.hpp 281-289): the block size stays where it is. -/
def Arena.swap (a b : Arena) : Arena × Arena :=
  ({ a with used := b.used, list := b.list }, { b with used := a.used, list := a.list })

/-- `pool_t::value_type` (pool.hpp 107-126). The mapped offset is part of `appendData` in
`Model/Store`. -/
structure Cell where
  hash : Nat
  size : Nat
  key : Ptr
  data : Ptr
deriving DecidableEq, Repr

/-- `pool_t` (pool.hpp 36-40); `map` has the elements of the `std::map` in iteration
order. -/
structure PoolMem where
  arena : Arena
  keySize : Nat
  dataSize : Nat
  map : List Cell
deriving DecidableEq, Repr

/-- `pool_t(key_size, label)` (pool.hpp 169-176). -/
def PoolMem.empty (keySize : Nat) : PoolMem := ⟨.empty, keySize, 0, []⟩

/-- `std::map::find` with the comparison of pool.hpp 128-155, for a key that is not stored in
the arena: the first element that is not smaller, unless the key is smaller than it. (The
tree inspects fewer elements.) -/
def findCell (h : Heap) (keySize : Nat) (key : Bytes) : List Cell → Res (Option Cell)
  | [] => .ok none
  | e :: es => do
    let k ← h.read e.key keySize
    if memLt k key then findCell h keySize key es
    else if memLt key k then return none
    else return some e

/-- `find` (pool.hpp 195-206). -/
def PoolMem.find (h : Heap) (p : PoolMem) (key : Bytes) : Res (Option Cell) :=
  findCell h p.keySize key p.map

/-- `std::map::emplace` (pool.hpp 217-220): the new element goes in front of the first one
that is greater, or nowhere if there is an equivalent one (`none`). -/
def emplace (h : Heap) (keySize : Nat) (x : Cell) : List Cell → Res (Option (List Cell))
  | [] => .ok (some [x])
  | e :: es => do
    let k ← h.read e.key keySize
    let kx ← h.read x.key keySize
    if memLt k kx then do
      let r ← emplace h keySize x es
      return r.map (e :: ·)
    else if memLt kx k then return some (x :: e :: es)
    else return none

/-- `insert` (pool.hpp 208-225). The flag is false if an exception for lack of memory left
the function (one thrown by the map itself is not modelled).
`key` is the caller's buffer, `data` the caller's `size` bytes. -/
def PoolMem.insert (h : Heap) (p : PoolMem) (hash : Nat) (key data : Bytes) :
    Res (Bool × Heap × PoolMem) := do
  let (k, h, a) ← p.arena.allocate h p.keySize
  match k with
  | none => return (false, h, { p with arena := a })
  | some k => do
    let (d, h, a) ← a.allocate h data.length
    match d with
    | none => return (false, h, { p with arena := a })
    | some d => do
      let kb ← peek key 0 p.keySize
      let h ← h.write k kb
      let h ← h.write d data
      match ← emplace h p.keySize ⟨hash, data.length, k, d⟩ p.map with
      | none => .error .abort
      | some m => return (true, h, { p with
          arena := a, map := m, dataSize := wrap (p.dataSize + data.length) })

/-- `clear` (pool.hpp 178-185). -/
def PoolMem.clear (h : Heap) (p : PoolMem) : Res (Heap × PoolMem) := do
  let (h, a) ← p.arena.clear h
  return (h, { p with arena := a, dataSize := 0, map := [] })

/-- `pool_t(pool_t&&)` (pool.hpp 159-167): the new object and what is left of the old. -/
def PoolMem.move (p : PoolMem) : PoolMem × PoolMem :=
  let (a, a') := p.arena.move
  ({ p with arena := a }, { p with arena := a', map := [] })

/-- `swap` (pool.hpp 227-236). -/
def PoolMem.swap (p q : PoolMem) : PoolMem × PoolMem :=
  let (a, b) := p.arena.swap q.arena
  (⟨a, q.keySize, q.dataSize, q.map⟩, ⟨b, p.keySize, p.dataSize, p.map⟩)

/-- The elements in iteration order, as values. -/
def readCells (h : Heap) (keySize : Nat) : List Cell → Res (List Item)
  | [] => .ok []
  | e :: es => do
    let k ← h.read e.key keySize
    let d ← h.read e.data e.size
    let r ← readCells h keySize es
    return ⟨e.hash, k, d⟩ :: r

end NuDB
