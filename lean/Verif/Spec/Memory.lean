import Verif.Model.Arena
/-
Clients of the allocator and of the insert buffer, and what they may expect. Any number of
allocators (buffers) share one heap; they are numbered.
-/
namespace NuDB.Spec

/-- Change of one entry. -/
def upd (f : Nat → α) (i : Nat) (x : α) : Nat → α := fun j => if j = i then x else f j

/-- What can be done with allocators. `store`: request memory and copy `data` to it. `move`:
the allocator is moved to a new object and the old object destroyed. -/
inductive MemOp
  | store (i : Nat) (data : Bytes)
  | clear (i : Nat)
  | periodic (i : Nat) (rate : Option Nat)
  | swap (i j : Nat)
  | move (i : Nat)

/-- Memory handed out: the allocator it belongs to, its address, and what was stored. -/
structure Region where
  owner : Nat
  ptr : Ptr
  data : Bytes
deriving DecidableEq

/-- Running an operation of the model; the pointer returned by the allocator, if any. -/
def MemOp.run (o : MemOp) (h : Heap) (as : Nat → Arena) : Res (Option Ptr × Heap × (Nat → Arena)) :=
  match o with
  | .store i data => do
    let (p, h, a) ← (as i).allocate h data.length
    match p with
    | none => return (none, h, upd as i a)
    | some p => do
      let h ← h.write p data
      return (some p, h, upd as i a)
  | .clear i => do
    let (h, a) ← (as i).clear h
    return (none, h, upd as i a)
  | .periodic i r => return (none, h, upd as i ((as i).periodic r))
  | .swap i j =>
    let (a, b) := (as i).swap (as j)
    return (none, h, upd (upd as i a) j b)
  | .move i => do
    let (a, old) := (as i).move
    let (h, _) ← old.clear h
    return (none, h, upd as i a)

/-- Which memory is in use after an operation that returned `p`: clearing an allocator gives
up its memory, swapping two allocators exchanges what they own. -/
def MemOp.live (o : MemOp) (p : Option Ptr) (live : List Region) : List Region :=
  match o, p with
  | .store i data, some p => ⟨i, p, data⟩ :: live
  | .clear i, _ => live.filter (fun r => r.owner ≠ i)
  | .swap i j, _ => live.map (fun r =>
      { r with owner := if r.owner = i then j else if r.owner = j then i else r.owner })
  | _, _ => live

/-- Running a list of operations. -/
def runMem : List MemOp → Heap → (Nat → Arena) → List Region → Res (List Region × Heap × (Nat → Arena))
  | [], h, as, live => .ok (live, h, as)
  | o :: os, h, as, live => do
    let (p, h, as) ← o.run h as
    runMem os h as (o.live p live)

/-- Sizes that occur in practice: nothing is near the end of the address space, and nothing
is empty. -/
def MemOp.sane : MemOp → Prop
  | .store _ data => 0 < data.length ∧ data.length < 2 ^ 62
  | .periodic _ (some r) => r < 2 ^ 62
  | _ => True

/-- No byte belongs to both regions. -/
def Region.disjoint (r s : Region) : Prop :=
  r.ptr.block ≠ s.ptr.block ∨ r.ptr.off + r.data.length ≤ s.ptr.off ∨
    s.ptr.off + s.data.length ≤ r.ptr.off

/-- What can be done with insert buffers. -/
inductive BufOp
  | insert (i : Nat) (hash : Nat) (key data : Bytes)
  | clear (i : Nat)
  | periodic (i : Nat) (rate : Option Nat)
  | swap (i j : Nat)
  | move (i : Nat)

/-- Running an operation of the model; whether it completed (an insert may run out of
memory). -/
def BufOp.run (o : BufOp) (h : Heap) (ps : Nat → PoolMem) : Res (Bool × Heap × (Nat → PoolMem)) :=
  match o with
  | .insert i hash key data => do
    let (ok, h, p) ← (ps i).insert h hash key data
    return (ok, h, upd ps i p)
  | .clear i => do
    let (h, p) ← (ps i).clear h
    return (true, h, upd ps i p)
  | .periodic i r => return (true, h, upd ps i { ps i with arena := (ps i).arena.periodic r })
  | .swap i j =>
    let (p, q) := (ps i).swap (ps j)
    return (true, h, upd (upd ps i p) j q)
  | .move i => do
    let (p, old) := (ps i).move
    let (h, _) ← old.clear h
    return (true, h, upd ps i p)

/-- What the buffers are supposed to hold: the inserted items, latest first. -/
def BufOp.effect (o : BufOp) (ok : Bool) (bs : Nat → List Item) : Nat → List Item :=
  match o, ok with
  | .insert i hash key data, true => upd bs i (⟨hash, key, data⟩ :: bs i)
  | .clear i, _ => upd bs i []
  | .swap i j, _ => fun k => if k = i then bs j else if k = j then bs i else bs k
  | _, _ => bs

/-- Running a list of operations. -/
def runBuf : List BufOp → Heap → (Nat → PoolMem) → (Nat → List Item) →
    Res ((Nat → List Item) × Heap × (Nat → PoolMem))
  | [], h, ps, bs => .ok (bs, h, ps)
  | o :: os, h, ps, bs => do
    let (ok, h, ps) ← o.run h ps
    runBuf os h ps (o.effect ok bs)

/-- A caller obeys the rules: keys have the size of the store's keys, values are not empty, and
a key is not inserted twice into the same buffer. -/
def BufOp.legal (ks : Nat) (bs : Nat → List Item) : BufOp → Prop
  | .insert i _ key data => key.length = ks ∧ 0 < data.length ∧ data.length < 2 ^ 62 ∧
      ∀ it ∈ bs i, it.key ≠ key
  | .periodic _ (some r) => r < 2 ^ 62
  | _ => True

/-- All operations of a run are legal when they are issued. -/
def LegalBuf (ks : Nat) : List BufOp → Heap → (Nat → PoolMem) → (Nat → List Item) → Prop
  | [], _, _, _ => True
  | o :: os, h, ps, bs => o.legal ks bs ∧
    ∀ ok h' ps', o.run h ps = .ok (ok, h', ps') → LegalBuf ks os h' ps' (o.effect ok bs)

end NuDB.Spec
