import Verif.Model.File
/-
detail/bulkio.hpp, detail/buffer.hpp: buffered sequential reading and writing, and the
bucket functions that use files (detail/bucket.hpp 346-468).
-/
namespace NuDB

/-- Properties of the environment that the code does not control. -/
structure Cfg where
  /-- the hash function (template parameter `Hasher`) -/
  H : Hasher
  /-- content of freshly allocated memory -/
  junk : Nat → UInt8
  /-- iteration order of `std::unordered_map` -/
  order : List (Nat × Bytes) → List (Nat × Bytes)
  order_perm : ∀ l, (order l).Perm l

/-- `new std::uint8_t[n]`: arbitrary content. -/
def Cfg.fresh (c : Cfg) (n : Nat) : Bytes := (List.range n).map c.junk

/-- `bulk_reader` (bulkio.hpp 21-50). `buf` is the memory of `buf_`. -/
structure Reader where
  path : Path
  buf : Bytes
  last : Nat
  offset : Nat
  avail : Nat
  used : Nat

namespace Reader

/-- Constructor (bulkio.hpp 52-63). -/
def new (c : Cfg) (p : Path) (offset last bufferSize : Nat) : Reader :=
  { path := p, buf := c.fresh bufferSize, last := last, offset := offset, avail := 0, used := 0 }

/-- `offset()` (bulkio.hpp 36-40). -/
def pos (r : Reader) : Nat := r.offset - r.avail

/-- `eof()` (bulkio.hpp 42-46). -/
def eof (r : Reader) : Bool := r.pos ≥ r.last

/-- `prepare` (bulkio.hpp 65-104). Returns the bytes the stream points to. -/
def prepare (c : Cfg) (r : Reader) (needed : Nat) : M (Bytes × Reader) := do
  let r ← if needed > r.avail then
      if r.offset + needed - r.avail > r.last then M.fail .short_read
      else do
        let old ← M.lift (peek r.buf r.used r.avail)
        let buf := if needed > r.buf.length then c.fresh needed else r.buf
        let buf ← M.lift (poke buf 0 old)
        let n := min (buf.length - r.avail) (r.last - r.offset)
        let data ← fRead r.path r.offset n
        let buf ← M.lift (poke buf r.avail data)
        M.ret { r with buf := buf, offset := r.offset + n, avail := r.avail + n, used := 0 }
    else M.ret r
  let out ← M.lift (peek r.buf r.used needed)
  M.ret (out, { r with used := r.used + needed, avail := r.avail - needed })

end Reader

/-- `bulk_writer` (bulkio.hpp 108-144). `data` are the first `used_` bytes of `buf_`,
`cap` is `buf_.size()`. -/
structure Writer where
  path : Path
  offset : Nat
  data : Bytes
  cap : Nat

namespace Writer

/-- Constructor (bulkio.hpp 146-156). -/
def new (p : Path) (offset bufferSize : Nat) : Writer :=
  { path := p, offset := offset, data := [], cap := bufferSize }

/-- `offset()` (bulkio.hpp 132-138). -/
def pos (w : Writer) : Nat := w.offset + w.data.length

/-- `flush` (bulkio.hpp 176-191). All writers in the code are attached to files opened
in append mode. -/
def flush (w : Writer) : M Writer := do
  if w.data.length ≠ 0 then
    fAppend w.path w.offset w.data
    M.ret { w with offset := w.offset + w.data.length, data := [] }
  else M.ret w

/-- `prepare(bs.size())` followed by filling the returned stream with `bs`
(bulkio.hpp 158-174). Growing the buffer reallocates it, which drops buffered bytes. -/
def append (w : Writer) (bs : Bytes) : M Writer := do
  let w ← if w.data.length + bs.length > w.cap then w.flush else M.ret w
  let w := if bs.length > w.cap then { w with cap := bs.length, data := [] } else w
  M.ret { w with data := w.data ++ bs }

end Writer

/-- `bucket_t::read(File&, noff_t)` (bucket.hpp 346-365). The bytes of the blob beyond
the entries keep their previous content `b.p`. -/
def Bkt.readFile (b : Bkt) (p : Path) (off : Nat) : M Bkt := do
  let cap := bucketCapacity b.bs
  let data ← fRead p off (bucketSize cap)
  let mem ← M.lift (poke b.p 0 data)
  let b ← M.lift (Bkt.ofMem b.bs mem)
  if b.size > cap then M.fail .invalid_bucket_size
  else M.ret b

/-- First half of `bucket_t::read(bulk_reader&)` (bucket.hpp 372-381): count and overflow
offset of a compact bucket. There is no test of the count against the capacity. -/
def Bkt.readHead (c : Cfg) (b : Bkt) (r : Reader) : M (Bkt × Reader) := do
  let (is, r) ← r.prepare c 8
  let b ← M.lift (Bkt.update { b with size := getU16 (slice is 0 2), spill := getU48 (slice is 2 6) })
  M.ret (b, r)

/-- Second half of `bucket_t::read(bulk_reader&)` (bucket.hpp 382-393): the entries. -/
def Bkt.readBody (c : Cfg) (b : Bkt) (r : Reader) : M (Bkt × Reader) := do
  let (is, r) ← r.prepare c (b.size * 18)
  let p ← M.lift (poke b.p 8 is)
  M.ret ({ b with p := p }, r)

/-- `bucket_t::read(bulk_reader&)` (bucket.hpp 367-394) where the caller gives up on any
error. -/
def Bkt.readBulk (c : Cfg) (b : Bkt) (r : Reader) : M (Bkt × Reader) := do
  let (b, r) ← b.readHead c r
  b.readBody c r

/-- `bucket_t::write(File&, noff_t)` (bucket.hpp 408-423) to a file opened in write mode. -/
def Bkt.writeFile (b : Bkt) (p : Path) (off : Nat) : M Unit := do
  let blk ← M.lift b.padded
  fWrite p off blk

/-- `maybe_spill` (bucket.hpp 440-468). -/
def maybeSpill (b : Bkt) (w : Writer) : M (Bkt × Writer) := do
  if b.full then
    let offset := w.pos
    let body ← M.lift b.compact
    M.lift (assert (b.actualSize ≤ 0xffff))
    let w ← w.append (putU48 0 ++ putU16 b.actualSize ++ body)
    let spill := offset + (6 + 2)
    let b ← M.lift b.clear
    let b ← M.lift (b.setSpill spill)
    M.ret (b, w)
  else M.ret (b, w)

end NuDB
