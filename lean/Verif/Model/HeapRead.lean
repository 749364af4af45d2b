import Verif.Model.Heap
import Verif.Model.Verify
/-
The other functions on the level of memory: input streams pointing into the buffer of a
`bulk_reader`, the single buffer of `rekey` and of both algorithms of `verify`, and the buffers that
`fetch` and `exists` use again and again. In `Model/Store`, `Model/Recover`, `Model/Rekey` and
`Model/Verify` all of these are values. `Props/HeapRead` proves that the functions here do what
those do.
-/
namespace NuDB.Raw

/-- Address in the buffer of a reader: `gen` names the block of memory, 0 is the null pointer. -/
structure Addr where
  gen : Nat
  pos : Nat

/-- `istream` (stream.hpp 20-73) to the buffer of a reader. -/
structure IStream where
  buf : Addr
  size : Nat

/-- `istream_t() = default` (stream.hpp 24-28): what `prepare` returns together with an error. -/
def IStream.null : IStream := ⟨⟨0, 0⟩, 0⟩

/-- `data` (stream.hpp 54-69). The assertion and the exception on a short stream are modelled as the
exception. -/
def IStream.data (is : IStream) (n : Nat) : Res (Addr × IStream) :=
  if is.size < n then .error .throw
  else .ok (is.buf, ⟨⟨is.buf.gen, is.buf.pos + n⟩, is.size - n⟩)

/-- `bulk_reader` (bulkio.hpp 21-50). `buf` is the memory of `buf_`, at the address `gen`. Blocks get a
new name each, so that an old address never becomes valid again. -/
structure RawReader where
  path : Path
  gen : Nat
  buf : Bytes
  last : Nat
  offset : Nat
  avail : Nat
  used : Nat

namespace RawReader

/-- Constructor (bulkio.hpp 52-63). -/
def new (c : Cfg) (p : Path) (offset last bufferSize : Nat) : RawReader :=
  { path := p, gen := 1, buf := c.fresh bufferSize, last := last, offset := offset, avail := 0, used := 0 }

/-- `offset()` (bulkio.hpp 36-40). -/
def pos (r : RawReader) : Nat := r.offset - r.avail

/-- `eof()` (bulkio.hpp 42-46). -/
def eof (r : RawReader) : Bool := r.pos ≥ r.last

/-- Moving the rest to the front of the buffer, or to a larger one; the old one is released
(bulkio.hpp 76-90). -/
def room (c : Cfg) (r : RawReader) (needed : Nat) : Res RawReader := do
  let old ← peek r.buf r.used r.avail
  if needed > r.buf.length then do
    let buf ← poke (c.fresh needed) 0 old
    return { r with gen := r.gen + 1, buf := buf }
  else do
    let buf ← poke r.buf 0 old
    return { r with buf := buf }

/-- Reading more of the file (bulkio.hpp 69-98). -/
def fill (c : Cfg) (r : RawReader) (needed : Nat) : M RawReader := do
  if needed > r.avail then
    if r.offset + needed - r.avail > r.last then M.fail .short_read
    else do
      let r ← M.lift (r.room c needed)
      let n := min (r.buf.length - r.avail) (r.last - r.offset)
      let data ← fRead r.path r.offset n
      let buf ← M.lift (poke r.buf r.avail data)
      M.ret { r with buf := buf, offset := r.offset + n, avail := r.avail + n, used := 0 }
  else M.ret r

/-- `prepare` (bulkio.hpp 65-104). -/
def prepare (c : Cfg) (r : RawReader) (needed : Nat) : M (IStream × RawReader) := do
  let r ← r.fill c needed
  M.ret (⟨⟨r.gen, r.used⟩, needed⟩, { r with used := r.used + needed, avail := r.avail - needed })

/-- Reading memory through a pointer into the buffer. A pointer to a block that has been released is
not valid. -/
def deref (r : RawReader) (p : Addr) (n : Nat) : Res Bytes :=
  if p.gen = r.gen then peek r.buf p.pos n else .error .ub

/-- `read<T>(istream&, ...)` (field.hpp 160-168): the bytes of the field. -/
def field (r : RawReader) (is : IStream) (n : Nat) : Res (Bytes × IStream) := do
  let (p, is) ← is.data n
  let bs ← r.deref p n
  return (bs, is)

end RawReader

/-! ### visit -/

/-- One round of the loop of `visit` (visit.ipp 56-91), see `visitStep`. The callback reads the key and
the value through the pointers it gets. -/
def rawVisitStep (c : Cfg) (keySize fileSize : Nat) (cb : List Event → Option Err) (r : RawReader) :
    M RawReader := do
  let (is, r) ← r.prepare c 6
  let (f, _) ← M.lift (r.field is 6)
  let size ← M.lift (getSize48 f)
  let r ← if size > 0 then do
      match ← M.attempt (r.prepare c (keySize + size)) with
      | .error _ => do
        let (_, is) ← M.lift (IStream.null.data keySize)
        let _ ← M.lift (is.data size)
        M.raise .ub
      | .ok (is, r) => do
        let (key, is) ← M.lift (is.data keySize)
        let (data, _) ← M.lift (is.data size)
        let k ← M.lift (r.deref key keySize)
        let d ← M.lift (r.deref data size)
        emit (.item k d)
        match cb (← history) with
        | some e => M.fail e
        | none => M.ret r
    else do
      let (is, r) ← r.prepare c 2
      let (f, _) ← M.lift (r.field is 2)
      let (_, r) ← r.prepare c (getU16 f)
      M.ret r
  emit (.progress r.pos fileSize)
  M.ret r

/-- The loop of `visit` (visit.ipp 56-91). -/
def rawVisitLoop (c : Cfg) (keySize fileSize : Nat) (cb : List Event → Option Err) :
    Nat → RawReader → M Unit
  | 0, _ => M.raise .hang
  | fuel + 1, r => do
    if r.eof then M.ret ()
    else do
      let r ← rawVisitStep c keySize fileSize cb r
      rawVisitLoop c keySize fileSize cb fuel r

/-- `visit` (visit.ipp 23-92), see `visit`. -/
def rawVisit (c : Cfg) (cb : List Event → Option Err) : M Unit := do
  fOpen .dat
  let dh ← readDatHeader
  M.check (verifyDat dh)
  let fileSize ← fSize .dat
  let r := RawReader.new c .dat datHeaderSize fileSize (1024 * 4096)
  emit (.progress 0 fileSize)
  rawVisitLoop c dh.keySize fileSize cb (fileSize + 1) r

/-! ### recover -/

/-- First half of `bucket_t::read(bulk_reader&)` (bucket.hpp 372-381). The bucket is an object together with
the memory it points to. -/
def rawReadHead (c : Cfg) (b : Bkt) (r : RawReader) : M (Bkt × RawReader) := do
  let (is, r) ← r.prepare c 8
  let (size, is) ← M.lift (r.field is 2)
  let (spill, _) ← M.lift (r.field is 6)
  let b ← M.lift (Bkt.update { b with size := getU16 size, spill := getU48 spill })
  M.ret (b, r)

/-- Second half of `bucket_t::read(bulk_reader&)` (bucket.hpp 382-393). -/
def rawReadBody (c : Cfg) (b : Bkt) (r : RawReader) : M (Bkt × RawReader) := do
  let w := b.size * 18
  let (is, r) ← r.prepare c w
  let (src, _) ← M.lift (is.data w)
  let bs ← M.lift (r.deref src w)
  let p ← M.lift (poke b.p 8 bs)
  M.ret ({ b with p := p }, r)

/-- `bucket_t::read(bulk_reader&)` (bucket.hpp 367-394). -/
def rawReadBulk (c : Cfg) (b : Bkt) (r : RawReader) : M (Bkt × RawReader) := do
  let (b, r) ← rawReadHead c b r
  rawReadBody c b r

/-- Outcome of one round of the record loop of `recover`. -/
inductive RawLogStep
  | done
  | next (b : Bkt) (r : RawReader)

/-- One round of `while(! r.eof())` (recover.ipp 130-169), see `recoverStep`. -/
def rawRecoverStep (c : Cfg) (kh : KeyHeader) (dataFileSize : Nat) (b : Bkt) (r : RawReader) :
    M RawLogStep := do
  if r.eof then M.ret .done
  else
    match ← M.attempt (r.prepare c 8) with
    | .error .short_read => M.ret .done
    | .error e => M.fail e
    | .ok (is, r) => do
      let (f, _) ← M.lift (r.field is 8)
      let n := getU64 f
      M.lift (assert (n ≤ 0xffffffff))
      match ← M.attempt (rawReadHead c b r) with
      | .error .short_read => M.ret .done
      | .error e => do
        let _ ← recoverWrite kh dataFileSize n b
        M.fail e
      | .ok (b, r) =>
        match ← M.attempt (rawReadBody c b r) with
        | .error .short_read => M.ret .done
        | .error e => do
          let _ ← recoverWrite kh dataFileSize n b
          M.fail e
        | .ok (b, r) => do
          let b ← recoverWrite kh dataFileSize n b
          M.ret (.next b r)

/-- The record loop (recover.ipp 130-169). -/
def rawRecoverLoop (c : Cfg) (kh : KeyHeader) (dataFileSize : Nat) :
    Nat → Bkt → RawReader → M Unit
  | 0, _, _ => M.raise .hang
  | fuel + 1, b, r => do
    match ← rawRecoverStep c kh dataFileSize b r with
    | .done => M.ret ()
    | .next b r => rawRecoverLoop c kh dataFileSize fuel b r

/-- The block of `recover` that replays the log (recover.ipp 108-170). -/
def rawReplayLog (c : Cfg) (dh : DatHeader) (lh : LogHeader) (dataFileSize logFileSize : Nat) :
    M Unit := do
  let kh ← readKeyHeader
  M.check (verifyKey c.H kh)
  M.check (verifyDatKey c.H dh kh)
  M.check (verifyKeyLog c.H kh lh)
  let b ← M.lift (Bkt.ofMem kh.blockSize (c.fresh kh.blockSize))
  let r := RawReader.new c .log logHeaderSize logFileSize (1024 * kh.blockSize)
  rawRecoverLoop c kh dataFileSize (logFileSize + 1) b r

/-- `recover` (recover.ipp 24-205), see `recover`. -/
def rawRecover (c : Cfg) : M Unit := do
  fOpen .dat
  let dataFileSize ← fSize .dat
  let dh ← readDatHeader
  M.check (verifyDat dh)
  fOpen .key
  let keyFileSize ← fSize .key
  if keyFileSize ≤ keyHeaderSize then
    eraseFile .log
    fErase .key
    M.fail .no_key_file
  else
    match ← M.attempt (fOpen .log) with
    | .error .no_such_file => M.ret ()
    | .error e => M.fail e
    | .ok _ =>
      let logFileSize ← fSize .log
      match ← M.attempt readLogHeader with
      | .error .short_read => clearLog
      | .error e => M.fail e
      | .ok lh =>
        M.check (verifyLog c.H lh)
        if lh.keyFileSize = 0 then truncFiles lh
        else do
          rawReplayLog c dh lh dataFileSize logFileSize
          truncFiles lh

/-- `open` (basic_store.ipp 117-188), see `openStore`. -/
def rawOpen (c : Cfg) : M Store := do
  rawRecover c
  fOpen .dat
  fOpen .key
  fCreate .log
  let dh ← readDatHeader
  M.check (verifyDat dh)
  let kh ← readKeyHeader
  M.check (verifyKey c.H kh)
  M.check (verifyDatKey c.H dh kh)
  let thresh := max 65536 (kh.loadFactor * kh.capacity)
  if kh.buckets < 1 then M.fail .short_key_file
  else M.ret { kh := kh, p0 := [], p1 := [], c1 := [], frac := thresh / 2, thresh := thresh,
               buckets := kh.buckets, modulus := ceilPow2 kh.buckets, ec := none }

/-! ### fetch and insert -/

/-- `buffer` (buffer.hpp 18-83): `size_` and the memory, which may be larger. -/
structure Buf where
  size : Nat
  mem : Bytes

/-- `buffer() = default` (buffer.hpp 22-27). -/
def Buf.none : Buf := ⟨0, []⟩

/-- `buffer(n)` (buffer.hpp 31-36). -/
def Buf.new (c : Cfg) (n : Nat) : Buf := ⟨n, c.fresh n⟩

/-- `reserve` (buffer.hpp 66-72). -/
def Buf.reserve (c : Cfg) (b : Buf) (n : Nat) : Buf :=
  if b.size < n then ⟨n, c.fresh n⟩ else ⟨n, b.mem⟩

/-- Inner loop of `fetch` (basic_store.ipp 374-396), see `fetchScan`. `buf0` holds the last record read. -/
def rawFetchScan (c : Cfg) (keySize h : Nat) (key : Bytes) (b : Bkt) : Nat → Nat → Buf → M (Option Bytes × Buf)
  | 0, _, _ => M.raise .hang
  | fuel + 1, i, buf0 =>
    if i < b.size then do
      let item ← M.lift (b.get i)
      if item.hash ≠ h then M.ret (.none, buf0)
      else do
        let len := keySize + item.size
        let buf0 := buf0.reserve c len
        let data ← fRead .dat (item.offset + 6) len
        let m ← M.lift (poke buf0.mem 0 data)
        let buf0 : Buf := ⟨buf0.size, m⟩
        let k ← M.lift (peek buf0.mem 0 keySize)
        if k = key then do
          let v ← M.lift (peek buf0.mem keySize item.size)
          M.ret (some v, buf0)
        else rawFetchScan c keySize h key b fuel (i + 1) buf0
    else M.ret (.none, buf0)

/-- `fetch(h, key, b, callback, ec)` (basic_store.ipp 356-408), see `fetchBucket`. All overflow records are
read to `buf1`. -/
def rawFetchBucket (c : Cfg) (kh : KeyHeader) (h : Nat) (key : Bytes) : Nat → Bkt → Buf → Buf → M Bytes
  | 0, _, _, _ => M.raise .hang
  | fuel + 1, b, buf0, buf1 => do
    let i ← M.lift (b.lowerBound h)
    let (v, buf0) ← rawFetchScan c kh.keySize h key b (b.size + 1) i buf0
    match v with
    | some v => M.ret v
    | .none =>
      if b.spill = 0 then M.fail .key_not_found
      else do
        let buf1 := buf1.reserve c kh.blockSize
        let nb ← M.lift (Bkt.ofMem kh.blockSize buf1.mem)
        let nb ← nb.readFile .dat b.spill
        rawFetchBucket c kh h key fuel nb buf0 ⟨buf1.size, nb.p⟩

/-- `fetch` (basic_store.ipp 220-264), see `fetch`. -/
def rawFetch (c : Cfg) (s : Store) (key : Bytes) : M Bytes := do
  match s.ec with
  | some e => M.fail e
  | .none =>
    let h := hashKey c.H s.kh.salt key
    match s.p1.find key with
    | some it => M.ret it.data
    | .none =>
    match s.p0.find key with
    | some it => M.ret it.data
    | .none => do
      let n ← M.lift (bucketIndexA h s.buckets s.modulus)
      let fuel ← lookupFuel
      match s.c1.find n with
      | some p => do
        let b ← M.lift (Bkt.ofMem s.kh.blockSize p)
        rawFetchBucket c s.kh h key fuel b .none .none
      | .none => do
        let b ← M.lift (Bkt.ofMem s.kh.blockSize (Buf.new c s.kh.blockSize).mem)
        let b ← b.readFile .key ((n + 1) * s.kh.blockSize)
        rawFetchBucket c s.kh h key fuel b .none .none

/-- A bucket object in `exists`: it points to memory of a cache or to a buffer of the caller (with its
content), or to the part `pb` of the buffer of `exists`. -/
inductive Spot
  | outside (b : Bkt)
  | inside (bs size spill : Nat)

/-- The object with the memory it points to; `pb` is at `keySize`. -/
def Spot.bkt (keySize : Nat) (m : Bytes) : Spot → Bkt
  | .outside b => b
  | .inside bs size spill => ⟨bs, size, spill, m.drop keySize⟩

/-- Inner loop of `exists` (basic_store.ipp 429-442), see `existsScan`. `m` is the memory of `buf`, with the
key at 0. -/
def rawExistsScan (keySize h : Nat) (key : Bytes) (b : Spot) : Nat → Nat → Bytes → M (Bool × Bytes)
  | 0, _, _ => M.raise .hang
  | fuel + 1, i, m =>
    if i < (b.bkt keySize m).size then do
      let item ← M.lift ((b.bkt keySize m).get i)
      if item.hash ≠ h then M.ret (false, m)
      else do
        let data ← fRead .dat (item.offset + 6) keySize
        let m ← M.lift (poke m 0 data)
        let pk ← M.lift (peek m 0 keySize)
        if pk = key then M.ret (true, m)
        else rawExistsScan keySize h key b fuel (i + 1) m
    else M.ret (false, m)

/-- `exists` (basic_store.ipp 410-454), see `existsBucket`. -/
def rawExistsBucket (kh : KeyHeader) (h : Nat) (key : Bytes) : Nat → Spot → Bytes → M Bool
  | 0, _, _ => M.raise .hang
  | fuel + 1, b, m => do
    let i ← M.lift ((b.bkt kh.keySize m).lowerBound h)
    let (found, m) ← rawExistsScan kh.keySize h key b ((b.bkt kh.keySize m).size + 1) i m
    if found then M.ret true
    else if (b.bkt kh.keySize m).spill = 0 then M.ret false
    else do
      let nb ← M.lift (Bkt.ofMem kh.blockSize (m.drop kh.keySize))
      let nb ← nb.readFile .dat (b.bkt kh.keySize m).spill
      rawExistsBucket kh h key fuel (.inside nb.bs nb.size nb.spill) (m.take kh.keySize ++ nb.p)

/-- The presence test of `insert` (basic_store.ipp 289-333), see `insertCheck`. -/
def rawInsertCheck (c : Cfg) (s : Store) (h : Nat) (key : Bytes) : M Unit := do
  if (s.p1.find key).isSome || (s.p0.find key).isSome then M.fail .key_exists
  else do
    let n ← M.lift (bucketIndexA h s.buckets s.modulus)
    let fuel ← lookupFuel
    let found ← match s.c1.find n with
      | some p => do
        let b ← M.lift (Bkt.ofMem s.kh.blockSize p)
        rawExistsBucket s.kh h key fuel (.outside b) (c.fresh (s.kh.keySize + s.kh.blockSize))
      | .none => do
        let b ← M.lift (Bkt.ofMem s.kh.blockSize (Buf.none.reserve c s.kh.blockSize).mem)
        let b ← b.readFile .key ((n + 1) * s.kh.blockSize)
        rawExistsBucket s.kh h key fuel (.outside b) (c.fresh (s.kh.keySize + s.kh.blockSize))
    if found then M.fail .key_exists else M.ret ()

/-- `insert` (basic_store.ipp 266-354), see `insert`. For the memory of the pool see `Model/Arena`. -/
def rawInsert (c : Cfg) (s : Store) (key data : Bytes) : M Store := do
  match s.ec with
  | some e => M.fail e
  | .none =>
    M.lift (assert (data.length > 0))
    M.lift (assert (data.length ≤ 0xffffffff))
    let h := hashKey c.H s.kh.salt key
    rawInsertCheck c s h key
    let p1 ← M.lift (s.p1.insert ⟨h, key, data⟩)
    M.ret { s with p1 := p1 }

/-! ### rekey -/

/-- `maybe_spill` (bucket.hpp 440-468): `b` is the object with all memory from where it points to. -/
def bktSpill (c : Cfg) (b : Bkt) (w : RawWriter) : M (Bkt × RawWriter) := do
  if b.full then
    let offset := w.pos
    let (os, w) ← w.prepare c (6 + 2 + b.actualSize)
    let (os, w) ← M.lift (os.write w (putU48 0))
    M.lift (assert (b.actualSize ≤ 0xffff))
    let (os, w) ← M.lift (os.write w (putU16 b.actualSize))
    let spill := offset + os.size
    let body ← M.lift b.compact
    let (_, w) ← M.lift (os.write w body)
    let b ← M.lift b.clear
    let b ← M.lift (b.setSpill spill)
    M.ret (b, w)
  else M.ret (b, w)

/-- One round of the scan of the data file (rekey.ipp 184-231), see `rekeyStep`. `m` is the memory of `buf`,
which has the blocks of the buckets `b0 ... b1-1` one after the other; a bucket object knows where its block
begins, and nothing keeps it from using what follows. -/
def rawRekeyStep (c : Cfg) (kh : KeyHeader) (b0 b1 pre nwork : Nat)
    (m : Bytes) (dw : RawWriter) (r : RawReader) : M (Bytes × RawWriter × RawReader) := do
  let offset := r.pos
  let (is, r) ← r.prepare c 6
  emit (.progress (pre + r.pos) nwork)
  let (f, _) ← M.lift (r.field is 6)
  let size ← M.lift (getSize48 f)
  if size > 0 then do
    let (is, r) ← r.prepare c (kh.keySize + size)
    let (key, _) ← M.lift (is.data kh.keySize)
    let k ← M.lift (r.deref key kh.keySize)
    let h := hashKey c.H kh.salt k
    let n ← M.lift (bucketIndexA h kh.buckets kh.modulus)
    if n < b0 ∨ n ≥ b1 then M.ret (m, dw, r)
    else do
      let at_ := (n - b0) * kh.blockSize
      let b ← M.lift (Bkt.ofMem kh.blockSize (m.drop at_))
      let (b, dw) ← bktSpill c b dw
      let b ← M.lift (b.insert offset size h)
      M.ret (m.take at_ ++ b.p, dw, r)
  else do
    let (is, r) ← r.prepare c 2
    let (f, _) ← M.lift (r.field is 2)
    let (_, r) ← r.prepare c (getU16 f)
    M.ret (m, dw, r)

/-- The scan of the data file (rekey.ipp 184-231). -/
def rawRekeyScan (c : Cfg) (kh : KeyHeader) (b0 b1 pre nwork : Nat) :
    Nat → Bytes → RawWriter → RawReader → M (Bytes × RawWriter)
  | 0, _, _, _ => M.raise .hang
  | fuel + 1, m, dw, r =>
    if r.eof then M.ret (m, dw)
    else do
      let (m, dw, r) ← rawRekeyStep c kh b0 b1 pre nwork m dw r
      rawRekeyScan c kh b0 b1 pre nwork fuel m dw r

/-- The loop creating empty buckets `i, ..., i+n-1` (rekey.ipp 177-179). -/
def rawEmptyBuckets (bs : Nat) : Nat → Nat → Bytes → Res Bytes
  | 0, _, m => .ok m
  | n + 1, i, m => do
    let b ← Bkt.ofEmpty bs (m.drop (i * bs))
    rawEmptyBuckets bs n (i + 1) (m.take (i * bs) ++ b.p)

/-- The loop over the chunks (rekey.ipp 171-236). The buffer is the same for all. -/
def rawRekeyChunks (c : Cfg) (kh : KeyHeader) (dataFileSize chunk nwork : Nat) :
    Nat → Nat → Bytes → RawWriter → M RawWriter
  | 0, _, _, _ => M.raise .hang
  | fuel + 1, b0, m, dw =>
    if b0 < kh.buckets then do
      let b1 := min (b0 + chunk) kh.buckets
      let bn := b1 - b0
      let m ← M.lift (rawEmptyBuckets kh.blockSize bn 0 m)
      let r := RawReader.new c .dat datHeaderSize dataFileSize (1024 * 4096)
      let (m, dw) ← rawRekeyScan c kh b0 b1 ((b0 / chunk) * dataFileSize) nwork
        (dataFileSize + 1) m dw r
      let out ← M.lift (peek m 0 (bn * kh.blockSize))
      fWrite .key ((b0 + 1) * kh.blockSize) out
      rawRekeyChunks c kh dataFileSize chunk nwork fuel (b0 + chunk) m dw
    else M.ret dw

/-- The header and the pre-allocated space of the key file (rekey.ipp 133-156); returns `buf`. -/
def rawRekeyAlloc (c : Cfg) (kh : KeyHeader) : M Buf := do
  let buf := Buf.new c kh.blockSize
  let m ← M.lift (poke buf.mem 0 (zeros kh.blockSize))
  let m ← M.lift (poke m 0 (putKeyHeader kh))
  let out ← M.lift (peek m 0 buf.size)
  fWrite .key 0 out
  fSync .key
  fWrite .key ((kh.buckets + 1) * kh.blockSize - 1) [0]
  fSync .key
  M.ret ⟨buf.size, m⟩

/-- `rekey` (rekey.ipp 20-244), see `rekey`. -/
def rawRekey (c : Cfg) (a : RekeyArgs) : M Unit := do
  fOpen .dat
  let dh ← readDatHeader
  M.check (verifyDat dh)
  let dataFileSize ← fSize .dat
  match ← M.attempt (fOpen .log) with
  | .ok _ => M.fail .log_file_exists
  | .error .no_such_file => do
    let lf ← M.lift a.load.fixed
    let kh := rekeyHeader c.H dh a lf
    rekeyPrepare c kh dataFileSize
    let buf ← rawRekeyAlloc c kh
    let chunk := max 1 (a.bufferSize / kh.blockSize)
    let passes := (kh.buckets + chunk - 1) / chunk
    let nwork := passes * dataFileSize
    emit (.progress 0 nwork)
    let buf := buf.reserve c (chunk * kh.blockSize)
    let dw ← rawRekeyChunks c kh dataFileSize chunk nwork (kh.buckets + 1) 0 buf.mem
      (RawWriter.new c .dat dataFileSize (16 * 4096))
    let _ ← dw.flush
    fErase .log
  | .error e => M.fail e

/-! ### verify -/

/-- The search through bucket and overflow records (verify.ipp 112-139), see `seekValue`; also returns
the bucket as it is left. -/
def rawSeekValue (h offset : Nat) : Nat → Bkt → Nat → M (Bkt × Nat)
  | 0, _, _ => M.raise .hang
  | fuel + 1, b, fetches => do
    let i ← M.lift (b.lowerBound h)
    let (found, fetches) ← M.lift (seekEntry h offset b (b.size + 1) i fetches)
    if found then M.ret (b, fetches)
    else if b.spill = 0 then M.fail .orphaned_value
    else do
      let b ← shortAs .short_spill (b.readFile .dat b.spill)
      rawSeekValue h offset fuel b (fetches + 1)

/-- One round of the first phase of `verify_normal` (verify.ipp 78-180), see `normalStep`. The memory of `b` is
all of `buf`, that is `block_size` bytes for buckets and the bytes of `pd`. -/
def rawNormalStep (c : Cfg) (kh : KeyHeader) (nwork : Nat) (b : Bkt) (r : RawReader) (work : Nat)
    (info : Info) : M (Bkt × RawReader × Nat × Info) := do
  let offset := r.pos
  let (is, r) ← r.prepare c 6
  let (f, _) ← M.lift (r.field is 6)
  let size ← M.lift (getSize48 f)
  if size > 0 then do
    let (is, r) ← r.prepare c (kh.keySize + size)
    let (key, is) ← M.lift (is.data kh.keySize)
    let _ ← M.lift (is.data size)
    let k ← M.lift (r.deref key kh.keySize)
    let h := hashKey c.H kh.salt k
    let n ← M.lift (bucketIndexA h kh.buckets kh.modulus)
    let b ← b.readFile .key ((n + 1) * kh.blockSize)
    let work := work + kh.blockSize
    let fuel ← lookupFuel
    let (b, fetches) ← rawSeekValue h offset fuel b (info.fetches + 1)
    emit (.progress (work + offset) nwork)
    M.ret (b, r, work, { info with fetches := fetches, valueCount := info.valueCount + 1,
                                    valueBytes := info.valueBytes + size })
  else do
    let (is, r) ← shortAs .short_spill (r.prepare c 2)
    let (f, _) ← M.lift (r.field is 2)
    if getU16 f ≠ bucketSize kh.capacity then M.fail .invalid_spill_size
    else do
      let (b, r) ← shortAs .short_spill (rawReadBulk c b r)
      emit (.progress (work + offset) nwork)
      M.ret (b, r, work, { info with spillCountTot := info.spillCountTot + 1,
                                     spillBytesTot := info.spillBytesTot + (6 + 2 + b.actualSize) })

/-- First phase of `verify_normal` (verify.ipp 66-182). -/
def rawNormalScan (c : Cfg) (kh : KeyHeader) (nwork : Nat) :
    Nat → Bkt → RawReader → Nat → Info → M (Bkt × Nat × Info)
  | 0, _, _, _, _ => M.raise .hang
  | fuel + 1, b, r, work, info =>
    if r.eof then M.ret (b, work, info)
    else do
      let (b, r, work, info) ← rawNormalStep c kh nwork b r work info
      rawNormalScan c kh nwork fuel b r work info

/-- The loop over the entries of one bucket in the second phase (verify.ipp 199-232), see `normalEntries`. The
record is read to `pd`, which lies behind the bucket. -/
def rawNormalEntries (c : Cfg) (kh : KeyHeader) (spill : Bool) :
    Nat → Nat → Bkt → Nat → M (Bkt × Nat)
  | 0, _, _, _ => M.raise .hang
  | fuel + 1, i, b, work =>
    if i < b.size then do
      let e ← M.lift (b.get i)
      let data ← shortAs .missing_value (fRead .dat e.offset (6 + kh.keySize))
      let p ← M.lift (poke b.p kh.blockSize data)
      let b := { b with p := p }
      let work := if spill then work else work + adjusted kh.blockSize
      let size ← M.lift (peek b.p kh.blockSize 6)
      let key ← M.lift (peek b.p (kh.blockSize + 6) kh.keySize)
      if getU48 size ≠ e.size then M.fail .size_mismatch
      else if hashKey c.H kh.salt key ≠ e.hash then M.fail .hash_mismatch
      else rawNormalEntries c kh spill fuel (i + 1) b work
    else M.ret (b, work)

/-- The loop over a bucket and its overflow records (verify.ipp 195-245), see `normalChain`. -/
def rawNormalChain (c : Cfg) (kh : KeyHeader) :
    Nat → Bkt → Bool → Nat → Nat → Info → M (Bkt × Nat × Nat × Info)
  | 0, _, _, _, _, _ => M.raise .hang
  | fuel + 1, b, spill, work, nspill, info => do
    let info := { info with keyCount := info.keyCount + b.size }
    let (b, work) ← rawNormalEntries c kh spill (b.size + 1) 0 b work
    if b.spill = 0 then M.ret (b, work, nspill, info)
    else do
      let b ← b.readFile .dat b.spill
      rawNormalChain c kh fuel b true work (nspill + 1)
        { info with spillCount := info.spillCount + 1,
                    spillBytes := info.spillBytes + (6 + 2 + b.actualSize) }

/-- Second phase of `verify_normal` (verify.ipp 184-251). -/
def rawNormalBuckets (c : Cfg) (kh : KeyHeader) (nwork : Nat) :
    Nat → Nat → Bkt → Nat → Info → M Info
  | 0, _, _, _, info => M.ret info
  | k + 1, n, b, work, info => do
    let b ← b.readFile .key ((n + 1) * kh.blockSize)
    let fuel ← lookupFuel
    let (b, work, nspill, info) ←
      rawNormalChain c kh fuel b false (work + adjusted kh.blockSize) 0 info
    emit (.progress work nwork)
    rawNormalBuckets c kh nwork k (n + 1) b work { info with hist := bumpHist info.hist nspill }

/-- `verify_normal` (verify.ipp 27-276), see `verifyNormal`. -/
def rawVerifyNormal (c : Cfg) (kh : KeyHeader) (datSize keySize : Nat) : M Info := do
  let nwork := normalWork kh datSize keySize
  emit (.progress 0 nwork)
  let b ← M.lift (Bkt.ofMem kh.blockSize (c.fresh (kh.blockSize + (6 + kh.keySize))))
  let r := RawReader.new c .dat datHeaderSize datSize (1024 * kh.blockSize)
  let (b, work, info) ← rawNormalScan c kh nwork (datSize + 1) b r 0 { algorithm := 0 }
  rawNormalBuckets c kh nwork kh.buckets 0 b (work + datSize) info

/-- The object `tmp` of `verify_fast` (verify.ipp 323-324), with its memory: the last block of the buffer,
which begins at `at`. -/
structure Tmp where
  bs : Nat
  size : Nat
  spill : Nat
  at_ : Nat

/-- The object with all memory from where it points to. -/
def Tmp.over (t : Tmp) (m : Bytes) : Bkt := ⟨t.bs, t.size, t.spill, m.drop t.at_⟩

/-- The memory after the bucket has changed what it points to. -/
def Tmp.back (t : Tmp) (m : Bytes) (b : Bkt) : Bytes := m.take t.at_ ++ b.p

/-- Counting the keys of one bucket with its overflow records (verify.ipp 347-368), see `fastCount`. -/
def rawFastCount : Nat → Nat → Tmp → Bytes → Nat → Nat → Info → M (Tmp × Bytes × Nat × Nat × Info)
  | 0, _, _, _, _, _, _ => M.raise .hang
  | fuel + 1, spill, tmp, m, nkeys, nspill, info =>
    if spill ≠ 0 then do
      let b ← shortAs .short_spill ((tmp.over m).readFile .dat spill)
      rawFastCount fuel b.spill { tmp with size := b.size, spill := b.spill } (tmp.back m b) (nkeys + b.size) (nspill + 1)
        { info with spillCount := info.spillCount + 1,
                    spillBytes := info.spillBytes + (6 + 2 + b.actualSize) }
    else M.ret (tmp, m, nkeys, nspill, info)

/-- The loop over the buckets of a chunk (verify.ipp 343-373), see `fastCounts`. -/
def rawFastCounts (bs : Nat) : Nat → Nat → Tmp → Bytes → Info → M (Tmp × Bytes × List Nat × Info)
  | 0, _, tmp, m, info => M.ret (tmp, m, [], info)
  | k + 1, i, tmp, m, info => do
    let b ← M.lift (Bkt.ofMem bs (m.drop (i * bs)))
    let fuel ← lookupFuel
    let (tmp, m, n, nspill, info) ← rawFastCount fuel b.spill tmp m b.size 0 info
    let (tmp, m, l, info) ← rawFastCounts bs k (i + 1) tmp m
      { info with hist := bumpHist info.hist nspill, keyCount := info.keyCount + n }
    M.ret (tmp, m, n :: l, info)

/-- The search of `verify_fast` (verify.ipp 417-448), see `seekValueFast`: `b` is a bucket object in the buffer
`m`, at first one of the chunk, then a copy of `tmp`. -/
def rawSeekValueFast (h offset : Nat) (tmp : Tmp) : Nat → Tmp → Bytes → Nat → M (Nat × Bytes)
  | 0, _, _, _ => M.raise .hang
  | fuel + 1, b, m, fetches => do
    let i ← M.lift ((b.over m).lowerBound h)
    let (found, fetches) ← M.lift (seekEntry h offset (b.over m) (b.size + 1) i fetches)
    if found then M.ret (fetches, m)
    else if b.spill = 0 then M.fail .orphaned_value
    else do
      let x ← shortAs .short_spill ((tmp.over m).readFile .dat b.spill)
      rawSeekValueFast h offset tmp fuel { tmp with size := x.size, spill := x.spill } (tmp.back m x) (fetches + 1)

/-- One round of the scan of `verify_fast` (verify.ipp 377-496), see `fastStep`. -/
def rawFastStep (c : Cfg) (kh : KeyHeader) (b0 b1 work nwork : Nat) (tmp : Tmp) (m : Bytes)
    (nkeys : List Nat) (r : RawReader) (info : Info) : M (Bytes × List Nat × RawReader × Info) := do
  let offset := r.pos
  let (is, r) ← shortAs .short_data_record (r.prepare c 6)
  let (f, _) ← M.lift (r.field is 6)
  let size ← M.lift (getSize48 f)
  if size > 0 then do
    let (is, r) ← shortAs .short_value (r.prepare c (kh.keySize + size))
    let (key, is) ← M.lift (is.data kh.keySize)
    let _ ← M.lift (is.data size)
    let k ← M.lift (r.deref key kh.keySize)
    let h := hashKey c.H kh.salt k
    let n ← M.lift (bucketIndexA h kh.buckets kh.modulus)
    if n < b0 ∨ n ≥ b1 then M.ret (m, nkeys, r, info)
    else do
      let b ← M.lift (Bkt.ofMem kh.blockSize (m.drop ((n - b0) * kh.blockSize)))
      let fuel ← lookupFuel
      let (fetches, m) ← rawSeekValueFast h offset tmp fuel ⟨kh.blockSize, b.size, b.spill, (n - b0) * kh.blockSize⟩ m
        (info.fetches + 1)
      let info := { info with fetches := fetches, valueCount := info.valueCount + 1,
                              valueBytes := info.valueBytes + size }
      let k := nkeys.getD (n - b0) 0
      if k = 0 then M.fail .orphaned_value
      else do
        emit (.progress (work + offset) nwork)
        M.ret (m, nkeys.set (n - b0) (k - 1), r, info)
  else do
    let (is, r) ← shortAs .short_spill (r.prepare c 2)
    let (f, _) ← M.lift (r.field is 2)
    let size := getU16 f
    if bucketSize (bucketCapacity size) ≠ size then M.fail .invalid_spill_size
    else do
      let (_, r) ← shortAs .short_spill (r.prepare c size)
      let info := if b0 = 0 then
          { info with spillCountTot := info.spillCountTot + 1,
                      spillBytesTot := info.spillBytesTot + (6 + 2 + bucketSize tmp.size) }
        else info
      emit (.progress (work + offset) nwork)
      M.ret (m, nkeys, r, info)

/-- The scan of the data file (verify.ipp 374-496). -/
def rawFastScan (c : Cfg) (kh : KeyHeader) (b0 b1 work nwork : Nat) (tmp : Tmp) :
    Nat → Bytes → List Nat → RawReader → Info → M (Bytes × List Nat × Info)
  | 0, _, _, _, _ => M.raise .hang
  | fuel + 1, m, nkeys, r, info =>
    if r.eof then M.ret (m, nkeys, info)
    else do
      let (m, nkeys, r, info) ← rawFastStep c kh b0 b1 work nwork tmp m nkeys r info
      rawFastScan c kh b0 b1 work nwork tmp fuel m nkeys r info

/-- The loop over the chunks (verify.ipp 327-507). `m` is the memory of `buf`. -/
def rawFastChunks (c : Cfg) (kh : KeyHeader) (datSize chunk nwork : Nat) :
    Nat → Nat → Nat → Bytes → Tmp → Info → M Info
  | 0, _, _, _, _, _ => M.raise .hang
  | fuel + 1, b0, work, m, tmp, info =>
    if b0 < kh.buckets then do
      let b1 := min (b0 + chunk) kh.buckets
      let bn := b1 - b0
      let data ← fRead .key ((b0 + 1) * kh.blockSize) (bn * kh.blockSize)
      let m ← M.lift (poke m 0 data)
      let work := work + bn * kh.blockSize
      emit (.progress work nwork)
      let (tmp, m, nkeys, info) ← rawFastCounts kh.blockSize bn 0 tmp m info
      let r := RawReader.new c .dat datHeaderSize datSize (1024 * kh.blockSize)
      let (m, nkeys, info) ← rawFastScan c kh b0 b1 work nwork tmp (datSize + 1) m nkeys r info
      if nkeys.any (· ≠ 0) then M.fail .missing_value
      else rawFastChunks c kh datSize chunk nwork fuel (b0 + chunk) (work + datSize) m tmp info
    else M.ret info

/-- `verify_fast` (verify.ipp 278-533), see `verifyFast`. -/
def rawVerifyFast (c : Cfg) (kh : KeyHeader) (datSize keySize bufferSize : Nat) : M Info := do
  if bufferSize < 2 * kh.blockSize + 8 then M.raise .throw
  else do
    let chunk := fastChunk kh bufferSize
    let nwork := fastPasses kh chunk * datSize + keySize
    emit (.progress 0 nwork)
    let m := c.fresh ((chunk + 1) * kh.blockSize)
    let b ← M.lift (Bkt.ofMem kh.blockSize (m.drop (chunk * kh.blockSize)))
    rawFastChunks c kh datSize chunk nwork (kh.buckets + 1) 0 0 m ⟨kh.blockSize, b.size, b.spill, chunk * kh.blockSize⟩
      { algorithm := 1 }

/-- `verify` (verify.ipp 537-630), see `verify`. -/
def rawVerify (c : Cfg) (bufferSize : Nat) : M Info := do
  fOpen .dat
  fOpen .key
  let dh ← readDatHeader
  M.check (verifyDat dh)
  let kh ← readKeyHeader
  M.check (verifyKey c.H kh)
  M.check (verifyDatKey c.H dh kh)
  let keySize ← fSize .key
  let datSize ← fSize .dat
  if chooseNormal kh datSize keySize bufferSize then rawVerifyNormal c kh datSize keySize
  else rawVerifyFast c kh datSize keySize bufferSize

end NuDB.Raw
