import Verif.Model.Store
/-
The commit on the level of memory. In `Model/Store` buckets are values that are stored back to
the caches, and `prepare` together with filling the returned stream is one step. In the code a
bucket object (`bucket_t`) has copies of count and overflow offset and a pointer to a block that
a cache or a buffer owns; several objects may point to the same block. Records are assembled in
the buffer of the `bulk_writer` through streams that do not check bounds. The functions here
follow the code in that respect; `Props/Heap` proves that they do what those of `Model/Store` do.
-/
namespace NuDB.Raw

/-- Memory: all blocks allocated so far, by the arenas of the caches (see `Model/Arena`) or as
buffers. An address is an index. Nothing is released before the end of `commit`. -/
abbrev Ram := List Bytes

/-- `bucket_t` (bucket.hpp 48-56): the members of the object; `addr` is `p_`. -/
structure View where
  bs : Nat
  size : Nat
  spill : Nat
  addr : Nat

namespace View

/-- The object together with the memory it points to. -/
def over (v : View) (p : Bytes) : Bkt := ⟨v.bs, v.size, v.spill, p⟩

/-- Constructor from memory (bucket.hpp 181-192). -/
def ofAddr (bs addr : Nat) (h : Ram) : Res View :=
  match h[addr]? with
  | some p => do
    let b ← Bkt.ofMem bs p
    return ⟨b.bs, b.size, b.spill, addr⟩
  | none => .error .ub

/-- Call of a member function that only reads. -/
def ask (v : View) (h : Ram) (f : Bkt → Res α) : Res α :=
  match h[v.addr]? with
  | some p => f (v.over p)
  | none => .error .ub

/-- Call of a member function that changes object and memory. -/
def change (v : View) (h : Ram) (f : Bkt → Res Bkt) : Res (View × Ram) :=
  match h[v.addr]? with
  | some p => do
    let b ← f (v.over p)
    return (⟨b.bs, b.size, b.spill, v.addr⟩, h.set v.addr b.p)
  | none => .error .ub

/-- `read(File&, noff_t)` (bucket.hpp 346-365). -/
def readFile (v : View) (h : Ram) (p : Path) (off : Nat) : M (View × Ram) :=
  match h[v.addr]? with
  | some m => do
    let b ← (v.over m).readFile p off
    M.ret (⟨b.bs, b.size, b.spill, v.addr⟩, h.set v.addr b.p)
  | none => M.raise .ub

end View

/-- `cache_t::map_` (cache.hpp 57-60): bucket index to address. -/
abbrev Blocks := List (Nat × Nat)

namespace Blocks

/-- `find` (cache.hpp 185-195). -/
def find (c : Blocks) (n : Nat) : Option Nat := (List.find? (fun e => e.1 == n) c).map (·.2)

/-- `std::unordered_map::emplace`: nothing happens if the key is present. -/
def emplace (c : Blocks) (n a : Nat) : Blocks := if (c.find n).isSome then c else c ++ [(n, a)]

/-- `create` (cache.hpp 197-205). -/
def create (cfg : Cfg) (c : Blocks) (h : Ram) (bs n : Nat) : Res (Blocks × View × Ram) := do
  let p := h.length
  let c := c.emplace n p
  let (b, h) ← View.change ⟨bs, 0, 0, p⟩ (h ++ [cfg.fresh bs]) Bkt.clear
  return (c, b, h)

/-- `insert` (cache.hpp 207-218). The result points to what the map holds. -/
def insert (cfg : Cfg) (c : Blocks) (h : Ram) (n : Nat) (b : View) : Res (Blocks × View × Ram) := do
  let p := h.length
  let body ← b.ask h Bkt.compact
  let m ← poke (cfg.fresh b.bs) 0 body
  let h := h ++ [m]
  let c := c.emplace n p
  match c.find n with
  | some a => do
    let b ← View.ofAddr b.bs a h
    return (c, b, h)
  | none => .error .ub

/-- The indices with the blocks. -/
def content (c : Blocks) (h : Ram) : Cache := c.map (fun e => (e.1, h.getD e.2 []))

/-- The order of iteration, see `Cfg.order`. -/
def inOrder (cfg : Cfg) (c : Blocks) (h : Ram) : Blocks :=
  (cfg.order (c.content h)).filterMap (fun e => (c.find e.1).map (fun a => (e.1, a)))

end Blocks

/-- `bulk_writer` (bulkio.hpp 108-144). `buf` is the memory of `buf_`. -/
structure RawWriter where
  path : Path
  offset : Nat
  buf : Bytes
  used : Nat

/-- `ostream` (stream.hpp 75-111) to the buffer of a writer: `base` is where it started, `size` is
`size_`; the pointer is `base + size`. -/
structure OStream where
  base : Nat
  size : Nat

/-- `write(ostream&, ...)` (stream.hpp 113-123, 135-141; field.hpp 173-252): the bytes are stored
without a test whether they were prepared. -/
def OStream.write (os : OStream) (w : RawWriter) (bs : Bytes) : Res (OStream × RawWriter) := do
  let buf ← poke w.buf (os.base + os.size) bs
  return ({ os with size := os.size + bs.length }, { w with buf := buf })

namespace RawWriter

/-- Constructor (bulkio.hpp 146-156). -/
def new (c : Cfg) (p : Path) (offset bufferSize : Nat) : RawWriter :=
  { path := p, offset := offset, buf := c.fresh bufferSize, used := 0 }

/-- `offset()` (bulkio.hpp 132-138). -/
def pos (w : RawWriter) : Nat := w.offset + w.used

/-- `flush` (bulkio.hpp 176-191). -/
def flush (w : RawWriter) : M RawWriter := do
  if w.used ≠ 0 then
    let data ← M.lift (peek w.buf 0 w.used)
    fAppend w.path w.offset data
    M.ret { w with offset := w.offset + w.used, used := 0 }
  else M.ret w

/-- `prepare` (bulkio.hpp 158-174). -/
def prepare (c : Cfg) (w : RawWriter) (needed : Nat) : M (OStream × RawWriter) := do
  let w ← if w.used + needed > w.buf.length then w.flush else M.ret w
  let w := if needed > w.buf.length then { w with buf := c.fresh needed } else w
  M.ret (⟨w.used, 0⟩, { w with used := w.used + needed })

end RawWriter

/-- `maybe_spill` (bucket.hpp 440-468). -/
def rawSpill (c : Cfg) (b : View) (h : Ram) (w : RawWriter) : M (View × Ram × RawWriter) := do
  if b.size ≥ bucketCapacity b.bs then
    let offset := w.pos
    let (os, w) ← w.prepare c (6 + 2 + bucketSize b.size)
    let (os, w) ← M.lift (os.write w (putU48 0))
    M.lift (assert (bucketSize b.size ≤ 0xffff))
    let (os, w) ← M.lift (os.write w (putU16 (bucketSize b.size)))
    let spill := offset + os.size
    let body ← M.lift (b.ask h Bkt.compact)
    let (_, w) ← M.lift (os.write w body)
    let (b, h) ← M.lift (b.change h Bkt.clear)
    let (b, h) ← M.lift (b.change h (Bkt.setSpill · spill))
    M.ret (b, h, w)
  else M.ret (b, h, w)

/-- First loop of `split` (basic_store.ipp 492-508). -/
def rawSplitOwn (n1 n2 buckets modulus : Nat) : Nat → Nat → View → View → Ram → Res (View × View × Ram)
  | 0, _, _, _, _ => .error .hang
  | fuel + 1, i, b1, b2, h =>
    if i < b1.size then do
      let e ← b1.ask h (Bkt.get · i)
      let n ← bucketIndexA e.hash buckets modulus
      assert (n == n1 || n == n2)
      if n = n2 then do
        let (b2, h) ← b2.change h (Bkt.insert · e.offset e.size e.hash)
        let (b1, h) ← b1.change h (Bkt.erase · i)
        rawSplitOwn n1 n2 buckets modulus fuel i b1 b2 h
      else rawSplitOwn n1 n2 buckets modulus fuel (i + 1) b1 b2 h
    else .ok (b1, b2, h)

/-- Inner loop of the second part of `split` (basic_store.ipp 527-547). -/
def rawSplitTmp (c : Cfg) (n1 n2 buckets modulus : Nat) (tmp : View) :
    Nat → Nat → View → View → Ram → RawWriter → M (View × View × Ram × RawWriter)
  | 0, _, _, _, _, _ => M.raise .hang
  | fuel + 1, i, b1, b2, h, w =>
    if i < tmp.size then do
      let e ← M.lift (tmp.ask h (Bkt.get · i))
      let n ← M.lift (bucketIndexA e.hash buckets modulus)
      M.lift (assert (n == n1 || n == n2))
      if n = n2 then do
        let (b2, h, w) ← rawSpill c b2 h w
        let (b2, h) ← M.lift (b2.change h (Bkt.insert · e.offset e.size e.hash))
        rawSplitTmp c n1 n2 buckets modulus tmp fuel (i + 1) b1 b2 h w
      else do
        let (b1, h, w) ← rawSpill c b1 h w
        let (b1, h) ← M.lift (b1.change h (Bkt.insert · e.offset e.size e.hash))
        rawSplitTmp c n1 n2 buckets modulus tmp fuel (i + 1) b1 b2 h w
    else M.ret (b1, b2, h, w)

/-- The `do ... while(spill)` of `split` (basic_store.ipp 513-550). -/
def rawSplitSpills (c : Cfg) (cap n1 n2 buckets modulus : Nat) :
    Nat → Nat → View → View → View → Ram → RawWriter → M (View × View × View × Ram × RawWriter)
  | 0, _, _, _, _, _, _ => M.raise .hang
  | fuel + 1, spill, b1, b2, tmp, h, w => do
    let w ← if spill + bucketSize cap > w.pos - w.used then w.flush else M.ret w
    let (tmp, h) ← tmp.readFile h .dat spill
    let (b1, b2, h, w) ← rawSplitTmp c n1 n2 buckets modulus tmp (tmp.size + 1) 0 b1 b2 h w
    if tmp.spill ≠ 0 then rawSplitSpills c cap n1 n2 buckets modulus fuel tmp.spill b1 b2 tmp h w
    else M.ret (b1, b2, tmp, h, w)

/-- `split` (basic_store.ipp 468-552). -/
def rawSplit (c : Cfg) (cap n1 n2 buckets modulus : Nat) (b1 b2 tmp : View) (h : Ram) (w : RawWriter) :
    M (View × View × View × Ram × RawWriter) := do
  if b1.size = 0 then M.ret (b1, b2, tmp, h, w)
  else do
    let (b1, b2, h) ← M.lift (rawSplitOwn n1 n2 buckets modulus (b1.size + 1) 0 b1 b2 h)
    let spill := b1.spill
    if spill ≠ 0 then do
      let (b1, h) ← M.lift (b1.change h (Bkt.setSpill · 0))
      rawSplitSpills c cap n1 n2 buckets modulus (2 ^ 48 + 1) spill b1 b2 tmp h w
    else M.ret (b1, b2, tmp, h, w)

/-- Address of `buf1` in `commit` (basic_store.ipp 601). -/
def buf1 : Nat := 0
/-- Address of `buf2` in `commit` (basic_store.ipp 602). -/
def buf2 : Nat := 1

/-- `load` (basic_store.ipp 554-578); `buf` is `buf2`. -/
def rawLoad (c : Cfg) (bs n : Nat) (c1 c0 : Blocks) (h : Ram) : M (View × Blocks × Blocks × Ram) := do
  match c1.find n with
  | some a => do
    let b ← M.lift (View.ofAddr bs a h)
    M.ret (b, c1, c0, h)
  | none =>
    match c0.find n with
    | some a => do
      let b ← M.lift (View.ofAddr bs a h)
      let (c1, b, h) ← M.lift (c1.insert c h n b)
      M.ret (b, c1, c0, h)
    | none => do
      let tmp ← M.lift (View.ofAddr bs buf2 h)
      let (tmp, h) ← tmp.readFile h .key ((n + 1) * bs)
      let (c0, _, h) ← M.lift (c0.insert c h n tmp)
      let (c1, b, h) ← M.lift (c1.insert c h n tmp)
      M.ret (b, c1, c0, h)

/-- The loop writing the inserted data (basic_store.ipp 636-650). -/
def rawAppendData (c : Cfg) (keySize : Nat) : Pool → RawWriter → M (List (Item × Nat) × RawWriter)
  | [], w => M.ret ([], w)
  | it :: rest, w => do
    let off := w.pos
    let (os, w) ← w.prepare c (valueSize it.data.length keySize)
    M.lift (assert (it.data.length ≤ 0xffffffffffff))
    let (os, w) ← M.lift (os.write w (putU48 it.data.length))
    let key ← M.lift (peek it.key 0 keySize)
    let (os, w) ← M.lift (os.write w key)
    let (_, w) ← M.lift (os.write w it.data)
    let (l, w) ← rawAppendData c keySize rest w
    M.ret ((it, off) :: l, w)

/-- Local variables of the insert loop of `commit`, and memory. -/
structure RawWork where
  c0 : Blocks
  c1 : Blocks
  frac : Nat
  buckets : Nat
  modulus : Nat
  tmp : View
  w : RawWriter
  h : Ram

/-- The split at the beginning of a round (basic_store.ipp 656-674). -/
def rawCommitSplit (c : Cfg) (kh : KeyHeader) (thresh : Nat) (x : RawWork) : M RawWork := do
  let frac := x.frac + 65536
  if frac ≥ thresh then do
    let modulus := if x.buckets = x.modulus then x.modulus * 2 else x.modulus
    let n1 := x.buckets - modulus / 2
    let n2 := x.buckets
    let (b1, c1, c0, h) ← rawLoad c kh.blockSize n1 x.c1 x.c0 x.h
    let (c1, b2, h) ← M.lift (c1.create c h kh.blockSize n2)
    let (_, _, tmp, h, w) ← rawSplit c kh.capacity n1 n2 (x.buckets + 1) modulus b1 b2 x.tmp h x.w
    M.ret { c0 := c0, c1 := c1, frac := frac - thresh, buckets := x.buckets + 1, modulus := modulus, tmp := tmp,
            w := w, h := h }
  else M.ret { x with frac := frac }

/-- One round of the insert loop (basic_store.ipp 653-686). -/
def rawCommitInsert (c : Cfg) (kh : KeyHeader) (thresh : Nat) (it : Item) (off : Nat) (x : RawWork) :
    M RawWork := do
  let x ← rawCommitSplit c kh thresh x
  let n ← M.lift (bucketIndexA it.hash x.buckets x.modulus)
  let (b, c1, c0, h) ← rawLoad c kh.blockSize n x.c1 x.c0 x.h
  let (b, h, w) ← rawSpill c b h x.w
  let (_, h) ← M.lift (b.change h (Bkt.insert · off it.data.length it.hash))
  M.ret { x with c0 := c0, c1 := c1, w := w, h := h }

/-- The insert loop (basic_store.ipp 653-686). -/
def rawCommitInserts (c : Cfg) (kh : KeyHeader) (thresh : Nat) : List (Item × Nat) → RawWork → M RawWork
  | [], x => M.ret x
  | (it, off) :: rest, x => do
    let x ← rawCommitInsert c kh thresh it off x
    rawCommitInserts c kh thresh rest x

/-- First part of `commit` (basic_store.ipp 601-690), see `commitPrepare`. -/
def rawCommitPrepare (c : Cfg) (s : Store) : M RawWork := do
  let h : Ram := [c.fresh s.kh.blockSize, c.fresh s.kh.blockSize]
  let tmp ← M.lift (View.ofAddr s.kh.blockSize buf1 h)
  let ks ← fSize .key
  match s.ec with
  | some e => M.fail e
  | none => do
    let ds ← fSize .dat
    let lh := logHeaderOf c.H s.kh ks ds
    fAppend .log 0 (putLogHeader lh)
    fSync .log
    let size ← fSize .dat
    let (items, w) ← rawAppendData c s.kh.keySize s.p0 (RawWriter.new c .dat size writeSize)
    let x ← rawCommitInserts c s.kh s.thresh items
      { c0 := [], c1 := [], frac := s.frac, buckets := s.buckets, modulus := s.modulus,
        tmp := tmp, w := w, h := h }
    let w ← x.w.flush
    M.ret { x with w := w }

/-- The loop writing log records (basic_store.ipp 708-719). -/
def rawLogRecords (c : Cfg) (bs : Nat) (h : Ram) : Blocks → RawWriter → M RawWriter
  | [], w => M.ret w
  | (n, a) :: rest, w => do
    let b ← M.lift (View.ofAddr bs a h)
    let (os, w) ← w.prepare c (8 + bucketSize b.size)
    let (os, w) ← M.lift (os.write w (putU64 n))
    let body ← M.lift (b.ask h Bkt.compact)
    let (_, w) ← M.lift (os.write w body)
    rawLogRecords c bs h rest w

/-- Writing the original buckets to the log (basic_store.ipp 702-727). -/
def rawCommitLog (c : Cfg) (bs : Nat) (c0 : Blocks) (h : Ram) : M Unit := do
  let size ← fSize .log
  let w ← rawLogRecords c bs h (c0.inOrder c h) (RawWriter.new c .log size writeSize)
  let _ ← w.flush
  fSync .log

/-- The loop writing buckets to the key file (basic_store.ipp 730-736): `write(File&)`
(bucket.hpp 408-423) pads the block in memory, then writes it. -/
def rawKeyBlocks (bs : Nat) : Blocks → Ram → M Unit
  | [], _ => M.ret ()
  | (n, a) :: rest, h => do
    let b ← M.lift (View.ofAddr bs a h)
    let (b, h) ← M.lift (b.change h (fun b => do
      let p ← b.padded
      return { b with p := p }))
    let blk ← M.lift (b.ask h (fun b => peek b.p 0 bs))
    fWrite .key ((n + 1) * bs) blk
    rawKeyBlocks bs rest h

/-- `commit` after the new buckets were published (basic_store.ipp 702-749). -/
def rawCommitFinish (c : Cfg) (bs : Nat) (x : RawWork) : M Unit := do
  rawCommitLog c bs x.c0 x.h
  rawKeyBlocks bs (x.c1.inOrder c x.h) x.h
  fSync .dat
  fSync .key
  fTrunc .log 0
  fSync .log

/-- `commit` (basic_store.ipp 580-755), see `commit`. Between publication and the end of the commit the
store has the new buckets as values. If writing the key file fails, the padding already stored to
these blocks is not recorded here; it is outside of what bucket objects read, and the store
refuses all work from then on. -/
def rawCommit (c : Cfg) (s : Store) : M (Store × Option Err) := do
  M.lift (assert (!s.p1.isEmpty))
  let s := { s with p0 := s.p1, p1 := s.p0 }
  match ← M.attempt (rawCommitPrepare c s) with
  | .error e => M.ret (s, some e)
  | .ok x =>
    let s := { s with c1 := x.c1.content x.h, p0 := [], buckets := x.buckets, modulus := x.modulus,
                      frac := x.frac }
    match ← M.attempt (rawCommitFinish c s.kh.blockSize x) with
    | .error e => M.ret (s, some e)
    | .ok _ => M.ret ({ s with c1 := [] }, none)

/-- `flush` (basic_store.ipp 757-804), see `flush`. -/
def rawFlush (c : Cfg) (s : Store) : M Store := do
  if s.p1.isEmpty then M.ret s
  else do
    let (s, e) ← rawCommit c s
    M.ret { s with ec := if e.isSome then e else s.ec }

/-- `close` (basic_store.ipp 190-218), see `close`. -/
def rawClose (c : Cfg) (s : Store) : M (Option Err) := do
  let s ← rawFlush c s
  match s.ec with
  | some e => M.ret (some e)
  | none =>
    match ← M.attempt (fErase .log) with
    | .ok _ => M.ret none
    | .error e => M.ret (some e)

/-- Filling a stream piece by piece. -/
def OStream.writes (os : OStream) (w : RawWriter) : List Bytes → Res (OStream × RawWriter)
  | [] => .ok (os, w)
  | b :: rest => do
    let (os, w) ← os.write w b
    os.writes w rest

end NuDB.Raw
