import Verif.Model.Store
/-
The algorithms of impl/basic_store.ipp that run concurrently, as trees of file operations,
so that operations of different threads can be interleaved. Every function here is the
function of the same name (without the final `P`) of `Model/Store` or `Model/BulkIO`;
`Proof/Prog` proves that running the tree without interference is the same program.
-/
namespace NuDB

/-- A program as the tree of its file operations. -/
inductive Prog (α : Type)
  | ret (a : α)
  | raise (x : Exc)
  | size (p : Path) (k : Nat → Prog α)
  | read (p : Path) (off n : Nat) (k : Bytes → Prog α)
  | write (p : Path) (off : Nat) (bs : Bytes) (k : Prog α)
  | append (p : Path) (off : Nat) (bs : Bytes) (k : Prog α)
  | sync (p : Path) (k : Prog α)
  | trunc (p : Path) (n : Nat) (k : Prog α)

namespace Prog

/-- sequencing -/
def bind : Prog α → (α → Prog β) → Prog β
  | .ret a, f => f a
  | .raise x, _ => .raise x
  | .size p k, f => .size p (fun n => (k n).bind f)
  | .read p off n k, f => .read p off n (fun b => (k b).bind f)
  | .write p off bs k, f => .write p off bs (k.bind f)
  | .append p off bs k, f => .append p off bs (k.bind f)
  | .sync p k, f => .sync p (k.bind f)
  | .trunc p n k, f => .trunc p n (k.bind f)

instance : Monad Prog where
  pure := .ret
  bind := bind

/-- memory-only code -/
def lift : Res α → Prog α
  | .ok a => .ret a
  | .error x => .raise x

/-- set an error code and return -/
def fail (e : Err) : Prog α := .raise (.err e)

/-- Running the whole program without interference. -/
def toM : Prog α → M α
  | .ret a => M.ret a
  | .raise x => M.raise x
  | .size p k => M.bind (fSize p) (fun n => (k n).toM)
  | .read p off n k => M.bind (fRead p off n) (fun b => (k b).toM)
  | .write p off bs k => M.bind (fWrite p off bs) (fun _ => k.toM)
  | .append p off bs k => M.bind (fAppend p off bs) (fun _ => k.toM)
  | .sync p k => M.bind (fSync p) (fun _ => k.toM)
  | .trunc p n k => M.bind (fTrunc p n) (fun _ => k.toM)

/-- The result of one file operation on `fs` with fault `f`: the continuation, or the
exception. -/
def after (m : M β) (k : β → Prog α) (f : Fault) (fs : Fs) : Prog α × Fs :=
  match m (fun _ => f) ⟨fs, 0, []⟩ with
  | (.ok b, w) => (k b, w.fs)
  | (.error x, w) => (.raise x, w.fs)

/-- One file operation. -/
def step (f : Fault) : Prog α → Fs → Prog α × Fs
  | .ret a, fs => (.ret a, fs)
  | .raise x, fs => (.raise x, fs)
  | .size p k, fs => after (fSize p) k f fs
  | .read p off n k, fs => after (fRead p off n) k f fs
  | .write p off bs k, fs => after (fWrite p off bs) (fun _ => k) f fs
  | .append p off bs k, fs => after (fAppend p off bs) (fun _ => k) f fs
  | .sync p k, fs => after (fSync p) (fun _ => k) f fs
  | .trunc p n k, fs => after (fTrunc p n) (fun _ => k) f fs

end Prog

open Prog (lift fail)

/-- `bucket_t::read(File&, noff_t)` (bucket.hpp 346-365), see `Bkt.readFile`. -/
def Bkt.readFileP (b : Bkt) (p : Path) (off : Nat) : Prog Bkt := do
  let cap := bucketCapacity b.bs
  let data ← .read p off (bucketSize cap) .ret
  let mem ← lift (poke b.p 0 data)
  let b ← lift (Bkt.ofMem b.bs mem)
  if b.size > cap then fail .invalid_bucket_size
  else .ret b

/-- `bucket_t::write(File&, noff_t)` (bucket.hpp 408-423), see `Bkt.writeFile`. -/
def Bkt.writeFileP (b : Bkt) (p : Path) (off : Nat) : Prog Unit := do
  let blk ← lift b.padded
  .write p off blk (.ret ())

/-- `bulk_writer::flush` (bulkio.hpp 176-191), see `Writer.flush`. -/
def Writer.flushP (w : Writer) : Prog Writer := do
  if w.data.length ≠ 0 then
    .append w.path w.offset w.data (.ret { w with offset := w.offset + w.data.length, data := [] })
  else .ret w

/-- `bulk_writer::prepare` and filling the stream (bulkio.hpp 158-174), see
`Writer.append`. -/
def Writer.appendP (w : Writer) (bs : Bytes) : Prog Writer := do
  let w ← if w.data.length + bs.length > w.cap then w.flushP else .ret w
  let w := if bs.length > w.cap then { w with cap := bs.length, data := [] } else w
  .ret { w with data := w.data ++ bs }

/-- `maybe_spill` (bucket.hpp 440-468), see `maybeSpill`. -/
def maybeSpillP (b : Bkt) (w : Writer) : Prog (Bkt × Writer) := do
  if b.full then
    let offset := w.pos
    let body ← lift b.compact
    lift (assert (b.actualSize ≤ 0xffff))
    let w ← w.appendP (putU48 0 ++ putU16 b.actualSize ++ body)
    let spill := offset + (6 + 2)
    let b ← lift b.clear
    let b ← lift (b.setSpill spill)
    .ret (b, w)
  else .ret (b, w)

/-- Inner loop of `fetch` (basic_store.ipp 374-396), see `fetchScan`. -/
def fetchScanP (keySize h : Nat) (key : Bytes) (b : Bkt) : Nat → Nat → Prog (Option Bytes)
  | 0, _ => .raise .hang
  | fuel + 1, i =>
    if i < b.size then do
      let item ← lift (b.get i)
      if item.hash ≠ h then .ret none
      else do
        let buf ← .read .dat (item.offset + 6) (keySize + item.size) .ret
        if buf.take keySize = key then .ret (some (buf.drop keySize))
        else fetchScanP keySize h key b fuel (i + 1)
    else .ret none

/-- `fetch(h, key, b, callback, ec)` (basic_store.ipp 356-408), see `fetchBucket`. -/
def fetchBucketP (c : Cfg) (kh : KeyHeader) (h : Nat) (key : Bytes) : Nat → Bkt → Prog Bytes
  | 0, _ => .raise .hang
  | fuel + 1, b => do
    let i ← lift (b.lowerBound h)
    match ← fetchScanP kh.keySize h key b (b.size + 1) i with
    | some v => .ret v
    | none =>
      if b.spill = 0 then fail .key_not_found
      else do
        let nb ← lift (Bkt.ofMem kh.blockSize (c.fresh kh.blockSize))
        let nb ← nb.readFileP .dat b.spill
        fetchBucketP c kh h key fuel nb

/-- Inner loop of `exists` (basic_store.ipp 429-442), see `existsScan`. -/
def existsScanP (keySize h : Nat) (key : Bytes) (b : Bkt) : Nat → Nat → Prog Bool
  | 0, _ => .raise .hang
  | fuel + 1, i =>
    if i < b.size then do
      let item ← lift (b.get i)
      if item.hash ≠ h then .ret false
      else do
        let pk ← .read .dat (item.offset + 6) keySize .ret
        if pk = key then .ret true
        else existsScanP keySize h key b fuel (i + 1)
    else .ret false

/-- The part of an iteration of `exists` that follows a bucket without the key
(basic_store.ipp 443-451); `next` are the further iterations. -/
def existsRestP (c : Cfg) (kh : KeyHeader) (next : Bkt → Prog Bool) (spill : Nat) : Prog Bool :=
  if spill = 0 then .ret false
  else do
    let nb ← lift (Bkt.ofMem kh.blockSize (c.fresh kh.blockSize))
    let nb ← nb.readFileP .dat spill
    next nb

/-- The scan of one bucket by `exists` (basic_store.ipp 429-442). -/
def existsFirstP (kh : KeyHeader) (h : Nat) (key : Bytes) (b : Bkt) : Prog Bool := do
  let i ← lift (b.lowerBound h)
  existsScanP kh.keySize h key b (b.size + 1) i

/-- `exists` (basic_store.ipp 410-454), see `existsBucket`. -/
def existsBucketP (c : Cfg) (kh : KeyHeader) (h : Nat) (key : Bytes) : Nat → Bkt → Prog Bool
  | 0, _ => .raise .hang
  | fuel + 1, b => do
    if ← existsFirstP kh h key b then .ret true
    else existsRestP c kh (existsBucketP c kh h key fuel) b.spill

/-- Inner loop of the second part of `split` (basic_store.ipp 527-547), see `splitTmp`. -/
def splitTmpP (n1 n2 buckets modulus : Nat) (tmp : Bkt) :
    Nat → Nat → Bkt → Bkt → Writer → Prog (Bkt × Bkt × Writer)
  | 0, _, _, _, _ => .raise .hang
  | fuel + 1, i, b1, b2, w =>
    if i < tmp.size then do
      let e ← lift (tmp.get i)
      let n ← lift (bucketIndexA e.hash buckets modulus)
      lift (assert (n == n1 || n == n2))
      if n = n2 then do
        let (b2, w) ← maybeSpillP b2 w
        let b2 ← lift (b2.insert e.offset e.size e.hash)
        splitTmpP n1 n2 buckets modulus tmp fuel (i + 1) b1 b2 w
      else do
        let (b1, w) ← maybeSpillP b1 w
        let b1 ← lift (b1.insert e.offset e.size e.hash)
        splitTmpP n1 n2 buckets modulus tmp fuel (i + 1) b1 b2 w
    else .ret (b1, b2, w)

/-- The `do ... while(spill)` of `split` (basic_store.ipp 513-550), see `splitSpills`. -/
def splitSpillsP (cap n1 n2 buckets modulus : Nat) :
    Nat → Nat → Bkt → Bkt → Bkt → Writer → Prog (Bkt × Bkt × Bkt × Writer)
  | 0, _, _, _, _, _ => .raise .hang
  | fuel + 1, spill, b1, b2, tmp, w => do
    let w ← if spill + bucketSize cap > w.pos - w.data.length then w.flushP else .ret w
    let tmp ← tmp.readFileP .dat spill
    let (b1, b2, w) ← splitTmpP n1 n2 buckets modulus tmp (tmp.size + 1) 0 b1 b2 w
    if tmp.spill ≠ 0 then splitSpillsP cap n1 n2 buckets modulus fuel tmp.spill b1 b2 tmp w
    else .ret (b1, b2, tmp, w)

/-- `split` (basic_store.ipp 468-552), see `split`. -/
def splitP (cap n1 n2 buckets modulus : Nat) (b1 b2 tmp : Bkt) (w : Writer) :
    Prog (Bkt × Bkt × Bkt × Writer) := do
  if b1.size = 0 then .ret (b1, b2, tmp, w)
  else do
    let (b1, b2) ← lift (splitOwn n1 n2 buckets modulus (b1.size + 1) 0 b1 b2)
    let spill := b1.spill
    if spill ≠ 0 then do
      let b1 ← lift (b1.setSpill 0)
      splitSpillsP cap n1 n2 buckets modulus (2 ^ 48 + 1) spill b1 b2 tmp w
    else .ret (b1, b2, tmp, w)

/-- `load` (basic_store.ipp 554-578), see `load`. -/
def loadP (c : Cfg) (bs n : Nat) (c1 c0 : Cache) : Prog (Bkt × Cache × Cache) := do
  match c1.find n with
  | some p => do
    let b ← lift (Bkt.ofMem bs p)
    .ret (b, c1, c0)
  | none =>
    match c0.find n with
    | some p => do
      let b ← lift (Bkt.ofMem bs p)
      let (c1, b) ← lift (c1.insert c n b)
      .ret (b, c1, c0)
    | none => do
      let tmp ← lift (Bkt.ofMem bs (c.fresh bs))
      let tmp ← tmp.readFileP .key ((n + 1) * bs)
      let (c0, _) ← lift (c0.insert c n tmp)
      let (c1, b) ← lift (c1.insert c n tmp)
      .ret (b, c1, c0)

/-- The loop writing the inserted data (basic_store.ipp 636-650), see `appendData`. -/
def appendDataP : Pool → Writer → Prog (List (Item × Nat) × Writer)
  | [], w => .ret ([], w)
  | it :: rest, w => do
    let off := w.pos
    lift (assert (it.data.length ≤ 0xffffffffffff))
    let w ← w.appendP (dataRecord it.key it.data)
    let (l, w) ← appendDataP rest w
    .ret ((it, off) :: l, w)

/-- The split at the beginning of a round (basic_store.ipp 656-674), see `commitSplit`. -/
def commitSplitP (c : Cfg) (kh : KeyHeader) (thresh : Nat) (x : Work) : Prog Work := do
  let frac := x.frac + 65536
  if frac ≥ thresh then do
    let modulus := if x.buckets = x.modulus then x.modulus * 2 else x.modulus
    let n1 := x.buckets - modulus / 2
    let n2 := x.buckets
    let (b1, c1, c0) ← loadP c kh.blockSize n1 x.c1 x.c0
    let (c1, b2) ← lift (c1.create c kh.blockSize n2)
    let (b1, b2, tmp, w) ← splitP kh.capacity n1 n2 (x.buckets + 1) modulus b1 b2 x.tmp x.w
    .ret { c0 := c0, c1 := (c1.store n1 b1.p).store n2 b2.p, frac := frac - thresh,
           buckets := x.buckets + 1, modulus := modulus, tmp := tmp, w := w }
  else .ret { x with frac := frac }

/-- One round of the insert loop (basic_store.ipp 653-686), see `commitInsert`. -/
def commitInsertP (c : Cfg) (kh : KeyHeader) (thresh : Nat) (it : Item) (off : Nat) (x : Work) :
    Prog Work := do
  let x ← commitSplitP c kh thresh x
  let n ← lift (bucketIndexA it.hash x.buckets x.modulus)
  let (b, c1, c0) ← loadP c kh.blockSize n x.c1 x.c0
  let (b, w) ← maybeSpillP b x.w
  let b ← lift (b.insert off it.data.length it.hash)
  .ret { x with c0 := c0, c1 := c1.store n b.p, w := w }

/-- The insert loop (basic_store.ipp 653-686), see `commitInserts`. -/
def commitInsertsP (c : Cfg) (kh : KeyHeader) (thresh : Nat) : List (Item × Nat) → Work → Prog Work
  | [], x => .ret x
  | (it, off) :: rest, x => do
    let x ← commitInsertP c kh thresh it off x
    commitInsertsP c kh thresh rest x

/-- First part of `commit` (basic_store.ipp 604-690), see `commitPrepare`. -/
def commitPrepareP (c : Cfg) (s : Store) : Prog Work := do
  let tmp ← lift (Bkt.ofMem s.kh.blockSize (c.fresh s.kh.blockSize))
  let ks ← .size .key .ret
  match s.ec with
  | some e => fail e
  | none => do
    let ds ← .size .dat .ret
    let lh := logHeaderOf c.H s.kh ks ds
    .append .log 0 (putLogHeader lh) (.ret ())
    .sync .log (.ret ())
    let size ← .size .dat .ret
    let (items, w) ← appendDataP s.p0 (Writer.new .dat size writeSize)
    let x ← commitInsertsP c s.kh s.thresh items
      { c0 := [], c1 := [], frac := s.frac, buckets := s.buckets, modulus := s.modulus,
        tmp := tmp, w := w }
    let w ← x.w.flushP
    .ret { x with w := w }

/-- The loop writing log records (basic_store.ipp 708-719), see `logRecords`. -/
def logRecordsP (bs : Nat) : List (Nat × Bytes) → Writer → Prog Writer
  | [], w => .ret w
  | (n, p) :: rest, w => do
    let b ← lift (Bkt.ofMem bs p)
    let body ← lift b.compact
    let w ← w.appendP (putU64 n ++ body)
    logRecordsP bs rest w

/-- Writing the original buckets to the log (basic_store.ipp 702-727), see `commitLog`. -/
def commitLogP (c : Cfg) (bs : Nat) (c0 : Cache) : Prog Unit := do
  let size ← .size .log .ret
  let w ← logRecordsP bs (c.order c0) (Writer.new .log size writeSize)
  let _ ← w.flushP
  .sync .log (.ret ())

/-- The loop writing buckets to the key file (basic_store.ipp 730-736), see `keyBlocks`. -/
def keyBlocksP (bs : Nat) : List (Nat × Bytes) → Prog Unit
  | [] => .ret ()
  | (n, p) :: rest => do
    let b ← lift (Bkt.ofMem bs p)
    b.writeFileP .key ((n + 1) * bs)
    keyBlocksP bs rest

/-- `commit` after the readers of the previous generation have left (basic_store.ipp
730-749). -/
def commitKeysP (c : Cfg) (bs : Nat) (c1 : Cache) : Prog Unit := do
  keyBlocksP bs (c.order c1)
  .sync .dat (.ret ())
  .sync .key (.ret ())
  .trunc .log 0 (.ret ())
  .sync .log (.ret ())

end NuDB
