import Verif.Model.Rekey
/-
impl/verify.ipp. The floating point statistics (avg_fetch, waste, overhead, actual_load)
are not modelled.
-/
namespace NuDB

/-- The counters of `verify_info` (verify.hpp) and the local `fetches`. -/
structure Info where
  algorithm : Nat := 0
  valueCount : Nat := 0
  valueBytes : Nat := 0
  keyCount : Nat := 0
  spillCount : Nat := 0
  spillCountTot : Nat := 0
  spillBytes : Nat := 0
  spillBytesTot : Nat := 0
  hist : List Nat := List.replicate 10 0
  fetches : Nat := 0
deriving DecidableEq, Repr

/-- `if(nspill >= hist.size()) nspill = hist.size() - 1; ++hist[nspill];`
(verify.ipp 246-248, 369-371). -/
def bumpHist (hist : List Nat) (nspill : Nat) : List Nat :=
  let i := if nspill ≥ hist.length then hist.length - 1 else nspill
  hist.set i (hist.getD i 0 + 1)

/-- The inner loop of both algorithms looking for an entry with the given offset
(verify.ipp 114-123, 422-431): found?, and the updated `fetches`. -/
def seekEntry (h offset : Nat) (b : Bkt) : Nat → Nat → Nat → Res (Bool × Nat)
  | 0, _, _ => .error .hang
  | fuel + 1, i, fetches =>
    if i < b.size then do
      let item ← b.get i
      if item.hash ≠ h then .ok (false, fetches)
      else if item.offset = offset then .ok (true, fetches)
      else seekEntry h offset b fuel (i + 1) (fetches + 1)
    else .ok (false, fetches)

/-- `error::short_read` is replaced by another error. -/
def shortAs (e : Err) (m : M α) : M α := do
  match ← M.attempt m with
  | .ok a => M.ret a
  | .error .short_read => M.fail e
  | .error e' => M.fail e'

/-- The search through bucket and overflow records (verify.ipp 112-139, 420-448).
Returns `fetches`. -/
def seekValue (h offset : Nat) : Nat → Bkt → Nat → M Nat
  | 0, _, _ => M.raise .hang
  | fuel + 1, b, fetches => do
    let i ← M.lift (b.lowerBound h)
    let (found, fetches) ← M.lift (seekEntry h offset b (b.size + 1) i fetches)
    if found then M.ret fetches
    else if b.spill = 0 then M.fail .orphaned_value
    else do
      let b ← shortAs .short_spill (b.readFile .dat b.spill)
      seekValue h offset fuel b (fetches + 1)

/-- One round of the first phase of `verify_normal` (verify.ipp 78-180). -/
def normalStep (c : Cfg) (kh : KeyHeader) (nwork : Nat) (b : Bkt) (r : Reader) (work : Nat)
    (info : Info) : M (Bkt × Reader × Nat × Info) := do
  let offset := r.pos
  let (is, r) ← r.prepare c 6
  let size ← M.lift (getSize48 is)
  if size > 0 then do
    let (is, r) ← r.prepare c (kh.keySize + size)
    let h := hashKey c.H kh.salt (is.take kh.keySize)
    let n ← M.lift (bucketIndexA h kh.buckets kh.modulus)
    let b ← b.readFile .key ((n + 1) * kh.blockSize)
    let work := work + kh.blockSize
    let fuel ← lookupFuel
    let fetches ← seekValue h offset fuel b (info.fetches + 1)
    emit (.progress (work + offset) nwork)
    M.ret (b, r, work, { info with fetches := fetches, valueCount := info.valueCount + 1,
                                    valueBytes := info.valueBytes + size })
  else do
    let (is, r) ← shortAs .short_spill (r.prepare c 2)
    if getU16 is ≠ bucketSize kh.capacity then M.fail .invalid_spill_size
    else do
      let (b, r) ← shortAs .short_spill (b.readBulk c r)
      emit (.progress (work + offset) nwork)
      M.ret (b, r, work, { info with spillCountTot := info.spillCountTot + 1,
                                     spillBytesTot := info.spillBytesTot + (6 + 2 + b.actualSize) })

/-- First phase of `verify_normal` (verify.ipp 66-182). -/
def normalScan (c : Cfg) (kh : KeyHeader) (nwork : Nat) :
    Nat → Bkt → Reader → Nat → Info → M (Bkt × Nat × Info)
  | 0, _, _, _, _ => M.raise .hang
  | fuel + 1, b, r, work, info =>
    if r.eof then M.ret (b, work, info)
    else do
      let (b, r, work, info) ← normalStep c kh nwork b r work info
      normalScan c kh nwork fuel b r work info

/-- `static_cast<std::uint64_t>(adjust * kh.block_size)` with `adjust = 1.75`
(verify.ipp 193, 211); exact for block sizes of 16 bits. -/
def adjusted (n : Nat) : Nat := 7 * n / 4

/-- The loop over the entries of one bucket in the second phase (verify.ipp 199-232). -/
def normalEntries (c : Cfg) (kh : KeyHeader) (b : Bkt) (spill : Bool) :
    Nat → Nat → Nat → M Nat
  | 0, _, _ => M.raise .hang
  | fuel + 1, i, work =>
    if i < b.size then do
      let e ← M.lift (b.get i)
      let pd ← shortAs .missing_value (fRead .dat e.offset (6 + kh.keySize))
      let work := if spill then work else work + adjusted kh.blockSize
      if getU48 (slice pd 0 6) ≠ e.size then M.fail .size_mismatch
      else if hashKey c.H kh.salt (slice pd 6 kh.keySize) ≠ e.hash then M.fail .hash_mismatch
      else normalEntries c kh b spill fuel (i + 1) work
    else M.ret work

/-- The loop over a bucket and its overflow records (verify.ipp 195-245). Returns the
last bucket, `work`, `nspill` and the counters. -/
def normalChain (c : Cfg) (kh : KeyHeader) :
    Nat → Bkt → Bool → Nat → Nat → Info → M (Bkt × Nat × Nat × Info)
  | 0, _, _, _, _, _ => M.raise .hang
  | fuel + 1, b, spill, work, nspill, info => do
    let info := { info with keyCount := info.keyCount + b.size }
    let work ← normalEntries c kh b spill (b.size + 1) 0 work
    if b.spill = 0 then M.ret (b, work, nspill, info)
    else do
      let b ← b.readFile .dat b.spill
      normalChain c kh fuel b true work (nspill + 1)
        { info with spillCount := info.spillCount + 1,
                    spillBytes := info.spillBytes + (6 + 2 + b.actualSize) }

/-- Second phase of `verify_normal` (verify.ipp 184-251): buckets `n, ..., n+k-1`. -/
def normalBuckets (c : Cfg) (kh : KeyHeader) (nwork : Nat) :
    Nat → Nat → Bkt → Nat → Info → M Info
  | 0, _, _, _, info => M.ret info
  | k + 1, n, b, work, info => do
    let b ← b.readFile .key ((n + 1) * kh.blockSize)
    let fuel ← lookupFuel
    let (b, work, nspill, info) ←
      normalChain c kh fuel b false (work + adjusted kh.blockSize) 0 info
    emit (.progress work nwork)
    normalBuckets c kh nwork k (n + 1) b work { info with hist := bumpHist info.hist nspill }

/-- `keys` of `verify_normal` (verify.ipp 58-59), computed exactly. -/
def normalKeys (kh : KeyHeader) : Nat := kh.loadFactor * kh.buckets * kh.capacity / 65536

/-- `nwork` of `verify_normal` (verify.ipp 60-62), computed exactly. -/
def normalWork (kh : KeyHeader) (datSize keySize : Nat) : Nat :=
  let keys := normalKeys kh
  datSize + keys * kh.blockSize + adjusted (keySize + keys * kh.blockSize)

/-- `verify_normal` (verify.ipp 27-276). The memory of the bucket is followed by that of
`pd`, whose content is not used while it belongs to an overlong bucket. -/
def verifyNormal (c : Cfg) (kh : KeyHeader) (datSize keySize : Nat) : M Info := do
  let nwork := normalWork kh datSize keySize
  emit (.progress 0 nwork)
  let b ← M.lift (Bkt.ofMem kh.blockSize (c.fresh (kh.blockSize + (6 + kh.keySize))))
  let r := Reader.new c .dat datHeaderSize datSize (1024 * kh.blockSize)
  let (b, work, info) ← normalScan c kh nwork (datSize + 1) b r 0 { algorithm := 0 }
  normalBuckets c kh nwork kh.buckets 0 b (work + datSize) info

/-- Counting the keys of one bucket with its overflow records (verify.ipp 347-368):
returns `tmp`, the number of keys and `nspill`. -/
def fastCount : Nat → Nat → Bkt → Nat → Nat → Info → M (Bkt × Nat × Nat × Info)
  | 0, _, _, _, _, _ => M.raise .hang
  | fuel + 1, spill, tmp, nkeys, nspill, info =>
    if spill ≠ 0 then do
      let tmp ← shortAs .short_spill (tmp.readFile .dat spill)
      fastCount fuel tmp.spill tmp (nkeys + tmp.size) (nspill + 1)
        { info with spillCount := info.spillCount + 1,
                    spillBytes := info.spillBytes + (6 + 2 + tmp.actualSize) }
    else M.ret (tmp, nkeys, nspill, info)

/-- The loop over the buckets of a chunk (verify.ipp 343-373): buckets `i, ..., i+k-1` of
the buffer `mem`. Returns `tmp` and `nkeys[]`. -/
def fastCounts (bs : Nat) (mem : Bytes) : Nat → Nat → Bkt → Info → M (Bkt × List Nat × Info)
  | 0, _, tmp, info => M.ret (tmp, [], info)
  | k + 1, i, tmp, info => do
    let b ← M.lift (Bkt.ofMem bs (slice mem (i * bs) bs))
    let fuel ← lookupFuel
    let (tmp, n, nspill, info) ← fastCount fuel b.spill tmp b.size 0 info
    let (tmp, l, info) ← fastCounts bs mem k (i + 1) tmp
      { info with hist := bumpHist info.hist nspill, keyCount := info.keyCount + n }
    M.ret (tmp, n :: l, info)

/-- The search of `verify_fast` (verify.ipp 417-448). The first bucket is in the chunk
buffer. Later ones are read by a copy of `tmp` (`b = tmp`) into the memory of `tmp`; the
cached count and link of `tmp` itself do not change. -/
def seekValueFast (h offset : Nat) : Nat → Bkt → Bkt → Nat → M (Nat × Bkt)
  | 0, _, _, _ => M.raise .hang
  | fuel + 1, b, tmp, fetches => do
    let i ← M.lift (b.lowerBound h)
    let (found, fetches) ← M.lift (seekEntry h offset b (b.size + 1) i fetches)
    if found then M.ret (fetches, tmp)
    else if b.spill = 0 then M.fail .orphaned_value
    else do
      let b ← shortAs .short_spill (Bkt.readFile tmp .dat b.spill)
      seekValueFast h offset fuel b { tmp with p := b.p } (fetches + 1)

/-- One round of the scan of `verify_fast` (verify.ipp 377-496). `mem` is the buffer for
`chunkSize` blocks. It is followed by the block of `tmp`, and the code does not prevent a
bucket with an excessive count from extending over the blocks behind it. -/
def fastStep (c : Cfg) (kh : KeyHeader) (b0 b1 work nwork : Nat) (mem : Bytes) (tmp : Bkt)
    (nkeys : List Nat) (r : Reader) (info : Info) : M (Bkt × List Nat × Reader × Info) := do
  let offset := r.pos
  let (is, r) ← shortAs .short_data_record (r.prepare c 6)
  let size ← M.lift (getSize48 is)
  if size > 0 then do
    let (is, r) ← shortAs .short_value (r.prepare c (kh.keySize + size))
    let h := hashKey c.H kh.salt (is.take kh.keySize)
    let n ← M.lift (bucketIndexA h kh.buckets kh.modulus)
    if n < b0 ∨ n ≥ b1 then M.ret (tmp, nkeys, r, info)
    else do
      let b ← M.lift (Bkt.ofMem kh.blockSize (mem.drop ((n - b0) * kh.blockSize) ++ tmp.p))
      let fuel ← lookupFuel
      let (fetches, tmp) ← seekValueFast h offset fuel b tmp (info.fetches + 1)
      let info := { info with fetches := fetches, valueCount := info.valueCount + 1,
                              valueBytes := info.valueBytes + size }
      let k := nkeys.getD (n - b0) 0
      if k = 0 then M.fail .orphaned_value
      else do
        emit (.progress (work + offset) nwork)
        M.ret (tmp, nkeys.set (n - b0) (k - 1), r, info)
  else do
    let (is, r) ← shortAs .short_spill (r.prepare c 2)
    let size := getU16 is
    if bucketSize (bucketCapacity size) ≠ size then M.fail .invalid_spill_size
    else do
      let (_, r) ← shortAs .short_spill (r.prepare c size)
      let info := if b0 = 0 then
          { info with spillCountTot := info.spillCountTot + 1,
                      spillBytesTot := info.spillBytesTot + (6 + 2 + tmp.actualSize) }
        else info
      emit (.progress (work + offset) nwork)
      M.ret (tmp, nkeys, r, info)

/-- The scan of the data file (verify.ipp 374-496). -/
def fastScan (c : Cfg) (kh : KeyHeader) (b0 b1 work nwork : Nat) (mem : Bytes) :
    Nat → Bkt → List Nat → Reader → Info → M (Bkt × List Nat × Info)
  | 0, _, _, _, _ => M.raise .hang
  | fuel + 1, tmp, nkeys, r, info =>
    if r.eof then M.ret (tmp, nkeys, info)
    else do
      let (tmp, nkeys, r, info) ← fastStep c kh b0 b1 work nwork mem tmp nkeys r info
      fastScan c kh b0 b1 work nwork mem fuel tmp nkeys r info

/-- The loop over the chunks (verify.ipp 327-507). `mem` are the first `chunkSize` blocks
of `buf`. -/
def fastChunks (c : Cfg) (kh : KeyHeader) (datSize chunk nwork : Nat) :
    Nat → Nat → Nat → Bytes → Bkt → Info → M Info
  | 0, _, _, _, _, _ => M.raise .hang
  | fuel + 1, b0, work, mem, tmp, info =>
    if b0 < kh.buckets then do
      let b1 := min (b0 + chunk) kh.buckets
      let bn := b1 - b0
      let data ← fRead .key ((b0 + 1) * kh.blockSize) (bn * kh.blockSize)
      let mem ← M.lift (poke mem 0 data)
      let work := work + bn * kh.blockSize
      emit (.progress work nwork)
      let (tmp, nkeys, info) ← fastCounts kh.blockSize mem bn 0 tmp info
      let r := Reader.new c .dat datHeaderSize datSize (1024 * kh.blockSize)
      let (tmp, nkeys, info) ← fastScan c kh b0 b1 work nwork mem (datSize + 1) tmp nkeys r info
      if nkeys.any (· ≠ 0) then M.fail .missing_value
      else fastChunks c kh datSize chunk nwork fuel (b0 + chunk) (work + datSize) mem tmp info
    else M.ret info

/-- Number of buckets per chunk (verify.ipp 309-313, 601-607); `sizeof(nkey_t)` is 8. -/
def fastChunk (kh : KeyHeader) (bufferSize : Nat) : Nat :=
  if bufferSize ≥ 2 * kh.blockSize + 8 then
    min kh.buckets ((bufferSize - kh.blockSize) / (kh.blockSize + 8))
  else 0

/-- `passes` (verify.ipp 314-315, 608-612). -/
def fastPasses (kh : KeyHeader) (chunk : Nat) : Nat :=
  if chunk > 0 then (kh.buckets + chunk - 1) / chunk else 0

/-- `verify_fast` (verify.ipp 278-533). -/
def verifyFast (c : Cfg) (kh : KeyHeader) (datSize keySize bufferSize : Nat) : M Info := do
  if bufferSize < 2 * kh.blockSize + 8 then M.raise .throw
  else do
    let chunk := fastChunk kh bufferSize
    let nwork := fastPasses kh chunk * datSize + keySize
    emit (.progress 0 nwork)
    let buf := c.fresh ((chunk + 1) * kh.blockSize)
    let tmp ← M.lift (Bkt.ofMem kh.blockSize (buf.drop (chunk * kh.blockSize)))
    fastChunks c kh datSize chunk nwork (kh.buckets + 1) 0 0 (buf.take (chunk * kh.blockSize)) tmp { algorithm := 1 }

/-- Choice of the algorithm (verify.ipp 599-620): true for `verify_normal`. The numbers
are of 64 bits. -/
def chooseNormal (kh : KeyHeader) (datSize keySize bufferSize : Nat) : Bool :=
  let chunk := fastChunk kh bufferSize
  chunk = 0 ||
    (datSize + kh.buckets * kh.loadFactor * kh.capacity * kh.blockSize + keySize) % 2 ^ 64 <
      (fastPasses kh chunk * datSize + keySize) % 2 ^ 64

/-- `verify` (verify.ipp 537-630): the counters, or an error. -/
def verify (c : Cfg) (bufferSize : Nat) : M Info := do
  fOpen .dat
  fOpen .key
  let dh ← readDatHeader
  M.check (verifyDat dh)
  let kh ← readKeyHeader
  M.check (verifyKey c.H kh)
  M.check (verifyDatKey c.H dh kh)
  let keySize ← fSize .key
  let datSize ← fSize .dat
  if chooseNormal kh datSize keySize bufferSize then verifyNormal c kh datSize keySize
  else verifyFast c kh datSize keySize bufferSize

end NuDB
