import Verif.Model.Store
/-
impl/visit.ipp and impl/rekey.ipp.
-/
namespace NuDB

/-- One round of the loop of `visit` (visit.ipp 56-91). The error of the second
`prepare` is not tested: on failure the stream is empty and `is.data` throws
(stream.hpp 54-69). `cb` is the error set by the user callback; it may depend on
everything reported so far. -/
def visitStep (c : Cfg) (keySize fileSize : Nat) (cb : List Event → Option Err) (r : Reader) :
    M Reader := do
  let (is, r) ← r.prepare c 6
  let size ← M.lift (getSize48 is)
  let r ← if size > 0 then do
      match ← M.attempt (r.prepare c (keySize + size)) with
      | .error _ => M.raise .throw
      | .ok (is, r) => do
        emit (.item (is.take keySize) (is.drop keySize))
        match cb (← history) with
        | some e => M.fail e
        | none => M.ret r
    else do
      let (is, r) ← r.prepare c 2
      let (_, r) ← r.prepare c (getU16 is)
      M.ret r
  emit (.progress r.pos fileSize)
  M.ret r

/-- The loop of `visit` (visit.ipp 56-91); every round consumes at least 6 bytes. -/
def visitLoop (c : Cfg) (keySize fileSize : Nat) (cb : List Event → Option Err) :
    Nat → Reader → M Unit
  | 0, _ => M.raise .hang
  | fuel + 1, r => do
    if r.eof then M.ret ()
    else do
      let r ← visitStep c keySize fileSize cb r
      visitLoop c keySize fileSize cb fuel r

/-- `visit` (visit.ipp 23-92). `block_size(path)` is 4096 (file.hpp). -/
def visit (c : Cfg) (cb : List Event → Option Err) : M Unit := do
  fOpen .dat
  let dh ← readDatHeader
  M.check (verifyDat dh)
  let fileSize ← fSize .dat
  let r := Reader.new c .dat datHeaderSize fileSize (1024 * 4096)
  emit (.progress 0 fileSize)
  visitLoop c dh.keySize fileSize cb (fileSize + 1) r

/-- Arguments of `rekey`. `buckets` stands for the result of the floating point
computation `ceil(itemCount / (capacity * loadFactor))` (rekey.ipp 86-88) and `salt`
for the result of `make_salt()`. -/
structure RekeyArgs where
  blockSize : Nat
  load : Load
  buckets : Nat
  salt : Nat
  bufferSize : Nat

/-- The key file header built by `rekey` (rekey.ipp 76-89). `capacity` is not set. -/
def rekeyHeader (H : Hasher) (dh : DatHeader) (a : RekeyArgs) (lf : Nat) : KeyHeader :=
  { type := keyType, version := currentVersion, uid := dh.uid, appnum := dh.appnum,
    keySize := dh.keySize, salt := a.salt, pepper := pepper H a.salt,
    blockSize := a.blockSize, loadFactor := lf, capacity := 0,
    buckets := a.buckets, modulus := ceilPow2 a.buckets }

/-- One round of the scan of the data file (rekey.ipp 184-231). `buf` holds the blobs of
the buckets `b0 ... b1-1`. -/
def rekeyStep (c : Cfg) (kh : KeyHeader) (b0 b1 pre nwork : Nat)
    (buf : List Bytes) (dw : Writer) (r : Reader) : M (List Bytes × Writer × Reader) := do
  let offset := r.pos
  let (is, r) ← r.prepare c 6
  emit (.progress (pre + r.pos) nwork)
  let size ← M.lift (getSize48 is)
  if size > 0 then do
    let (is, r) ← r.prepare c (kh.keySize + size)
    let h := hashKey c.H kh.salt (is.take kh.keySize)
    let n ← M.lift (bucketIndexA h kh.buckets kh.modulus)
    if n < b0 ∨ n ≥ b1 then M.ret (buf, dw, r)
    else
      match buf[n - b0]? with
      | none => M.raise .ub
      | some p => do
        let b ← M.lift (Bkt.ofMem kh.blockSize p)
        let (b, dw) ← maybeSpill b dw
        let b ← M.lift (b.insert offset size h)
        M.ret (buf.set (n - b0) b.p, dw, r)
  else do
    let (is, r) ← r.prepare c 2
    let (_, r) ← r.prepare c (getU16 is)
    M.ret (buf, dw, r)

/-- The scan of the data file (rekey.ipp 184-231). -/
def rekeyScan (c : Cfg) (kh : KeyHeader) (b0 b1 pre nwork : Nat) :
    Nat → List Bytes → Writer → Reader → M (List Bytes × Writer)
  | 0, _, _, _ => M.raise .hang
  | fuel + 1, buf, dw, r =>
    if r.eof then M.ret (buf, dw)
    else do
      let (buf, dw, r) ← rekeyStep c kh b0 b1 pre nwork buf dw r
      rekeyScan c kh b0 b1 pre nwork fuel buf dw r

/-- `n` empty buckets (rekey.ipp 177-179). -/
def emptyBuckets (c : Cfg) (bs : Nat) : Nat → Res (List Bytes)
  | 0 => .ok []
  | n + 1 => do
    let b ← Bkt.ofEmpty bs (c.fresh bs)
    let l ← emptyBuckets c bs n
    return b.p :: l

/-- The loop over the chunks (rekey.ipp 171-236). -/
def rekeyChunks (c : Cfg) (kh : KeyHeader) (dataFileSize chunk nwork : Nat) :
    Nat → Nat → Writer → M Writer
  | 0, _, _ => M.raise .hang
  | fuel + 1, b0, dw =>
    if b0 < kh.buckets then do
      let b1 := min (b0 + chunk) kh.buckets
      let buf ← M.lift (emptyBuckets c kh.blockSize (b1 - b0))
      let r := Reader.new c .dat datHeaderSize dataFileSize (1024 * 4096)
      let (buf, dw) ← rekeyScan c kh b0 b1 ((b0 / chunk) * dataFileSize) nwork
        (dataFileSize + 1) buf dw r
      fWrite .key ((b0 + 1) * kh.blockSize) buf.flatten
      rekeyChunks c kh dataFileSize chunk nwork fuel (b0 + chunk) dw
    else M.ret dw

/-- `rekey` from the creation of the key file (rekey.ipp 91-131): files and log header. -/
def rekeyPrepare (c : Cfg) (kh : KeyHeader) (dataFileSize : Nat) : M Unit := do
  fCreate .key
  M.lift (assert (kh.blockSize ≤ 0xffff))
  fWrite .key 0 (putKeyHeader kh)
  fSync .key
  fCreate .log
  let lh : LogHeader :=
    { type := logType, version := currentVersion, uid := kh.uid, appnum := kh.appnum,
      keySize := kh.keySize, salt := kh.salt, pepper := pepper c.H kh.salt,
      blockSize := kh.blockSize, keyFileSize := 0, datFileSize := dataFileSize }
  fAppend .log 0 (putLogHeader lh)
  fSync .log

/-- The header and the pre-allocated space of the key file (rekey.ipp 133-156). If a block is
smaller than the header then the header is written over the end of the buffer. -/
def rekeyAlloc (kh : KeyHeader) : M Unit := do
  let blk ← M.lift (keyHeaderBlock kh)
  fWrite .key 0 blk
  fSync .key
  fWrite .key ((kh.buckets + 1) * kh.blockSize - 1) [0]
  fSync .key

/-- `rekey` (rekey.ipp 20-244). -/
def rekey (c : Cfg) (a : RekeyArgs) : M Unit := do
  fOpen .dat
  let dh ← readDatHeader
  M.check (verifyDat dh)
  let dataFileSize ← fSize .dat
  match ← M.attempt (fOpen .log) with
  | .ok _ => M.fail .log_file_exists
  | .error .no_such_file => do
    let lf ← M.lift a.load.fixed
    let kh := rekeyHeader c.H dh a lf
    rekeyPrepare c kh dataFileSize
    rekeyAlloc kh
    let chunk := max 1 (a.bufferSize / kh.blockSize)
    let passes := (kh.buckets + chunk - 1) / chunk
    let nwork := passes * dataFileSize
    emit (.progress 0 nwork)
    let dw ← rekeyChunks c kh dataFileSize chunk nwork (kh.buckets + 1) 0
      (Writer.new .dat dataFileSize (16 * 4096))
    let _ ← dw.flush
    fErase .log
  | .error e => M.fail e

end NuDB
