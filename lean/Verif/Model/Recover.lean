import Verif.Model.Pool
/-
impl/create.ipp and impl/recover.ipp.
-/
namespace NuDB

/-- `read(File&, dat_file_header&)` (format.hpp 279-290). -/
def readDatHeader : M DatHeader := do
  let b ← fRead .dat 0 datHeaderSize
  M.ret (getDatHeader b)

/-- `read(File&, key_file_header&)` (format.hpp 354-369). -/
def readKeyHeader : M KeyHeader := do
  let b ← fRead .key 0 keyHeaderSize
  let size ← fSize .key
  M.ret (getKeyHeader b size)

/-- `read(File&, log_file_header&)` (format.hpp 425-436). -/
def readLogHeader : M LogHeader := do
  let b ← fRead .log 0 logHeaderSize
  M.ret (getLogHeader b)

/-- Outcome of one round of the record loop of `recover`. -/
inductive LogStep
  | done            -- end of log or incomplete record
  | next (b : Bkt) (r : Reader)

/-- The end of a round of `while(! r.eof())` (recover.ipp 157-168): check the record and
write the bucket to the key file. The bucket is returned as it is in memory afterwards, where
`write(File&)` (bucket.hpp 408-423) has stored the padding. -/
def recoverWrite (kh : KeyHeader) (dataFileSize n : Nat) (b : Bkt) : M Bkt := do
  if b.spill ≠ 0 ∧ b.spill + bucketSize kh.capacity > dataFileSize then M.fail .invalid_log_spill
  else if n > kh.buckets then M.fail .invalid_log_index
  else do
    let p ← M.lift b.padded
    fWrite .key ((n + 1) * kh.blockSize) p
    M.ret { b with p := p }

/-- One round of `while(! r.eof())` (recover.ipp 130-169). After `b.read(r, ec)` the
code only tests for `short_read`. After any other error (a failing file read) it goes on
with the bucket as it is at that moment, writes it to the key file, and only then notices
the error. -/
def recoverStep (c : Cfg) (kh : KeyHeader) (dataFileSize : Nat) (b : Bkt) (r : Reader) :
    M LogStep := do
  if r.eof then M.ret .done
  else
    match ← M.attempt (r.prepare c 8) with
    | .error .short_read => M.ret .done
    | .error e => M.fail e
    | .ok (is, r) =>
      let n := getU64 is
      M.lift (assert (n ≤ 0xffffffff))
      match ← M.attempt (b.readHead c r) with
      | .error .short_read => M.ret .done
      | .error e => do
        let _ ← recoverWrite kh dataFileSize n b
        M.fail e
      | .ok (b, r) =>
        match ← M.attempt (b.readBody c r) with
        | .error .short_read => M.ret .done
        | .error e => do
          let _ ← recoverWrite kh dataFileSize n b
          M.fail e
        | .ok (b, r) => do
          let b ← recoverWrite kh dataFileSize n b
          M.ret (.next b r)

/-- The record loop (recover.ipp 130-169). Every round consumes at least 16 bytes of
log, so `fuel` = size of the log suffices. -/
def recoverLoop (c : Cfg) (kh : KeyHeader) (dataFileSize : Nat) :
    Nat → Bkt → Reader → M Unit
  | 0, _, _ => M.raise .hang
  | fuel + 1, b, r => do
    match ← recoverStep c kh dataFileSize b r with
    | .done => M.ret ()
    | .next b r => recoverLoop c kh dataFileSize fuel b r

/-- `clear_log:` (recover.ipp 194-204). -/
def clearLog : M Unit := do
  fTrunc .log 0
  fSync .log
  fErase .log

/-- `trunc_files:` and following (recover.ipp 171-204). -/
def truncFiles (lh : LogHeader) : M Unit := do
  fTrunc .dat lh.datFileSize
  fSync .dat
  if lh.keyFileSize ≠ 0 then do
    fTrunc .key lh.keyFileSize
    fSync .key
  else
    fErase .key
  clearLog

/-- The block of `recover` that replays the log (recover.ipp 108-170). -/
def replayLog (c : Cfg) (dh : DatHeader) (lh : LogHeader) (dataFileSize logFileSize : Nat) :
    M Unit := do
  let kh ← readKeyHeader
  M.check (verifyKey c.H kh)
  M.check (verifyDatKey c.H dh kh)
  M.check (verifyKeyLog c.H kh lh)
  let b ← M.lift (Bkt.ofMem kh.blockSize (c.fresh kh.blockSize))
  let r := Reader.new c .log logHeaderSize logFileSize (1024 * kh.blockSize)
  recoverLoop c kh dataFileSize (logFileSize + 1) b r

/-- `recover` (recover.ipp 24-205). -/
def recover (c : Cfg) : M Unit := do
  fOpen .dat
  let dataFileSize ← fSize .dat
  let dh ← readDatHeader
  M.check (verifyDat dh)
  fOpen .key
  let keyFileSize ← fSize .key
  if keyFileSize ≤ keyHeaderSize then
    eraseFile .log
    fErase .key
    M.fail .no_key_file
  else
    match ← M.attempt (fOpen .log) with
    | .error .no_such_file => M.ret ()
    | .error e => M.fail e
    | .ok _ =>
      let logFileSize ← fSize .log
      match ← M.attempt readLogHeader with
      | .error .short_read => clearLog
      | .error e => M.fail e
      | .ok lh =>
        M.check (verifyLog c.H lh)
        if lh.keyFileSize = 0 then truncFiles lh
        else do
          replayLog c dh lh dataFileSize logFileSize
          truncFiles lh

/-- A `float` argument. Every finite float is a rational number `num / den`, and
multiplying it by 65536 is exact (or overflows to infinity). -/
inductive Load
  | nan
  | inf
  | rat (num : Int) (den : Nat)
deriving DecidableEq

/-- `load_factor <= 0.f || load_factor >= 1.f` (create.ipp 76); false for NaN. -/
def Load.bad : Load → Bool
  | .nan => false
  | .inf => true
  | .rat num den => num ≤ 0 || num ≥ den

/-- `min<size_t>(static_cast<size_t>(65536.0f * load_factor), 65535)` (create.ipp
121-123, rekey.ipp 84-85). Converting NaN, infinity, a number below or equal to -1 or one
of 2^64 or more to `size_t` is undefined behaviour. -/
def Load.fixed : Load → Res Nat
  | .nan => .error .ub
  | .inf => .error .ub
  | .rat num den =>
    if 65536 * num ≤ -den ∨ 65536 * num ≥ den * 2 ^ 64 then .error .ub
    else .ok (min (65536 * num.toNat / den) 65535)

/-- The arguments of `create`. -/
structure CreateArgs where
  appnum : Nat
  uid : Nat
  salt : Nat
  keySize : Nat
  blockSize : Nat
  load : Load

/-- data file header written by `create` (create.ipp 107-111) -/
def CreateArgs.dh (a : CreateArgs) : DatHeader :=
  { type := datType, version := currentVersion, uid := a.uid, appnum := a.appnum,
    keySize := a.keySize }

/-- key file header written by `create` (create.ipp 113-123); the computed members are
not written. -/
def CreateArgs.kh (H : Hasher) (a : CreateArgs) (lf : Nat) : KeyHeader :=
  { type := keyType, version := currentVersion, uid := a.uid, appnum := a.appnum,
    keySize := a.keySize, salt := a.salt, pepper := pepper H a.salt,
    blockSize := a.blockSize, loadFactor := lf, capacity := 0, buckets := 0, modulus := 0 }

/-- `write(File&, key_file_header)` (format.hpp 389-406): header padded to a block. -/
def keyHeaderBlock (kh : KeyHeader) : Res Bytes := poke (zeros kh.blockSize) 0 (putKeyHeader kh)

/-- The part of `create` between the creation of the three files and `return`
(create.ipp 107-147). `asserts` tells whether `BOOST_ASSERT` is active: without it the
key size is silently truncated to 16 bits. -/
def createBody (c : Cfg) (asserts : Bool) (a : CreateArgs) : M Unit := do
  let lf ← M.lift a.load.fixed
  let kh := a.kh c.H lf
  M.lift (assert (!asserts || a.keySize ≤ 0xffff))
  fAppend .dat 0 (putDatHeader a.dh)
  if kh.blockSize < keyHeaderSize then M.fail .invalid_block_size
  let blk ← M.lift (keyHeaderBlock kh)
  fAppend .key 0 blk
  let b ← M.lift (Bkt.ofEmpty a.blockSize (zeros a.blockSize))
  let blk ← M.lift b.padded
  fAppend .key a.blockSize blk
  fSync .dat
  fSync .key
  fSync .log

/-- `erase_file(path)` (native_file.hpp 65-72): errors are ignored. -/
def eraseQuiet (p : Path) : M Unit := do
  let _ ← M.attempt (fErase p)
  M.ret ()

/-- `create` (create.ipp 43-156). -/
def create (c : Cfg) (asserts : Bool) (a : CreateArgs) : M Unit := do
  if a.keySize < 1 then M.fail .invalid_key_size
  else if a.blockSize > 0xffff then M.fail .invalid_block_size
  else if a.load.bad then M.fail .invalid_load_factor
  else if bucketCapacity a.blockSize < 1 then M.fail .invalid_block_size
  else
    match ← M.attempt (fCreate .dat) with
    | .error e => M.fail e
    | .ok _ =>
      match ← M.attempt (fCreate .key) with
      | .error e => do eraseQuiet .dat; M.fail e
      | .ok _ =>
        match ← M.attempt (fCreate .log) with
        | .error e => do eraseQuiet .dat; eraseQuiet .key; M.fail e
        | .ok _ =>
          match ← M.attempt (createBody c asserts a) with
          | .error e => do eraseQuiet .dat; eraseQuiet .key; eraseQuiet .log; M.fail e
          | .ok _ => M.ret ()

end NuDB
