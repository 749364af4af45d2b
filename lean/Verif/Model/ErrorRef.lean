import Verif.Model.Store
import Verif.Model.Rekey
import Verif.Model.Verify
/-
The parameter `error_code& ec`, which functions set when they fail, leave alone when they succeed, and test after every
operation. In the rest of the model `ec` is clear when a function is called, and an error is an exceptional outcome.
-/
namespace NuDB

/-- A function with a parameter `error_code& ec`: from the content of `ec` before the call to its result and the content
afterwards. `none` is success in `ec`; as a result it stands for a `return` in the middle of the function. -/
def EcM (α : Type) := Option Err → M (Option α × Option Err)

namespace EcM

/-- the end of the function -/
def ret (a : α) : EcM α := fun ec => M.ret (some a, ec)

/-- the next statement, unless there was a `return` -/
def bind (f : EcM α) (k : α → EcM β) : EcM β := fun ec => do
  match ← f ec with
  | (some a, ec) => k a ec
  | (none, ec) => M.ret (none, ec)

instance : Monad EcM where
  pure := ret
  bind := bind

/-- `ec = e; return;` -/
def fail (e : Err) : EcM α := fun _ => M.ret (none, some e)

/-- Code without `ec`. -/
def lift (m : M α) : EcM α := fun ec => do
  match ← M.attempt m with
  | .ok a => M.ret (some a, ec)
  | .error e => M.ret (none, some e)

/-- `f(…, ec); if(ec) return;` where `f` is a member function of a file, as in posix_file.ipp 56-199: `ec` is set if the
operation fails and left alone otherwise. -/
def op (m : M α) : EcM α := fun ec => do
  match ← M.attempt m with
  | .ok a => if ec.isSome then M.ret (none, ec) else M.ret (some a, ec)
  | .error e => M.ret (none, some e)

/-- `f(…, ec); if(ec) return;` where `f` is a function of the library. -/
def call (f : EcM α) : EcM α := fun ec => do
  let (a, ec) ← f ec
  if ec.isSome then M.ret (none, ec) else M.ret (a, ec)

end EcM

/-- `bucket_t::read(File&, noff_t)` (bucket.hpp 346-365). -/
def Bkt.readFileE (b : Bkt) (p : Path) (off : Nat) : EcM Bkt := do
  let cap := bucketCapacity b.bs
  let data ← EcM.op (fRead p off (bucketSize cap))
  let mem ← EcM.lift (M.lift (poke b.p 0 data))
  let b ← EcM.lift (M.lift (Bkt.ofMem b.bs mem))
  if b.size > cap then EcM.fail .invalid_bucket_size
  else EcM.ret b

/-- Inner loop of `fetch` (basic_store.ipp 374-396). -/
def fetchScanE (keySize h : Nat) (key : Bytes) (b : Bkt) : Nat → Nat → EcM (Option Bytes)
  | 0, _ => EcM.lift (M.raise .hang)
  | fuel + 1, i =>
    if i < b.size then do
      let item ← EcM.lift (M.lift (b.get i))
      if item.hash ≠ h then EcM.ret none
      else do
        let buf ← EcM.op (fRead .dat (item.offset + 6) (keySize + item.size))
        if buf.take keySize = key then EcM.ret (some (buf.drop keySize))
        else fetchScanE keySize h key b fuel (i + 1)
    else EcM.ret none

/-- `fetch(h, key, b, callback, ec)` (basic_store.ipp 356-408). The result is the value given to the callback, if it is
called. -/
def fetchBucketE (c : Cfg) (kh : KeyHeader) (h : Nat) (key : Bytes) : Nat → Bkt → EcM Bytes
  | 0, _ => EcM.lift (M.raise .hang)
  | fuel + 1, b => do
    let i ← EcM.lift (M.lift (b.lowerBound h))
    match ← fetchScanE kh.keySize h key b (b.size + 1) i with
    | some v => EcM.ret v
    | none =>
      if b.spill = 0 then EcM.fail .key_not_found
      else do
        let nb ← EcM.lift (M.lift (Bkt.ofMem kh.blockSize (c.fresh kh.blockSize)))
        let nb ← EcM.call (nb.readFileE .dat b.spill)
        fetchBucketE c kh h key fuel nb

/-- `fetch` (basic_store.ipp 220-264). -/
def fetchE (c : Cfg) (s : Store) (key : Bytes) : EcM Bytes :=
  match s.ec with
  | some e => EcM.fail e
  | none =>
    let h := hashKey c.H s.kh.salt key
    match s.p1.find key with
    | some it => EcM.ret it.data
    | none =>
    match s.p0.find key with
    | some it => EcM.ret it.data
    | none => do
      let n ← EcM.lift (M.lift (bucketIndexA h s.buckets s.modulus))
      let fuel ← EcM.lift lookupFuel
      match s.c1.find n with
      | some p => do
        let b ← EcM.lift (M.lift (Bkt.ofMem s.kh.blockSize p))
        fetchBucketE c s.kh h key fuel b
      | none => do
        let b ← EcM.lift (M.lift (Bkt.ofMem s.kh.blockSize (c.fresh s.kh.blockSize)))
        let b ← EcM.call (b.readFileE .key ((n + 1) * s.kh.blockSize))
        fetchBucketE c s.kh h key fuel b

/-- Inner loop of `exists` (basic_store.ipp 429-442). -/
def existsScanE (keySize h : Nat) (key : Bytes) (b : Bkt) : Nat → Nat → EcM Bool
  | 0, _ => EcM.lift (M.raise .hang)
  | fuel + 1, i =>
    if i < b.size then do
      let item ← EcM.lift (M.lift (b.get i))
      if item.hash ≠ h then EcM.ret false
      else do
        let pk ← EcM.op (fRead .dat (item.offset + 6) keySize)
        if pk = key then EcM.ret true
        else existsScanE keySize h key b fuel (i + 1)
    else EcM.ret false

/-- `exists` (basic_store.ipp 410-454); `return false` after an error is no result here, as the caller does not use it. -/
def existsBucketE (c : Cfg) (kh : KeyHeader) (h : Nat) (key : Bytes) : Nat → Bkt → EcM Bool
  | 0, _ => EcM.lift (M.raise .hang)
  | fuel + 1, b => do
    let i ← EcM.lift (M.lift (b.lowerBound h))
    if ← existsScanE kh.keySize h key b (b.size + 1) i then EcM.ret true
    else if b.spill = 0 then EcM.ret false
    else do
      let nb ← EcM.lift (M.lift (Bkt.ofMem kh.blockSize (c.fresh kh.blockSize)))
      let nb ← EcM.call (nb.readFileE .dat b.spill)
      existsBucketE c kh h key fuel nb

/-- `exists` in the bucket `n`, from the cache or from the key file (basic_store.ipp 297-330). -/
def insertExistsE (c : Cfg) (s : Store) (h n fuel : Nat) (key : Bytes) : EcM Bool :=
  match s.c1.find n with
  | some p => do
    let b ← EcM.lift (M.lift (Bkt.ofMem s.kh.blockSize p))
    EcM.call (existsBucketE c s.kh h key fuel b)
  | none => do
    let b ← EcM.lift (M.lift (Bkt.ofMem s.kh.blockSize (c.fresh s.kh.blockSize)))
    let b ← EcM.call (b.readFileE .key ((n + 1) * s.kh.blockSize))
    EcM.call (existsBucketE c s.kh h key fuel b)

/-- The presence test of `insert` (basic_store.ipp 289-333). -/
def insertCheckE (c : Cfg) (s : Store) (h : Nat) (key : Bytes) : EcM Unit :=
  if (s.p1.find key).isSome || (s.p0.find key).isSome then EcM.fail .key_exists
  else do
    let n ← EcM.lift (M.lift (bucketIndexA h s.buckets s.modulus))
    let fuel ← EcM.lift lookupFuel
    let found ← insertExistsE c s h n fuel key
    if found then EcM.fail .key_exists else EcM.ret ()

/-- `insert` (basic_store.ipp 266-354) without the throttling at its end. The result is the store with the new item; no
result means that nothing was inserted. -/
def insertE (c : Cfg) (s : Store) (key data : Bytes) : EcM Store :=
  match s.ec with
  | some e => EcM.fail e
  | none => do
    EcM.lift (M.lift (assert (data.length > 0)))
    EcM.lift (M.lift (assert (data.length ≤ 0xffffffff)))
    let h := hashKey c.H s.kh.salt key
    insertCheckE c s h key
    let p1 ← EcM.lift (M.lift (s.p1.insert ⟨h, key, data⟩))
    EcM.ret { s with p1 := p1 }

/-- `recover` after its first two statements (recover.ipp 44-46: `df.open(…, ec); if(ec) return;`), with a clear `ec`. -/
def recoverTail (c : Cfg) : M Unit := do
  let dataFileSize ← fSize .dat
  let dh ← readDatHeader
  M.check (verifyDat dh)
  fOpen .key
  let keyFileSize ← fSize .key
  if keyFileSize ≤ keyHeaderSize then
    eraseFile .log
    fErase .key
    M.fail .no_key_file
  else
    match ← M.attempt (fOpen .log) with
    | .error .no_such_file => M.ret ()
    | .error e => M.fail e
    | .ok _ =>
      let logFileSize ← fSize .log
      match ← M.attempt readLogHeader with
      | .error .short_read => clearLog
      | .error e => M.fail e
      | .ok lh =>
        M.check (verifyLog c.H lh)
        if lh.keyFileSize = 0 then truncFiles lh
        else do
          replayLog c dh lh dataFileSize logFileSize
          truncFiles lh

/-- `open` (basic_store.ipp 117-188) after these statements, with a clear `ec`. -/
def openTail (c : Cfg) : M Store := do
  recoverTail c
  fOpen .dat
  fOpen .key
  fCreate .log
  let dh ← readDatHeader
  M.check (verifyDat dh)
  let kh ← readKeyHeader
  M.check (verifyKey c.H kh)
  M.check (verifyDatKey c.H dh kh)
  let thresh := max 65536 (kh.loadFactor * kh.capacity)
  if kh.buckets < 1 then M.fail .short_key_file
  else M.ret { kh := kh, p0 := [], p1 := [], c1 := [], frac := thresh / 2, thresh := thresh,
               buckets := kh.buckets, modulus := ceilPow2 kh.buckets, ec := none }

/-- `open` (basic_store.ipp 117-188, recover.ipp 24-205). Simplified: behind the first test of `ec`, which it passes only
if `ec` is clear, everything is as in `openStore`. -/
def openE (c : Cfg) : EcM Store := do
  EcM.op (fOpen .dat)
  EcM.lift (openTail c)

/-- `close` (basic_store.ipp 190-218) works with `ec_` and assigns `ec` only if there is an error. -/
def closeE (c : Cfg) (s : Store) : EcM Unit := do
  match ← EcM.lift (close c s) with
  | some e => EcM.fail e
  | none => EcM.ret ()

/-- `create` after its first file was made (create.ipp 98-155), with a clear `ec`. -/
def createTail (c : Cfg) (asserts : Bool) (a : CreateArgs) : M Unit := do
  match ← M.attempt (fCreate .key) with
  | .error e => do eraseQuiet .dat; M.fail e
  | .ok _ =>
    match ← M.attempt (fCreate .log) with
    | .error e => do eraseQuiet .dat; eraseQuiet .key; M.fail e
    | .ok _ =>
      match ← M.attempt (createBody c asserts a) with
      | .error e => do eraseQuiet .dat; eraseQuiet .key; eraseQuiet .log; M.fail e
      | .ok _ => M.ret ()

/-- `create` (create.ipp 43-156). If `ec` is set after the creation of the data file the code goes to `fail`, where it removes
nothing as `edf` is not set yet. Simplified: behind that test everything is as in `create`. -/
def createE (c : Cfg) (asserts : Bool) (a : CreateArgs) : EcM Unit :=
  if a.keySize < 1 then EcM.fail .invalid_key_size
  else if a.blockSize > 0xffff then EcM.fail .invalid_block_size
  else if a.load.bad then EcM.fail .invalid_load_factor
  else if bucketCapacity a.blockSize < 1 then EcM.fail .invalid_block_size
  else do
    EcM.op (fCreate .dat)
    EcM.lift (createTail c asserts a)

/-- `recover` (recover.ipp 24-205). Simplified as `openE`, and so are the following: behind the first test of `ec`, which
they pass only if `ec` is clear, everything is as in the rest of the model. -/
def recoverE (c : Cfg) : EcM Unit := do
  EcM.op (fOpen .dat)
  EcM.lift (recoverTail c)

/-- `visit` after its first two statements (visit.ipp 43-92), with a clear `ec`. -/
def visitTail (c : Cfg) (cb : List Event → Option Err) : M Unit := do
  let dh ← readDatHeader
  M.check (verifyDat dh)
  let fileSize ← fSize .dat
  let r := Reader.new c .dat datHeaderSize fileSize (1024 * 4096)
  emit (.progress 0 fileSize)
  visitLoop c dh.keySize fileSize cb (fileSize + 1) r

/-- `visit` (visit.ipp 23-92). -/
def visitE (c : Cfg) (cb : List Event → Option Err) : EcM Unit := do
  EcM.op (fOpen .dat)
  EcM.lift (visitTail c cb)

/-- `rekey` after the data file was opened (rekey.ipp 55-244), with a clear `ec`. -/
def rekeyTail (c : Cfg) (a : RekeyArgs) : M Unit := do
  let dh ← readDatHeader
  M.check (verifyDat dh)
  let dataFileSize ← fSize .dat
  match ← M.attempt (fOpen .log) with
  | .ok _ => M.fail .log_file_exists
  | .error .no_such_file => do
    let lf ← M.lift a.load.fixed
    let kh := rekeyHeader c.H dh a lf
    rekeyPrepare c kh dataFileSize
    rekeyAlloc kh
    let chunk := max 1 (a.bufferSize / kh.blockSize)
    let passes := (kh.buckets + chunk - 1) / chunk
    let nwork := passes * dataFileSize
    emit (.progress 0 nwork)
    let dw ← rekeyChunks c kh dataFileSize chunk nwork (kh.buckets + 1) 0
      (Writer.new .dat dataFileSize (16 * 4096))
    let _ ← dw.flush
    fErase .log
  | .error e => M.fail e

/-- `rekey` (rekey.ipp 20-244). -/
def rekeyE (c : Cfg) (a : RekeyArgs) : EcM Unit := do
  EcM.op (fOpen .dat)
  EcM.lift (rekeyTail c a)

/-- `verify` after the data file was opened (verify.ipp 558-630), with a clear `ec`. -/
def verifyTail (c : Cfg) (bufferSize : Nat) : M Info := do
  fOpen .key
  let dh ← readDatHeader
  M.check (verifyDat dh)
  let kh ← readKeyHeader
  M.check (verifyKey c.H kh)
  M.check (verifyDatKey c.H dh kh)
  let keySize ← fSize .key
  let datSize ← fSize .dat
  if chooseNormal kh datSize keySize bufferSize then verifyNormal c kh datSize keySize
  else verifyFast c kh datSize keySize bufferSize

/-- `verify` (verify.ipp 537-630). -/
def verifyE (c : Cfg) (bufferSize : Nat) : EcM Info := do
  EcM.op (fOpen .dat)
  EcM.lift (verifyTail c bufferSize)

end NuDB
