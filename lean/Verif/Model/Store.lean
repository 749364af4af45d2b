import Verif.Model.Recover
/-
impl/basic_store.ipp: open, close, fetch, insert, exists, split, load, commit, flush.
-/
namespace NuDB

/-- `basic_store::state` and the members of `basic_store` that matter
(basic_store.hpp 66-120). `ec` is `ec_`, with `ecb_` being its presence. -/
structure Store where
  kh : KeyHeader
  p0 : Pool
  p1 : Pool
  c1 : Cache
  frac : Nat
  thresh : Nat
  buckets : Nat
  modulus : Nat
  ec : Option Err

/-- `nudb::block_size(path)` (file.hpp 38-46) is the constant 4096; `dataWriteSize_` and
`logWriteSize_` are 32 of these (basic_store.ipp 183-184). -/
def writeSize : Nat := 32 * 4096

/-- `bucket_index` with its assertion (bucket.hpp 25-35). -/
def bucketIndexA (h buckets modulus : Nat) : Res Nat := do
  assert (modulus ≤ 0x100000000)
  return bucketIndex h buckets modulus

/-- `open` (basic_store.ipp 117-188). Registration with the scheduler is modelled in
`Model/Context`. -/
def openStore (c : Cfg) : M Store := do
  recover c
  fOpen .dat
  fOpen .key
  fCreate .log
  let dh ← readDatHeader
  M.check (verifyDat dh)
  let kh ← readKeyHeader
  M.check (verifyKey c.H kh)
  M.check (verifyDatKey c.H dh kh)
  let thresh := max 65536 (kh.loadFactor * kh.capacity)
  if kh.buckets < 1 then M.fail .short_key_file
  else M.ret { kh := kh, p0 := [], p1 := [], c1 := [], frac := thresh / 2, thresh := thresh,
               buckets := kh.buckets, modulus := ceilPow2 kh.buckets, ec := none }

/-- Inner loop of `fetch` over the entries with equal hash (basic_store.ipp 374-396).
Returns the value if found; `fuel` bounds the number of entries. -/
def fetchScan (keySize h : Nat) (key : Bytes) (b : Bkt) : Nat → Nat → M (Option Bytes)
  | 0, _ => M.raise .hang
  | fuel + 1, i =>
    if i < b.size then do
      let item ← M.lift (b.get i)
      if item.hash ≠ h then M.ret none
      else do
        let buf ← fRead .dat (item.offset + 6) (keySize + item.size)
        if buf.take keySize = key then M.ret (some (buf.drop keySize))
        else fetchScan keySize h key b fuel (i + 1)
    else M.ret none

/-- `fetch(h, key, b, callback, ec)` (basic_store.ipp 356-408). The callback is
represented by the returned value: it is invoked exactly when a value is returned.
`fuel` bounds the number of buckets visited. -/
def fetchBucket (c : Cfg) (kh : KeyHeader) (h : Nat) (key : Bytes) : Nat → Bkt → M Bytes
  | 0, _ => M.raise .hang
  | fuel + 1, b => do
    let i ← M.lift (b.lowerBound h)
    match ← fetchScan kh.keySize h key b (b.size + 1) i with
    | some v => M.ret v
    | none =>
      if b.spill = 0 then M.fail .key_not_found
      else do
        let nb ← M.lift (Bkt.ofMem kh.blockSize (c.fresh kh.blockSize))
        let nb ← nb.readFile .dat b.spill
        fetchBucket c kh h key fuel nb

/-- Upper bound for the number of buckets a terminating lookup can visit: distinct
overflow records have distinct offsets in the data file. Not part of the code; a lookup
that exceeds it visits some offset twice and hence never ends (proved in
`C64_more_rounds` and `C64_forever`). -/
def lookupFuel : M Nat := fun _ w =>
  (.ok (match w.fs .dat with | some f => f.cur.length + 2 | none => 2), w)

/-- `fetch` (basic_store.ipp 220-264). -/
def fetch (c : Cfg) (s : Store) (key : Bytes) : M Bytes := do
  match s.ec with
  | some e => M.fail e
  | none =>
    let h := hashKey c.H s.kh.salt key
    match s.p1.find key with
    | some it => M.ret it.data
    | none =>
    match s.p0.find key with
    | some it => M.ret it.data
    | none => do
      let n ← M.lift (bucketIndexA h s.buckets s.modulus)
      let fuel ← lookupFuel
      match s.c1.find n with
      | some p => do
        let b ← M.lift (Bkt.ofMem s.kh.blockSize p)
        fetchBucket c s.kh h key fuel b
      | none => do
        let b ← M.lift (Bkt.ofMem s.kh.blockSize (c.fresh s.kh.blockSize))
        let b ← b.readFile .key ((n + 1) * s.kh.blockSize)
        fetchBucket c s.kh h key fuel b

/-- Inner loop of `exists` (basic_store.ipp 429-442). -/
def existsScan (keySize h : Nat) (key : Bytes) (b : Bkt) : Nat → Nat → M Bool
  | 0, _ => M.raise .hang
  | fuel + 1, i =>
    if i < b.size then do
      let item ← M.lift (b.get i)
      if item.hash ≠ h then M.ret false
      else do
        let pk ← fRead .dat (item.offset + 6) keySize
        if pk = key then M.ret true
        else existsScan keySize h key b fuel (i + 1)
    else M.ret false

/-- `exists` (basic_store.ipp 410-454). -/
def existsBucket (c : Cfg) (kh : KeyHeader) (h : Nat) (key : Bytes) : Nat → Bkt → M Bool
  | 0, _ => M.raise .hang
  | fuel + 1, b => do
    let i ← M.lift (b.lowerBound h)
    if ← existsScan kh.keySize h key b (b.size + 1) i then M.ret true
    else if b.spill = 0 then M.ret false
    else do
      let nb ← M.lift (Bkt.ofMem kh.blockSize (c.fresh kh.blockSize))
      let nb ← nb.readFile .dat b.spill
      existsBucket c kh h key fuel nb

/-- The presence test of `insert` (basic_store.ipp 289-333). -/
def insertCheck (c : Cfg) (s : Store) (h : Nat) (key : Bytes) : M Unit := do
  if (s.p1.find key).isSome || (s.p0.find key).isSome then M.fail .key_exists
  else do
    let n ← M.lift (bucketIndexA h s.buckets s.modulus)
    let fuel ← lookupFuel
    let found ← match s.c1.find n with
      | some p => do
        let b ← M.lift (Bkt.ofMem s.kh.blockSize p)
        existsBucket c s.kh h key fuel b
      | none => do
        let b ← M.lift (Bkt.ofMem s.kh.blockSize (c.fresh s.kh.blockSize))
        let b ← b.readFile .key ((n + 1) * s.kh.blockSize)
        existsBucket c s.kh h key fuel b
    if found then M.fail .key_exists else M.ret ()

/-- `insert` (basic_store.ipp 266-354) without the throttling at its end. -/
def insert (c : Cfg) (s : Store) (key data : Bytes) : M Store := do
  match s.ec with
  | some e => M.fail e
  | none =>
    M.lift (assert (data.length > 0))
    M.lift (assert (data.length ≤ 0xffffffff))
    let h := hashKey c.H s.kh.salt key
    insertCheck c s h key
    let p1 ← M.lift (s.p1.insert ⟨h, key, data⟩)
    M.ret { s with p1 := p1 }

/-- First loop of `split` (basic_store.ipp 492-508). -/
def splitOwn (n1 n2 buckets modulus : Nat) : Nat → Nat → Bkt → Bkt → Res (Bkt × Bkt)
  | 0, _, _, _ => .error .hang
  | fuel + 1, i, b1, b2 =>
    if i < b1.size then do
      let e ← b1.get i
      let n ← bucketIndexA e.hash buckets modulus
      assert (n == n1 || n == n2)
      if n = n2 then do
        let b2 ← b2.insert e.offset e.size e.hash
        let b1 ← b1.erase i
        splitOwn n1 n2 buckets modulus fuel i b1 b2
      else splitOwn n1 n2 buckets modulus fuel (i + 1) b1 b2
    else .ok (b1, b2)

/-- Inner loop of the second part of `split` (basic_store.ipp 527-547). -/
def splitTmp (n1 n2 buckets modulus : Nat) (tmp : Bkt) :
    Nat → Nat → Bkt → Bkt → Writer → M (Bkt × Bkt × Writer)
  | 0, _, _, _, _ => M.raise .hang
  | fuel + 1, i, b1, b2, w =>
    if i < tmp.size then do
      let e ← M.lift (tmp.get i)
      let n ← M.lift (bucketIndexA e.hash buckets modulus)
      M.lift (assert (n == n1 || n == n2))
      if n = n2 then do
        let (b2, w) ← maybeSpill b2 w
        let b2 ← M.lift (b2.insert e.offset e.size e.hash)
        splitTmp n1 n2 buckets modulus tmp fuel (i + 1) b1 b2 w
      else do
        let (b1, w) ← maybeSpill b1 w
        let b1 ← M.lift (b1.insert e.offset e.size e.hash)
        splitTmp n1 n2 buckets modulus tmp fuel (i + 1) b1 b2 w
    else M.ret (b1, b2, w)

/-- The `do ... while(spill)` of `split` (basic_store.ipp 513-550). `fuel` bounds the number of
rounds; `split` passes the number of offsets of 48 bits, so that only an endless loop exceeds it. -/
def splitSpills (cap n1 n2 buckets modulus : Nat) :
    Nat → Nat → Bkt → Bkt → Bkt → Writer → M (Bkt × Bkt × Bkt × Writer)
  | 0, _, _, _, _, _ => M.raise .hang
  | fuel + 1, spill, b1, b2, tmp, w => do
    let w ← if spill + bucketSize cap > w.pos - w.data.length then w.flush else M.ret w
    let tmp ← tmp.readFile .dat spill
    let (b1, b2, w) ← splitTmp n1 n2 buckets modulus tmp (tmp.size + 1) 0 b1 b2 w
    if tmp.spill ≠ 0 then splitSpills cap n1 n2 buckets modulus fuel tmp.spill b1 b2 tmp w
    else M.ret (b1, b2, tmp, w)

/-- `split` (basic_store.ipp 468-552). -/
def split (cap n1 n2 buckets modulus : Nat) (b1 b2 tmp : Bkt) (w : Writer) :
    M (Bkt × Bkt × Bkt × Writer) := do
  if b1.size = 0 then M.ret (b1, b2, tmp, w)
  else do
    let (b1, b2) ← M.lift (splitOwn n1 n2 buckets modulus (b1.size + 1) 0 b1 b2)
    let spill := b1.spill
    if spill ≠ 0 then do
      let b1 ← M.lift (b1.setSpill 0)
      splitSpills cap n1 n2 buckets modulus (2 ^ 48 + 1) spill b1 b2 tmp w
    else M.ret (b1, b2, tmp, w)

/-- `load` (basic_store.ipp 554-578). The temporary buffer's previous content is
irrelevant because `read` overwrites the part that is copied. -/
def load (c : Cfg) (bs n : Nat) (c1 c0 : Cache) : M (Bkt × Cache × Cache) := do
  match c1.find n with
  | some p => do
    let b ← M.lift (Bkt.ofMem bs p)
    M.ret (b, c1, c0)
  | none =>
    match c0.find n with
    | some p => do
      let b ← M.lift (Bkt.ofMem bs p)
      let (c1, b) ← M.lift (c1.insert c n b)
      M.ret (b, c1, c0)
    | none => do
      let tmp ← M.lift (Bkt.ofMem bs (c.fresh bs))
      let tmp ← tmp.readFile .key ((n + 1) * bs)
      let (c0, _) ← M.lift (c0.insert c n tmp)
      let (c1, b) ← M.lift (c1.insert c n tmp)
      M.ret (b, c1, c0)

/-- Log header written by `commit` (basic_store.ipp 605-618). -/
def logHeaderOf (H : Hasher) (kh : KeyHeader) (keySize datSize : Nat) : LogHeader :=
  { type := logType, version := currentVersion, uid := kh.uid, appnum := kh.appnum,
    keySize := kh.keySize, salt := kh.salt, pepper := pepper H kh.salt,
    blockSize := kh.blockSize, keyFileSize := keySize, datFileSize := datSize }

/-- Bytes of a data record (basic_store.ipp 646-649). -/
def dataRecord (key data : Bytes) : Bytes := putU48 data.length ++ key ++ data

/-- The loop writing the inserted data (basic_store.ipp 636-650). Returns the elements
together with their offsets (`e.second`). -/
def appendData : Pool → Writer → M (List (Item × Nat) × Writer)
  | [], w => M.ret ([], w)
  | it :: rest, w => do
    let off := w.pos
    M.lift (assert (it.data.length ≤ 0xffffffffffff))
    let w ← w.append (dataRecord it.key it.data)
    let (l, w) ← appendData rest w
    M.ret ((it, off) :: l, w)

/-- Local variables of the insert loop of `commit`. -/
structure Work where
  c0 : Cache
  c1 : Cache
  frac : Nat
  buckets : Nat
  modulus : Nat
  tmp : Bkt
  w : Writer

/-- The split at the beginning of a round (basic_store.ipp 656-674). -/
def commitSplit (c : Cfg) (kh : KeyHeader) (thresh : Nat) (x : Work) : M Work := do
  let frac := x.frac + 65536
  if frac ≥ thresh then do
    let modulus := if x.buckets = x.modulus then x.modulus * 2 else x.modulus
    let n1 := x.buckets - modulus / 2
    let n2 := x.buckets
    let (b1, c1, c0) ← load c kh.blockSize n1 x.c1 x.c0
    let (c1, b2) ← M.lift (c1.create c kh.blockSize n2)
    let (b1, b2, tmp, w) ← split kh.capacity n1 n2 (x.buckets + 1) modulus b1 b2 x.tmp x.w
    M.ret { c0 := c0, c1 := (c1.store n1 b1.p).store n2 b2.p, frac := frac - thresh,
            buckets := x.buckets + 1, modulus := modulus, tmp := tmp, w := w }
  else M.ret { x with frac := frac }

/-- One round of the insert loop (basic_store.ipp 653-686). -/
def commitInsert (c : Cfg) (kh : KeyHeader) (thresh : Nat) (it : Item) (off : Nat) (x : Work) :
    M Work := do
  let x ← commitSplit c kh thresh x
  let n ← M.lift (bucketIndexA it.hash x.buckets x.modulus)
  let (b, c1, c0) ← load c kh.blockSize n x.c1 x.c0
  let (b, w) ← maybeSpill b x.w
  let b ← M.lift (b.insert off it.data.length it.hash)
  M.ret { x with c0 := c0, c1 := c1.store n b.p, w := w }

/-- The insert loop (basic_store.ipp 653-686). -/
def commitInserts (c : Cfg) (kh : KeyHeader) (thresh : Nat) : List (Item × Nat) → Work → M Work
  | [], x => M.ret x
  | (it, off) :: rest, x => do
    let x ← commitInsert c kh thresh it off x
    commitInserts c kh thresh rest x

/-- First part of `commit`: rollback information, data records, spills, new buckets in
memory (basic_store.ipp 604-690). `s` is the store after the two pools were swapped. -/
def commitPrepare (c : Cfg) (s : Store) : M Work := do
  let tmp ← M.lift (Bkt.ofMem s.kh.blockSize (c.fresh s.kh.blockSize))
  let ks ← fSize .key
  match s.ec with
  | some e => M.fail e        -- `if(ec) return;` with an error left over from before
  | none => do
    let ds ← fSize .dat
    let lh := logHeaderOf c.H s.kh ks ds
    fAppend .log 0 (putLogHeader lh)
    fSync .log
    let size ← fSize .dat
    let (items, w) ← appendData s.p0 (Writer.new .dat size writeSize)
    let x ← commitInserts c s.kh s.thresh items
      { c0 := [], c1 := [], frac := s.frac, buckets := s.buckets, modulus := s.modulus,
        tmp := tmp, w := w }
    let w ← x.w.flush
    M.ret { x with w := w }

/-- The loop writing log records (basic_store.ipp 708-719). -/
def logRecords (bs : Nat) : List (Nat × Bytes) → Writer → M Writer
  | [], w => M.ret w
  | (n, p) :: rest, w => do
    let b ← M.lift (Bkt.ofMem bs p)
    let body ← M.lift b.compact
    let w ← w.append (putU64 n ++ body)
    logRecords bs rest w

/-- Writing the original buckets to the log (basic_store.ipp 702-727). -/
def commitLog (c : Cfg) (bs : Nat) (c0 : Cache) : M Unit := do
  let size ← fSize .log
  let w ← logRecords bs (c.order c0) (Writer.new .log size writeSize)
  let _ ← w.flush
  fSync .log

/-- The loop writing buckets to the key file (basic_store.ipp 730-736). -/
def keyBlocks (bs : Nat) : List (Nat × Bytes) → M Unit
  | [] => M.ret ()
  | (n, p) :: rest => do
    let b ← M.lift (Bkt.ofMem bs p)
    b.writeFile .key ((n + 1) * bs)
    keyBlocks bs rest

/-- `commit` after the new buckets were published (basic_store.ipp 702-749). -/
def commitFinish (c : Cfg) (bs : Nat) (c0 c1 : Cache) : M Unit := do
  commitLog c bs c0
  keyBlocks bs (c.order c1)
  fSync .dat
  fSync .key
  fTrunc .log 0
  fSync .log

/-- `commit` (basic_store.ipp 580-755): the store afterwards and the error, if any. The
waiting for readers (`g_.start`, `g_.finish`) is modelled in `Model/Concurrent`. On error
`frac_` is left as it was; the store refuses all work from then on, and `open` resets
`frac_`. -/
def commit (c : Cfg) (s : Store) : M (Store × Option Err) := do
  M.lift (assert (!s.p1.isEmpty))
  let s := { s with p0 := s.p1, p1 := s.p0 }
  match ← M.attempt (commitPrepare c s) with
  | .error e => M.ret (s, some e)
  | .ok x =>
    let s := { s with c1 := x.c1, p0 := [], buckets := x.buckets, modulus := x.modulus,
                      frac := x.frac }
    match ← M.attempt (commitFinish c s.kh.blockSize x.c0 x.c1) with
    | .error e => M.ret (s, some e)
    | .ok _ => M.ret ({ s with c1 := [] }, none)

/-- `flush` (basic_store.ipp 757-804) without the rate estimation. -/
def flush (c : Cfg) (s : Store) : M Store := do
  if s.p1.isEmpty then M.ret s
  else do
    let (s, e) ← commit c s
    M.ret { s with ec := if e.isSome then e else s.ec }

/-- `close` (basic_store.ipp 190-218): the reported error, if any. -/
def close (c : Cfg) (s : Store) : M (Option Err) := do
  let s ← flush c s
  match s.ec with
  | some e => M.ret (some e)
  | none =>
    match ← M.attempt (fErase .log) with
    | .ok _ => M.ret none
    | .error e => M.ret (some e)

end NuDB
