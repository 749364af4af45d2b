import Verif.Model.Field
/-
detail/format.hpp: file headers, sizes, header verification.
-/
namespace NuDB

/-- A hash function object: seed and bytes to a 64-bit digest (`xxhasher.hpp` and the
Hasher concept). -/
abbrev Hasher := UInt64 → Bytes → UInt64

/-- `currentVersion` (format.hpp 47). -/
def currentVersion : Nat := 2

/-- `dat_file_header` (format.hpp 49-65). -/
structure DatHeader where
  type : Bytes
  version : Nat
  uid : Nat
  appnum : Nat
  keySize : Nat
deriving DecidableEq, Repr

/-- `dat_file_header::size` (format.hpp 51-58). -/
def datHeaderSize : Nat := 92

/-- `key_file_header` (format.hpp 67-98). -/
structure KeyHeader where
  type : Bytes
  version : Nat
  uid : Nat
  appnum : Nat
  keySize : Nat
  salt : Nat
  pepper : Nat
  blockSize : Nat
  loadFactor : Nat
  capacity : Nat   -- computed
  buckets : Nat    -- computed
  modulus : Nat    -- computed
deriving DecidableEq, Repr

/-- `key_file_header::size` (format.hpp 69-81). -/
def keyHeaderSize : Nat := 104

/-- `log_file_header` (format.hpp 100-126). -/
structure LogHeader where
  type : Bytes
  version : Nat
  uid : Nat
  appnum : Nat
  keySize : Nat
  salt : Nat
  pepper : Nat
  blockSize : Nat
  keyFileSize : Nat
  datFileSize : Nat
deriving DecidableEq, Repr

/-- `log_file_header::size` (format.hpp 102-114). -/
def logHeaderSize : Nat := 62

/-- "nudb.dat" -/
def datType : Bytes := [110, 117, 100, 98, 46, 100, 97, 116]
/-- "nudb.key" -/
def keyType : Bytes := [110, 117, 100, 98, 46, 107, 101, 121]
/-- "nudb.log" -/
def logType : Bytes := [110, 117, 100, 98, 46, 108, 111, 103]

/-- `make_hash<uint48_t>` (format.hpp 137-147). -/
def makeHash48 (h : UInt64) : Nat := (h.toNat >>> 16) &&& 0xffffffffffff

/-- `hash` (format.hpp 152-167). -/
def hashKey (H : Hasher) (salt : Nat) (key : Bytes) : Nat :=
  makeHash48 (H (UInt64.ofNat salt) key)

/-- The 8 memory bytes of `to_little_endian(salt)` (endian.hpp, format.hpp 175). -/
def le64 (v : Nat) : Bytes :=
  [octet v 0, octet v 8, octet v 16, octet v 24, octet v 32, octet v 40, octet v 48,
   octet v 56]

/-- `pepper` (format.hpp 171-178). -/
def pepper (H : Hasher) (salt : Nat) : Nat := (H (UInt64.ofNat salt) (le64 salt)).toNat

/-- `bucket_size` (format.hpp 183-195): 2 + 6 + capacity * (6 + 6 + 6). -/
def bucketSize (capacity : Nat) : Nat := 2 + 6 + capacity * (6 + 6 + 6)

/-- `bucket_capacity` (format.hpp 199-219). `nkey_t` is `size_t` so the final
`min` has no effect. -/
def bucketCapacity (blockSize : Nat) : Nat :=
  if blockSize < keyHeaderSize || blockSize < 2 + 6 then 0
  else (blockSize - (2 + 6)) / (6 + 6 + 6)

/-- `value_size` (format.hpp 223-233). -/
def valueSize (size keySize : Nat) : Nat := 6 + keySize + size

/-- One round of the loop of `ceil_pow2` (format.hpp 252-257): state `(x, y)`. -/
def ceilPow2Step (t j : Nat) (s : Nat × Nat) : Nat × Nat :=
  let k := if s.1 &&& t == 0 then 0 else j
  (s.1 >>> k, s.2 + k)

/-- `ceil_pow2` (format.hpp 236-261), for arguments below 2^64 with the 64-bit
wrap-around of `x - 1` at zero written out. -/
def ceilPow2 (x : Nat) : Nat :=
  let xm1 := if x = 0 then 0xFFFFFFFFFFFFFFFF else x - 1
  let y := if x &&& xm1 == 0 then 0 else 1
  let s := (x, y)
  let s := ceilPow2Step 0xFFFFFFFF00000000 32 s
  let s := ceilPow2Step 0x00000000FFFF0000 16 s
  let s := ceilPow2Step 0x000000000000FF00 8 s
  let s := ceilPow2Step 0x00000000000000F0 4 s
  let s := ceilPow2Step 0x000000000000000C 2 s
  let s := ceilPow2Step 0x0000000000000002 1 s
  1 <<< s.2

/-- `write(ostream&, dat_file_header)` (format.hpp 292-305). -/
def putDatHeader (dh : DatHeader) : Bytes :=
  datType ++ putU16 dh.version ++ putU64 dh.uid ++ putU64 dh.appnum ++
  putU16 dh.keySize ++ zeros 64

/-- `read(istream&, dat_file_header&)` (format.hpp 265-277) on a 92 byte buffer. -/
def getDatHeader (b : Bytes) : DatHeader :=
  { type := slice b 0 8
    version := getU16 (slice b 8 2)
    uid := getU64 (slice b 10 8)
    appnum := getU64 (slice b 18 8)
    keySize := getU16 (slice b 26 2) }

/-- `write(ostream&, key_file_header)` (format.hpp 371-387). -/
def putKeyHeader (kh : KeyHeader) : Bytes :=
  keyType ++ putU16 kh.version ++ putU64 kh.uid ++ putU64 kh.appnum ++
  putU16 kh.keySize ++ putU64 kh.salt ++ putU64 kh.pepper ++ putU16 kh.blockSize ++
  putU16 kh.loadFactor ++ zeros 56

/-- Number of buckets deduced from the size of the key file (format.hpp 337-350). -/
def bucketsOfSize (fileSize blockSize : Nat) : Nat :=
  if fileSize > blockSize then
    if blockSize > 0 then (fileSize - blockSize) / blockSize else 0
  else 0

/-- `read(istream&, noff_t, key_file_header&)` (format.hpp 319-352) on a 104 byte
buffer. -/
def getKeyHeader (b : Bytes) (fileSize : Nat) : KeyHeader :=
  let bs := getU16 (slice b 44 2)
  let buckets := bucketsOfSize fileSize bs
  { type := slice b 0 8
    version := getU16 (slice b 8 2)
    uid := getU64 (slice b 10 8)
    appnum := getU64 (slice b 18 8)
    keySize := getU16 (slice b 26 2)
    salt := getU64 (slice b 28 8)
    pepper := getU64 (slice b 36 8)
    blockSize := bs
    loadFactor := getU16 (slice b 46 2)
    capacity := bucketCapacity bs
    buckets := buckets
    modulus := ceilPow2 buckets }

/-- `write(ostream&, log_file_header)` (format.hpp 439-453). -/
def putLogHeader (lh : LogHeader) : Bytes :=
  logType ++ putU16 lh.version ++ putU64 lh.uid ++ putU64 lh.appnum ++
  putU16 lh.keySize ++ putU64 lh.salt ++ putU64 lh.pepper ++ putU16 lh.blockSize ++
  putU64 lh.keyFileSize ++ putU64 lh.datFileSize

/-- `read(istream&, log_file_header&)` (format.hpp 409-423) on a 62 byte buffer. -/
def getLogHeader (b : Bytes) : LogHeader :=
  { type := slice b 0 8
    version := getU16 (slice b 8 2)
    uid := getU64 (slice b 10 8)
    appnum := getU64 (slice b 18 8)
    keySize := getU16 (slice b 26 2)
    salt := getU64 (slice b 28 8)
    pepper := getU64 (slice b 36 8)
    blockSize := getU16 (slice b 44 2)
    keyFileSize := getU64 (slice b 46 8)
    datFileSize := getU64 (slice b 54 8) }

/-- `verify(dat_file_header)` (format.hpp 466-487). -/
def verifyDat (dh : DatHeader) : Except Err Unit :=
  if dh.type ≠ datType then .error .not_data_file
  else if dh.version ≠ currentVersion then .error .different_version
  else if dh.keySize < 1 then .error .invalid_key_size
  else .ok ()

/-- `verify<Hasher>(key_file_header)` (format.hpp 490-531). -/
def verifyKey (H : Hasher) (kh : KeyHeader) : Except Err Unit :=
  if kh.type ≠ keyType then .error .not_key_file
  else if kh.version ≠ currentVersion then .error .different_version
  else if kh.keySize < 1 then .error .invalid_key_size
  else if kh.pepper ≠ pepper H kh.salt then .error .hash_mismatch
  else if kh.loadFactor < 1 then .error .invalid_load_factor
  else if kh.capacity < 1 then .error .invalid_capacity
  else if kh.buckets < 1 then .error .invalid_bucket_count
  else .ok ()

/-- `verify<Hasher>(log_file_header)` (format.hpp 533-559). -/
def verifyLog (H : Hasher) (lh : LogHeader) : Except Err Unit :=
  if lh.type ≠ logType then .error .not_log_file
  else if lh.version ≠ currentVersion then .error .different_version
  else if lh.pepper ≠ pepper H lh.salt then .error .hash_mismatch
  else if lh.keySize < 1 then .error .invalid_key_size
  else .ok ()

/-- `verify<Hasher>(dat_file_header, key_file_header)` (format.hpp 561-584). -/
def verifyDatKey (H : Hasher) (dh : DatHeader) (kh : KeyHeader) : Except Err Unit := do
  verifyKey H kh
  if kh.uid ≠ dh.uid then .error .uid_mismatch
  else if kh.appnum ≠ dh.appnum then .error .appnum_mismatch
  else if kh.keySize ≠ dh.keySize then .error .key_size_mismatch
  else .ok ()

/-- `verify<Hasher>(key_file_header, log_file_header)` (format.hpp 587-625). -/
def verifyKeyLog (H : Hasher) (kh : KeyHeader) (lh : LogHeader) : Except Err Unit := do
  verifyLog H lh
  if kh.uid ≠ lh.uid then .error .uid_mismatch
  else if kh.appnum ≠ lh.appnum then .error .appnum_mismatch
  else if kh.keySize ≠ lh.keySize then .error .key_size_mismatch
  else if kh.salt ≠ lh.salt then .error .salt_mismatch
  else if kh.pepper ≠ lh.pepper then .error .pepper_mismatch
  else if kh.blockSize ≠ lh.blockSize then .error .block_size_mismatch
  else .ok ()

end NuDB
