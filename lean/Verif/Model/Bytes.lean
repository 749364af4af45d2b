/-
Bytes, memory buffers and the outcomes of a C++ function.

Citations are relative to /repo/include/nudb/.
-/

namespace NuDB

/-- A sequence of octets: file content or memory buffer. -/
abbrev Bytes := List UInt8

/-- Error codes of `error.hpp` 85-232 (enum `error`) plus the three system errors that
the `File` classes can report (`impl/posix_file.ipp`): generic I/O failure, `ENOENT`
and `EEXIST`, plus errors made up by user callbacks. -/
inductive Err
  | key_not_found | key_exists | short_read | log_file_exists | no_key_file
  | too_many_buckets | not_data_file | not_key_file | not_log_file
  | different_version | invalid_key_size | invalid_block_size | short_key_file
  | short_bucket | short_spill | short_data_record | short_value | hash_mismatch
  | invalid_load_factor | invalid_capacity | invalid_bucket_count
  | invalid_bucket_size | incomplete_data_file_header | incomplete_key_file_header
  | invalid_log_record | invalid_log_spill | invalid_log_offset | invalid_log_index
  | invalid_spill_size | uid_mismatch | appnum_mismatch | key_size_mismatch
  | salt_mismatch | pepper_mismatch | block_size_mismatch | orphaned_value
  | missing_value | size_mismatch | duplicate_value
  | io            -- any failing system call
  | no_such_file  -- ENOENT
  | file_exists   -- EEXIST
  | user (n : Nat) -- error set by a user callback
deriving DecidableEq, Repr

/-- How a C++ function can end other than by returning normally.
`err`: an `error_code` is set and the function returns.
`crash`: the process dies.
`abort`: a `BOOST_ASSERT` fails (a build with `NDEBUG` would continue with a
silently truncated value; the model does not follow that).
`ub`: undefined behaviour (out-of-bounds access, use of a file that is not open).
`hang`: an endless loop.  `throw`: a C++ exception leaves the function. -/
inductive Exc
  | err (e : Err) | crash | abort | ub | hang | throw
deriving DecidableEq, Repr

/-- Result of code that does not touch files. -/
abbrev Res (α : Type) := Except Exc α

/-- The `len` bytes of `p` starting at `off` (fewer if `p` is too short). -/
def slice (p : Bytes) (off len : Nat) : Bytes := (p.drop off).take len

/-- Reading `len` bytes at `off` of a buffer; out of bounds is undefined behaviour. -/
def peek (p : Bytes) (off len : Nat) : Res Bytes :=
  if off + len ≤ p.length then .ok (slice p off len) else .error .ub

/-- `p` with the bytes at `off` replaced by `bs`. -/
def put (p : Bytes) (off : Nat) (bs : Bytes) : Bytes :=
  p.take off ++ bs ++ p.drop (off + bs.length)

/-- `memcpy`/`memmove`/`memset` into a buffer; out of bounds is undefined behaviour. -/
def poke (p : Bytes) (off : Nat) (bs : Bytes) : Res Bytes :=
  if off + bs.length ≤ p.length then .ok (put p off bs) else .error .ub

/-- `n` zero bytes. -/
def zeros (n : Nat) : Bytes := List.replicate n 0

/-- `BOOST_ASSERT`. -/
def assert (c : Bool) : Res Unit := if c then .ok () else .error .abort

end NuDB
