import Verif.Model.Bytes
/-
Error codes (error.hpp, error.ipp).
-/
namespace NuDB

/-- The enumerators of `enum class error` (error.hpp 81-231). The model has no enumerator `success`; an error of the
operating system or of a callback is not an enumerator. -/
def Err.value : Err → Option Nat
  | .key_not_found => some 1
  | .key_exists => some 2
  | .short_read => some 3
  | .log_file_exists => some 4
  | .no_key_file => some 5
  | .too_many_buckets => some 6
  | .not_data_file => some 7
  | .not_key_file => some 8
  | .not_log_file => some 9
  | .different_version => some 10
  | .invalid_key_size => some 11
  | .invalid_block_size => some 12
  | .short_key_file => some 13
  | .short_bucket => some 14
  | .short_spill => some 15
  | .short_data_record => some 16
  | .short_value => some 17
  | .hash_mismatch => some 18
  | .invalid_load_factor => some 19
  | .invalid_capacity => some 20
  | .invalid_bucket_count => some 21
  | .invalid_bucket_size => some 22
  | .incomplete_data_file_header => some 23
  | .incomplete_key_file_header => some 24
  | .invalid_log_record => some 25
  | .invalid_log_spill => some 26
  | .invalid_log_offset => some 27
  | .invalid_log_index => some 28
  | .invalid_spill_size => some 29
  | .uid_mismatch => some 30
  | .appnum_mismatch => some 31
  | .key_size_mismatch => some 32
  | .salt_mismatch => some 33
  | .pepper_mismatch => some 34
  | .block_size_mismatch => some 35
  | .orphaned_value => some 36
  | .missing_value => some 37
  | .size_mismatch => some 38
  | .duplicate_value => some 39
  | .io => none
  | .no_such_file => none
  | .file_exists => none
  | .user _ => none

/-- An error category. All but that of NuDB are known by a number only. -/
inductive Category
  | nudb
  | other (n : Nat)
deriving DecidableEq

/-- `boost::system::error_code`. -/
structure ErrorCode where
  value : Int
  cat : Category
deriving DecidableEq

/-- `boost::system::error_condition`. -/
structure ErrorCondition where
  value : Int
  cat : Category
deriving DecidableEq

/-- `make_error_code(error)` (error.hpp 242-247), with the number of the enumerator. -/
def makeErrorCode (ev : Nat) : ErrorCode := ⟨ev, .nudb⟩

/-- `message(int)` (error.ipp 25-148). -/
def message (ev : Int) : String :=
  match ev with
  | 2 => "key already exists"
  | 3 => "short read"
  | 4 => "a log file exists"
  | 5 => "no key file"
  | 6 => "too many buckets"
  | 7 => "not a data file"
  | 8 => "not a key file"
  | 9 => "not a log file"
  | 10 => "different version"
  | 11 => "invalid key size"
  | 12 => "invalid block size"
  | 13 => "short key file"
  | 14 => "short bucket"
  | 15 => "short spill"
  | 16 => "short data record"
  | 17 => "short value"
  | 18 => "hash mismatch"
  | 19 => "invalid load factor"
  | 20 => "invalid capacity"
  | 21 => "invalid bucket count"
  | 22 => "invalid_bucket_size"
  | 23 => "incomplete data file header"
  | 24 => "incomplete key file header"
  | 25 => "invalid log record"
  | 26 => "invalid spill in log"
  | 27 => "invalid offset in log"
  | 28 => "invalid index in log"
  | 29 => "invalid size in spill"
  | 30 => "uid mismatch"
  | 31 => "appnum mismatch"
  | 32 => "key size mismatch"
  | 33 => "salt mismatch"
  | 34 => "pepper mismatch"
  | 35 => "block size mismatch"
  | 36 => "orphaned value"
  | 37 => "missing value"
  | 38 => "size mismatch"
  | 39 => "duplicate value"
  | _ => "key not found"

/-- The functions `equivalent` of the other categories (Boost.System). -/
structure Others where
  code : Nat → Int → ErrorCondition → Bool
  condition : Nat → ErrorCode → Int → Bool

/-- `equivalent(int, error_condition const&)` (error.ipp 156-161). -/
def equivalentCode (o : Others) (cat : Category) (ev : Int) (ec : ErrorCondition) : Bool :=
  match cat with
  | .nudb => ec.value == ev && ec.cat == .nudb
  | .other n => o.code n ev ec

/-- `equivalent(error_code const&, int)` (error.ipp 163-167). -/
def equivalentCondition (o : Others) (cat : Category) (ec : ErrorCode) (ev : Int) : Bool :=
  match cat with
  | .nudb => ec.value == ev && ec.cat == .nudb
  | .other n => o.condition n ec ev

/-- `operator==(error_code const&, error_condition const&)` of Boost.System. -/
def ErrorCode.matches (o : Others) (c : ErrorCode) (d : ErrorCondition) : Bool :=
  equivalentCode o c.cat c.value d || equivalentCondition o d.cat c d.value

/-- `default_error_condition(int)` (error.ipp 150-154). -/
def defaultCondition (ev : Int) : ErrorCondition := ⟨ev, .nudb⟩

/-- `explicit operator bool` of `error_code` of Boost.System, for categories that do not define `failed`. -/
def ErrorCode.isError (c : ErrorCode) : Bool := c.value != 0

end NuDB
