import Verif.Model.Float
/-
tools/nudb.cpp and _experimental/util.hpp: the command line tool, without the parsing of its options.
-/
namespace NuDB.Tool

/-- `S(k)` in `log2` (util.hpp 26-34) -/
def log2Step (k : Nat) (x : Int × Nat) : Int × Nat :=
  if x.2 ≥ 2 ^ k then (x.1 + k, x.2 / 2 ^ k) else x

/-- `log2` (util.hpp 20-37) -/
def log2 (n : Nat) : Int :=
  let i : Int := if n = 0 then -1 else 0
  ([32, 16, 8, 4, 2, 1].foldl (fun x k => log2Step k x) (i, n)).1

/-- The loop of `fdec` (util.hpp 48-58) -/
def fdecLoop : List Char → Nat → List Char → List Char
  | [], _, s2 => s2
  | ch :: cs, n, s2 => if n = 3 then fdecLoop cs 1 (ch :: ',' :: s2) else fdecLoop cs (n + 1) (ch :: s2)

/-- `fdec` (util.hpp 40-60) -/
def fdec (t : Nat) : List Char := fdecLoop (Nat.toDigits 10 t).reverse 0 []

/-- `"0123456789abcdef"[v]` -/
def hexDigit (v : Nat) : Char := ['0', '1', '2', '3', '4', '5', '6', '7', '8', '9', 'a', 'b', 'c', 'd', 'e', 'f'].getD v '0'

/-- The loop of `fhex` (util.hpp 69-70); `it` is the index of `it` in `s`. -/
def fhexLoop (v it : Nat) (s : List Char) : Res (List Char) :=
  if h : v = 0 then .ok s
  else if it = 0 then .error .ub
  else fhexLoop (v / 16) (it - 1) (s.set (it - 1) (hexDigit (v % 16)))
termination_by v
decreasing_by omega

/-- `fhex` (util.hpp 62-72) -/
def fhex (v : Nat) : Res (List Char) := fhexLoop v 18 ("0x0000000000000000".toList)

/-- The loop of `fhist` that finds the last entry to show (util.hpp 80-83) -/
def fhistLast (hist : List Nat) : Nat → Nat
  | 0 => 0
  | n + 1 => if hist[n + 1]?.getD 0 ≠ 0 then n + 1 else fhistLast hist n

/-- `fhist` (util.hpp 74-88): the numbers shown; an array is not empty. -/
def fhist (hist : List Nat) : List Nat := hist.take (fhistLast hist (hist.length - 1) + 1)

/-- The local variables `n` and `hist` of `do_visit` (nudb.cpp 477-479) -/
structure Tally where
  count : Nat
  hist : List Nat
deriving DecidableEq, Repr

/-- The values reported to the callback. -/
def itemsOf (out : List Event) : List Bytes :=
  out.filterMap (fun
    | .item _ v => some v
    | .progress _ _ => none)

/-- The calls of the callback in `do_visit` (nudb.cpp 481-490): an index out of range is undefined behaviour. -/
def tally : List Bytes → Tally → Res Tally
  | [], t => .ok t
  | v :: l, t =>
    let i := log2 v.length
    if 0 ≤ i ∧ i < 64 then tally l ⟨t.count + 1, t.hist.modify i.toNat (· + 1)⟩ else .error .ub

/-- The first part of `do_visit` (nudb.cpp 447-475) -/
def visitHeader : M Unit := do
  fOpen .dat
  let _ ← fSize .dat
  let _ ← readDatHeader
  M.ret ()

/-- `do_visit` (nudb.cpp 444-502): the number of values and the histogram of their sizes. The callback only counts, so counting is done here
after `visit`. -/
def toolVisit (c : Cfg) : M Tally := do
  visitHeader
  let before ← history
  fun σ w =>
    let r := visit c (fun _ => none) σ w
    match tally (itemsOf (r.2.out.drop before.length)) ⟨0, List.replicate 64 0⟩ with
    | .error x => (.error x, r.2)
    | .ok t => (r.1.map (fun _ => t), r.2)

/-- `do_rekey` (nudb.cpp 376-406): `block_size(kp)` is 4096 (file.hpp 25-33), the load factor 0.5. -/
def toolRekey (c : Cfg) (count buffer salt : Nat) : M Unit :=
  rekeyCall c ⟨4096, .rat 1 2, count, salt, buffer⟩

/-- What `do_info(path)` prints (nudb.cpp 285-357) -/
inductive Info
  | tooSmall
  | dat (size : Nat) (h : DatHeader)
  | key (size : Nat) (h : KeyHeader)
  | log (size : Nat) (h : LogHeader)
  | unknown (type : Bytes)

/-- `do_info(path)` (nudb.cpp 285-357). The header is chosen by the content of the file. Errors are printed and do not change the exit status. -/
def toolInfo (p : Path) : M Info := do
  fOpen p
  let size ← fSize p
  if size < 8 then M.ret .tooSmall
  else do
    let ta ← fRead p 0 8
    if ta = datType then do
      let b ← fRead p 0 datHeaderSize
      M.ret (.dat size (getDatHeader b))
    else if ta = keyType then do
      let b ← fRead p 0 keyHeaderSize
      let n ← fSize p
      M.ret (.key size (getKeyHeader b n))
    else if ta = logType then do
      let b ← fRead p 0 logHeaderSize
      M.ret (.log size (getLogHeader b))
    else M.ret (.unknown ta)

end NuDB.Tool
