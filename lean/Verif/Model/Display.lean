import Verif.Model.Bytes
/-
_experimental/util.hpp 215-284 (class `progress`), _experimental/chrono_util.hpp,
_experimental/basic_seconds_clock.hpp 87-104: the progress display of the command line tool.
Times are numbers of nanoseconds, without the limits of their 64 bits.
-/
namespace NuDB

/-- `floor` (chrono_util.hpp 17-25) from a duration in some unit to one that is `m` times as
long; `duration_cast` cuts off the fraction. -/
def durFloor (m : Nat) (d : Int) : Int :=
  let t := d.tdiv m
  if t * m > d then t - 1 else t

/-- `round` (chrono_util.hpp 27-45). -/
def durRound (m : Nat) (d : Int) : Int :=
  let t0 := d.tdiv m
  let t1 := t0 + 1
  let diff0 := d - t0 * m
  let diff1 := t1 * m - d
  if diff0 = diff1 then (if t0 % 2 = 1 then t1 else t0)
  else if diff0 < diff1 then t0
  else t1

/-- `ceil` (chrono_util.hpp 47-55). -/
def durCeil (m : Nat) (d : Int) : Int :=
  let t := d.tdiv m
  if t * m < d then t + 1 else t

/-- Until when the thread of the clock waits before it samples the clocks again
(basic_seconds_clock.hpp 95-99), computed at `now`. -/
def wakeAt (now : Int) : Int := durFloor 1000000000 now * 1000000000 + 900000000

/-- The members of `progress` (util.hpp 219-224). The time points are zero at first, the
others have no value. -/
structure Display where
  start : Int := 0
  now : Int := 0
  report : Int := 0
  prev : Option Nat := none
  estimate : Option Bool := none
  deriving DecidableEq, Repr

/-- A line that is shown (util.hpp 261-273) and when. The remaining time is computed from
`left`, `amount` and `elapsed` in floating point, which is not modelled. -/
structure Line where
  time : Int
  left : Nat
  amount : Nat
  total : Nat
  elapsed : Int
  delta : Nat
  since : Int
  deriving DecidableEq, Repr

/-- The difference of two numbers of 64 bits. -/
def sub64 (a b : Nat) : Nat := (((a : Int) - b) % 2 ^ 64).toNat

/-- One call: the arguments and the results of `clock_type::now()`, which is called twice if
`amount` is 0. -/
structure Tick where
  amount : Nat
  total : Nat
  t : Int
  t' : Int
  deriving DecidableEq, Repr

/-- `progress::operator()` (util.hpp 233-276). Using a member without a value is undefined
behaviour. -/
def Display.call (d : Display) (k : Tick) : Except Exc (Display × Option Line) :=
  if k.amount = 0 then
    .ok ({ start := k.t', now := k.t', report := k.t', prev := some 0, estimate := some false }, none)
  else if k.t = d.now then .ok (d, none)
  else
    let elapsed := k.t - d.start
    match d.estimate with
    | none => .error .ub
    | some est =>
      if est = false ∧ elapsed < 30 * 1000000000 then .ok ({ d with now := k.t }, none)
      else if est = true ∧ k.t - d.report < 60 * 1000000000 then .ok ({ d with now := k.t }, none)
      else
        match d.prev with
        | none => .error .ub
        | some prev =>
          .ok ({ d with now := k.t, report := k.t, prev := some k.amount, estimate := some true },
            some { time := k.t, left := sub64 k.total k.amount, amount := k.amount, total := k.total,
                   elapsed := elapsed, delta := sub64 k.amount prev, since := k.t - d.report })

/-- The calls made by one of the algorithms: the lines that are shown. -/
def Display.calls (d : Display) : List Tick → Except Exc (Display × List Line)
  | [] => .ok (d, [])
  | k :: ks =>
    match d.call k with
    | .error e => .error e
    | .ok (d, l) =>
      match d.calls ks with
      | .error e => .error e
      | .ok (d, ls) => .ok (d, l.toList ++ ls)

end NuDB
