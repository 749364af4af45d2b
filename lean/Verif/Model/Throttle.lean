/-
basic_store.ipp: the rate of inserts (330-353) and flushes (769-797), with time.
-/
namespace NuDB.Throttle

/-- The part of the store that decides whether `insert` waits (basic_store.hpp 94-96), the size of `p1`, and
the time. Times are numbers of the period of the clock (nanoseconds). -/
structure Store where
  /-- `s_->rate` -/
  rate : Nat
  /-- `s_->burst` -/
  burst : Nat
  /-- `s_->when` -/
  whenT : Nat
  /-- `s_->p1.size()` -/
  items : Nat
  /-- `s_->p1.data_size()` -/
  bytes : Nat
  /-- a commit is running -/
  flushing : Bool
  /-- the last call of `insert` holds `u_` until then at least -/
  busy : Nat
  /-- present time -/
  now : Nat

/-- What does not change: `s_->kh.block_size`, and `ceil(work / elapsed.count())` in single precision for an
amount of work and a number of nanoseconds. -/
structure Fixed where
  blockSize : Nat
  quot : Nat → Nat → Nat

/-- `when` of the state made by `open` (basic_store.hpp 94-96). -/
def opened (t : Nat) : Store :=
  { rate := 0, burst := 4 * 1024 * 1024, whenT := t, items := 0, bytes := 0, flushing := false, busy := t, now := t }

/-- `now > s_->when ? now - s_->when : clock_type::duration{1}` (basic_store.ipp 338-339, 781-782). -/
def elapsed (s : Store) (t : Nat) : Nat := if t > s.whenT then t - s.whenT else 1

/-- `work` of `insert` (basic_store.ipp 340-341). -/
def work (c : Fixed) (s : Store) : Nat := s.bytes + 3 * s.items * c.blockSize

/-- `sleep` (basic_store.ipp 342-345). -/
def sleeps (c : Fixed) (s : Store) (t : Nat) : Bool :=
  s.rate ≠ 0 && c.quot (work c s) (elapsed s t) > s.rate && work c s > s.burst

/-- What happens, and when. -/
inductive Event
  /-- an `insert` of so many bytes that succeeds locks `m_` -/
  | insert (t size : Nat)
  /-- `set_burst` -/
  | setBurst (t n : Nat)
  /-- `flush` begins (`p1` becomes empty) -/
  | flush (t : Nat)
  /-- the commit ends without error; it tells how much it wrote -/
  | committed (t work : Nat)

/-- When. -/
def Event.time : Event → Nat
  | .insert t _ | .setBurst t _ | .flush t | .committed t _ => t

/-- Whether an event is possible. `u_` is locked until the end of `insert`, also while it sleeps (basic_store.ipp
288); a store is flushed by one thread at a time (see C40). -/
def Event.Possible (s : Store) : Event → Prop
  | .insert t _ => s.busy ≤ t
  | .setBurst _ _ => True
  | .flush _ => s.flushing = false
  | .committed _ _ => s.flushing = true

/-- The end of `insert` (basic_store.ipp 334-352). All of it happens at one moment but for the sleep. -/
def inserted (c : Fixed) (s : Store) (t size : Nat) : Store :=
  let s := { s with items := s.items + 1, bytes := s.bytes + size, now := t }
  { s with busy := if sleeps c s t then t + 25000000 else t }

/-- The effect of an event: lines 330-353, 461-466, 769-775 with 583-595, 776-790. Commits that fail are left out:
afterwards there are no inserts. -/
def Event.run (c : Fixed) (s : Store) : Event → Store
  | .insert t size => inserted c s t size
  | .setBurst t n => { s with burst := n, now := t }
  | .flush t =>
    if s.items = 0 then { s with whenT := t, now := t }
    else { s with whenT := t, items := 0, bytes := 0, flushing := true, now := t }
  | .committed t work =>
    { s with rate := if work > s.burst then c.quot work (elapsed s t) else s.rate, flushing := false, now := t }

end NuDB.Throttle
