import Verif.Spec.Concurrent
import Verif.Model.Rekey
/-
The whole life of a database: it is created, used by one thread or by several, rebuilt by `rekey`
with other parameters, used again, and so on. Nothing here mentions the layout of files.
-/
namespace NuDB.Spec

open Conc

/-- Arguments of `rekey` within the documented ranges; `lf` is the load factor in units of
1/65536. The number of buckets is what results from `itemCount`. `rekey` does not check them. -/
structure Rekeyable (a : RekeyArgs) (lf : Nat) : Prop where
  salt : a.salt < 2 ^ 64
  block : 104 ≤ a.blockSize ∧ a.blockSize < 2 ^ 16
  load : ∃ num den, a.load = .rat num den ∧ 0 < num ∧ num < den ∧ lf = 65536 * num.toNat / den
  lf : 1 ≤ lf
  buckets : 1 ≤ a.buckets ∧ a.buckets ≤ 2 ^ 32

/-- What happens to a database. -/
inductive Change
  /-- A client makes a call. -/
  | used (l : Label)
  /-- The key file is removed, as a preparation for `rekey`. -/
  | removed
  /-- `rekey` is interrupted, and `recover` is run. -/
  | interrupted
  /-- `rekey` completes. -/
  | rekeyed
  /-- The operating system gets round to writing everything to disk. -/
  | settled
  /-- Several threads use the store, with the events `tr`, and then all have returned and no flush
  is running. Flushes have made permanent what was there after the events `kept`. `disturbed` tells
  that a file operation failed. -/
  | shared (disturbed : Bool) (kept tr : List Ev)
  /-- Likewise, but the process dies at some moment, or power fails. -/
  | ended (disturbed : Bool) (kept tr : List Ev)

/-- Ready: a database with blocks of this size. Fresh: likewise, but `rekey` has just written it,
and that is not on disk yet. Keyless: there is no key file. -/
inductive Phase
  | ready (blockSize : Nat)
  | fresh (blockSize : Nat)
  | keyless

/-- Databases over their whole life, with everything that happened. Faults are arbitrary. In the
phase `fresh` the process may not die (C32 tells why). -/
inductive Lifetime (c : Cfg) (keySize : Nat) (short : Prop) : Phase → Option Store × Fs → List Change → Prop
  | created {a : CreateArgs} {lf : Nat} {asserts : Bool} {w w' : World} (σ : Schedule) (ha : Creatable a lf)
      (hk : a.keySize = keySize) (hw : ∀ p, w.fs p = none) (h : create c asserts a σ w = (.ok (), w')) :
      Lifetime c keySize short (.ready a.blockSize) (none, w'.fs) []
  | used {n : Nat} {x y : Option Store × Fs} {l : Label} {es : List Change}
      (h : Lifetime c keySize short (.ready n) x es) (h' : Exec c keySize n short x l y) :
      Lifetime c keySize short (.ready n) y (es ++ [.used l])
  | usedFresh {n : Nat} {x y : Option Store × Fs} {op : Op} {r : Ret} {d : Bool} {es : List Change}
      (h : Lifetime c keySize short (.fresh n) x es) (h' : Exec c keySize n short x (.call op r d) y) :
      Lifetime c keySize short (.fresh n) y (es ++ [.used (.call op r d)])
  | settled {n : Nat} {so : Option Store} {fs fs' : Fs} {es : List Change}
      (h : Lifetime c keySize short (.fresh n) (so, fs) es) (h' : ∀ p, fs' p = (fs p).map FileSt.synced) :
      Lifetime c keySize short (.ready n) (so, fs') (es ++ [.settled])
  | removed {n : Nat} {fs : Fs} {es : List Change} (h : Lifetime c keySize short (.ready n) (none, fs) es)
      (hl : fs .log = none) : Lifetime c keySize short .keyless (none, fs.set .key none) (es ++ [.removed])
  | interrupted {fs fs' : Fs} {es : List Change} {a : RekeyArgs} {lf : Nat} {w w₁ w₂ : World} {x : Exc}
      {r : Except Exc Unit} (σ : Schedule)
      (h : Lifetime c keySize short .keyless (none, fs) es) (ha : Rekeyable a lf) (hw : w.fs = fs)
      (h₁ : rekey c a σ w = (.error x, w₁)) (hs : Restart w₁.fs fs') (h₂ : recover c calm ⟨fs', 0, []⟩ = (r, w₂)) :
      Lifetime c keySize short .keyless (none, w₂.fs) (es ++ [.interrupted])
  | rekeyed {fs : Fs} {es : List Change} {a : RekeyArgs} {lf : Nat} {w w' : World} (σ : Schedule)
      (h : Lifetime c keySize short .keyless (none, fs) es) (ha : Rekeyable a lf) (hw : w.fs = fs)
      (h' : rekey c a σ w = (.ok (), w')) :
      Lifetime c keySize short (.fresh a.blockSize) (none, w'.fs) (es ++ [.rekeyed])
  | shared {n : Nat} {s : Store} {fs : Fs} {es : List Change} {acts : List Act} {x : Sys} {d : Bool} {kept tr : List Ev}
      (h : Lifetime c keySize short (.ready n) (some s, fs) es) (he : s.ec = none) (hp : s.p1 = [])
      (hr : run c acts (Sys.init s fs) = some (x, tr)) (hd : Faults acts → d = true)
      (hk : kept = [] ∨ Completed c acts (Sys.init s fs) kept)
      (hq : ∀ t, x.pc t = .out) (hi : x.fl = .idle) (he' : x.s.ec = none) :
      Lifetime c keySize short (.ready n) (some x.s, x.fs) (es ++ [.shared d kept tr])
  | ended {n : Nat} {s : Store} {fs fs' : Fs} {es : List Change} {acts : List Act} {x : Sys} {d : Bool} {kept tr : List Ev}
      (h : Lifetime c keySize short (.ready n) (some s, fs) es) (he : s.ec = none) (hp : s.p1 = [])
      (hr : run c acts (Sys.init s fs) = some (x, tr)) (hd : Faults acts → d = true)
      (hk : kept = [] ∨ Completed c acts (Sys.init s fs) kept)
      (hs : ¬ short) (h' : Restart x.seen fs') :
      Lifetime c keySize short (.ready n) (none, fs') (es ++ [.ended d kept tr])

/-- What several threads observe is right, if the map is `m` at first. -/
structure Session (m : Map) (fault : Prop) (tr : List Ev) : Prop where
  calls : ∀ t op r pre mid post, Call tr t op r pre mid post → Right m fault t op r pre mid
  added : Owned m tr

/-- What a change means for the abstract store. Calls are described by `Step`. If several threads
use the store, it starts without pairs that are not flushed; the files hold what was there at some
moment, or at one of two moments. Nothing else changes the map. (If a crash left open which of two
maps the files hold, it is decided.) -/
inductive Goes : St → Change → St → Prop
  | used {st st' l} (h : Step st l st') : Goes st (.used l) st'
  | removed {m₀ m₁ m} (hm : m = m₀ ∨ m = m₁) : Goes (.closed m₀ m₁) .removed (.closed m m)
  | interrupted {st} : Goes st .interrupted st
  | rekeyed {st} : Goes st .rekeyed st
  | settled {st} : Goes st .settled st
  | shared {d b x kept now tr} (hs : Session d (x = true) tr) (h₁ : kept <+: now) (h₂ : now <+: tr)
      (hb : Map.union (contents d now) b = contents d tr) :
      Goes (.opened d Map.empty) (.shared x kept tr) (.opened (contents d now) b)
  | ended {d x kept now₀ now₁ tr} (hs : Session d (x = true) tr) (h₁ : kept <+: now₀) (h₂ : now₀ <+: tr)
      (h₃ : kept <+: now₁) (h₄ : now₁ <+: tr) :
      Goes (.opened d Map.empty) (.ended x kept tr) (.closed (contents d now₀) (contents d now₁))

/-- What the abstract store may be after these changes. -/
inductive Lived : List Change → St → Prop
  | created : Lived [] (.closed Map.empty Map.empty)
  | next {es e st st'} (h : Lived es st) (h' : Goes st e st') : Lived (es ++ [e]) st'

/-- The maps that the files may hold: if the store is open, what was flushed. -/
def Files : St → Map → Prop
  | .opened d _, m => m = d
  | .failed m₀ m₁, m => m = m₀ ∨ m = m₁
  | .closed m₀ m₁, m => m = m₀ ∨ m = m₁

/-- Changes after which everything inserted before is still there. -/
def KeptBy : Change → Prop
  | .used l => Kept l
  | _ => True

/-- Some client or thread called `insert` with this pair, whatever was the result. -/
inductive Passed (k v : Bytes) : Change → Prop
  | used {r d} : Passed k v (.used (.call (.insert k v) r d))
  | died : Passed k v (.used (.died (.insert k v)))
  | shared {d kept tr t} (h : .call t (.insert k v) ∈ tr) : Passed k v (.shared d kept tr)
  | ended {d kept tr t} (h : .call t (.insert k v) ∈ tr) : Passed k v (.ended d kept tr)

end NuDB.Spec
