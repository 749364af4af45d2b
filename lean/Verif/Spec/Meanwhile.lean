import Verif.Model.Meanwhile
import Verif.Spec.History
/-
Specification for C87: what others may do to the files while `visit` runs.
-/
namespace NuDB.Spec

/-- Whatever others do, the data file stays there and keeps all its bytes: they only add
to its end. Nothing is said about the other files. -/
def AppendsOnly (env : FilesAt) : Prop :=
  ∀ i, ∃ f f', env i .dat = some f ∧ env (i + 1) .dat = some f' ∧ f.cur <+: f'.cur

/-- The files when `visit`, started in `w`, asks for the size of the data file: its third
operation, after opening the file and reading the header. -/
def whenSized (env : FilesAt) (w : World) : Fs := env (w.clock + 2)

/-- The same world with `g` as its data file. -/
def withCopy (g : FileSt) (w : World) : World := { w with fs := w.fs.set .dat (some g) }

/-- A store that stays open and has not failed, before and after some calls. -/
inductive StaysOpen (c : Cfg) (keySize blockSize : Nat) (short : Prop) : Store × Fs → Store × Fs → Prop
  | rest (x : Store × Fs) : StaysOpen c keySize blockSize short x x
  | call {x : Store × Fs} {s s' : Store} {fs fs' : Fs} {l : Label} (h : StaysOpen c keySize blockSize short x (s, fs))
      (hl : Exec c keySize blockSize short (some s, fs) l (some s', fs')) (he : s'.ec = none) :
      StaysOpen c keySize blockSize short x (s', fs')

/-- A run interrupted at file operation `n`: of the bytes it writes, the first `k` are written. -/
def stopAt (n k : Nat) : Schedule := fun i => if i = n then .crash k else .none

/-- The files while a call of `flush`, made in `w`, is being carried out: all its operations
before `n` are done, and the first `k` bytes of operation `n`. If the call ends before
operation `n`, these are the files after the call. -/
def duringFlush (c : Cfg) (s : Store) (w : World) (n k : Nat) : Fs := (perform c .flush (some s) (stopAt n k) w).2.fs

/-- The moments `(n i, k i)` of a call made in `w` follow each other. -/
def Moments (w : World) (n k : Nat → Nat) : Prop :=
  w.clock ≤ n 0 ∧ ∀ i, n i < n (i + 1) ∨ (n i = n (i + 1) ∧ k i ≤ k (i + 1))

/-- A moment in the use of a store: between two calls, or while a flush begun in `w` is being
carried out, as in `duringFlush`. -/
inductive Moment
  | between (s : Store) (fs : Fs)
  | flushing (s : Store) (w : World) (n k : Nat)

/-- The files at that moment. -/
def Moment.files (c : Cfg) : Moment → Fs
  | .between _ fs => fs
  | .flushing s w n k => duringFlush c s w n k

/-- The store when the last call had returned. -/
def Moment.store : Moment → Store
  | .between s _ => s
  | .flushing s _ _ _ => s

/-- The files when the last call had returned. -/
def Moment.since : Moment → Fs
  | .between _ fs => fs
  | .flushing _ w _ _ => w.fs

/-- What may come after a moment in which a store stays open and does not fail: any calls, and
flushes of which some moments are seen. The file operations of the latter succeed. -/
inductive Moment.Then (c : Cfg) (keySize blockSize : Nat) (short : Prop) : Moment → Moment → Prop
  | rest (m : Moment) : Moment.Then c keySize blockSize short m m
  | call {m : Moment} {s s' : Store} {fs fs' : Fs} {l : Label}
      (h : Moment.Then c keySize blockSize short m (.between s fs))
      (hl : Exec c keySize blockSize short (some s, fs) l (some s', fs')) (he : s'.ec = none) :
      Moment.Then c keySize blockSize short m (.between s' fs')
  | begins {m : Moment} {s s' : Store} {w w' : World} {n k : Nat}
      (h : Moment.Then c keySize blockSize short m (.between s w.fs)) (hn : w.clock ≤ n)
      (hm : Mild blockSize short calm .flush (some s))
      (hf : perform c .flush (some s) calm w = (.ok (some s', .done), w')) :
      Moment.Then c keySize blockSize short m (.flushing s w n k)
  | goes {m : Moment} {s : Store} {w : World} {n k n' k' : Nat}
      (h : Moment.Then c keySize blockSize short m (.flushing s w n k)) (hn : n < n' ∨ (n = n' ∧ k ≤ k')) :
      Moment.Then c keySize blockSize short m (.flushing s w n' k')
  | ends {m : Moment} {s s' : Store} {w w' : World} {n k : Nat}
      (h : Moment.Then c keySize blockSize short m (.flushing s w n k))
      (hf : perform c .flush (some s) calm w = (.ok (some s', .done), w')) :
      Moment.Then c keySize blockSize short m (.between s' w'.fs)

end NuDB.Spec
