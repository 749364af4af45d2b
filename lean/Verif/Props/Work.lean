import Verif.Proof.Work
import Verif.Proof.Prog
import Verif.Props.Demo
/-
C78: the work of a commit depends on the number of values inserted, not on the size of the database.
-/
namespace NuDB

open Spec

/-- The sequential commit (basic_store.ipp 604-749) is `commitP` run without interference. -/
theorem C78_commit (c : Cfg) (s : Store) :
    (commitP c s).toM = (commitPrepare c s >>= fun x => commitFinish c s.kh.blockSize x.c0 x.c1) := by
  unfold commitP
  rw [toM_bind', commitPrepareP_toM]
  congr 1
  funext x
  exact commitFinishP_toM _ _ _ _

/-- What a run of a tree does and returns is a trace of it. -/
theorem trace_of_run {m : Prog α} {σ : Schedule} : ∀ {w w' : World} {a : α}, m.toM σ w = (.ok a, w') → ∃ l, Trace m l (some a) := by
  induction m with
  | ret a => intro w w' b h; cases h; exact ⟨[], .ret⟩
  | raise x => intro w w' b h; cases h
  | size p k ih =>
    intro w w' b h
    simp only [Prog.toM, M.bind] at h
    split at h
    · obtain ⟨l, hl⟩ := ih _ h
      exact ⟨_, .size _ hl⟩
    · cases h
  | read p off n k ih =>
    intro w w' b h
    simp only [Prog.toM, M.bind] at h
    split at h
    · obtain ⟨l, hl⟩ := ih _ h
      exact ⟨_, .read _ hl⟩
    · cases h
  | write p off b k ih =>
    intro w w' b h
    simp only [Prog.toM, M.bind] at h
    split at h
    · obtain ⟨l, hl⟩ := ih h
      exact ⟨_, .write hl⟩
    · cases h
  | append p off b k ih =>
    intro w w' b h
    simp only [Prog.toM, M.bind] at h
    split at h
    · obtain ⟨l, hl⟩ := ih h
      exact ⟨_, .append hl⟩
    · cases h
  | sync p k ih =>
    intro w w' b h
    simp only [Prog.toM, M.bind] at h
    split at h
    · obtain ⟨l, hl⟩ := ih h
      exact ⟨_, .sync hl⟩
    · cases h
  | trunc p n k ih =>
    intro w w' b h
    simp only [Prog.toM, M.bind] at h
    split at h
    · obtain ⟨l, hl⟩ := ih h
      exact ⟨_, .trunc hl⟩
    · cases h

/-- C78: a commit of `n` items, whatever the file system answers and wherever it is interrupted, reads at most `2n` blocks of the key
file, writes at most `3n` whole blocks of it and no other byte, appends at most `62 + 2n(8 + b)` bytes to the log file, where `b` is the
block size, and syncs at most five times. -/
theorem C78 {c : Cfg} {s : Store} {l : List FileOp} {r : Option Unit} (h : Trace (commitP c s) l r) :
    keyReads l ≤ 2 * s.p0.length ∧
    keyWrites l ≤ 3 * s.p0.length ∧
    bytesLogged l ≤ 62 + 2 * s.p0.length * (8 + s.kh.blockSize) ∧
    syncs l ≤ 5 ∧
    ∀ o ∈ l, BlockWise s.kh.blockSize o := by
  rw [keyReads_sum, keyWrites_sum, bytesLogged_sum, syncs_sum]
  have h1 := (pays_commitP (kr := 1) (kw := 0) (lb := 0) (sy := 0)).sound h
  have h2 := (pays_commitP (kr := 0) (kw := 1) (lb := 0) (sy := 0)).sound h
  have h3 := (pays_commitP (kr := 0) (kw := 0) (lb := 1) (sy := 0)).sound h
  have h4 := (pays_commitP (kr := 0) (kw := 0) (lb := 0) (sy := 1)).sound h
  refine ⟨?_, ?_, ?_, ?_, h1.1⟩
  · have := h1.2.1; simp only [Nat.mul_zero, Nat.mul_one] at this; omega
  · have := h2.2.1; simp only [Nat.mul_zero, Nat.mul_one] at this; omega
  · have := h3.2.1; simp only [Nat.mul_zero, Nat.mul_one] at this; omega
  · have := h4.2.1; simp only [Nat.mul_zero, Nat.mul_one] at this; omega

/-- C78: the two caches such a commit has built in memory (`c0`: the blocks read, `c1`: the blocks to write) have at most `2n` and `3n`
blobs of the size of a block. -/
theorem C78_memory {c : Cfg} {s : Store} {σ : Schedule} {w w' : World} {x : Work} (h : commitPrepare c s σ w = (.ok x, w')) :
    x.c0.length ≤ 2 * s.p0.length ∧ x.c1.length ≤ 3 * s.p0.length ∧ ∀ e ∈ x.c0 ++ x.c1, e.2.length = s.kh.blockSize := by
  rw [← commitPrepareP_toM] at h
  obtain ⟨l, hl⟩ := trace_of_run h
  have := ((pays_commitPrepareP (kr := 0) (kw := 0) (lb := 0) (sy := 0) (B := 0)).sound hl).2.2 x rfl
  refine ⟨this.1.len0, this.1.len1, fun e he => ?_⟩
  rcases List.mem_append.mp he with he | he
  · exact this.1.blobs0 e he
  · exact this.1.blobs1 e he

/-! ### The bounds are reached -/

/-- One item in a database of two buckets of one entry, about to be split. -/
private def tight : Store where
  kh := { type := keyType, version := 2, uid := 0, appnum := 0, keySize := 1, salt := 0, pepper := 0, blockSize := 26,
          loadFactor := 65535, capacity := 1, buckets := 2, modulus := 2 }
  p0 := [⟨1, [1], [5]⟩]
  p1 := []
  c1 := []
  frac := 0
  thresh := 65536
  buckets := 2
  modulus := 2
  ec := none

/-- The operations when all bytes read are zero. -/
private def play : Prog α → Nat → List FileOp × Option α
  | _, 0 => ([], none)
  | .ret a, _ => ([], some a)
  | .raise _, _ => ([], none)
  | .size p k, f + 1 => let r := play (k 100) f; (.size p :: r.1, r.2)
  | .read p off n k, f + 1 => let r := play (k (zeros n)) f; (.read p off n :: r.1, r.2)
  | .write p off b k, f + 1 => let r := play k f; (.write p off b :: r.1, r.2)
  | .append p off b k, f + 1 => let r := play k f; (.append p off b :: r.1, r.2)
  | .sync p k, f + 1 => let r := play k f; (.sync p :: r.1, r.2)
  | .trunc p n k, f + 1 => let r := play k f; (.trunc p n :: r.1, r.2)

private theorem trace_play {m : Prog α} : ∀ f, Trace m (play m f).1 (play m f).2 := by
  intro f
  induction f generalizing m with
  | zero => unfold play; exact .stop
  | succ f ih =>
    cases m with
    | ret a => exact .ret
    | raise x => exact .stop
    | size p k => exact .size _ ih
    | read p off n k => exact .read _ ih
    | write p off b k => exact .write ih
    | append p off b k => exact .append ih
    | sync p k => exact .sync ih
    | trunc p n k => exact .trunc ih

private theorem play_tight :
    (keyReads (play (commitP demoCfg tight) 50).1, keyWrites (play (commitP demoCfg tight) 50).1,
      syncs (play (commitP demoCfg tight) 50).1, (play (commitP demoCfg tight) 50).2.isSome) = (2, 3, 5, true) := by decide +kernel

/-- C78: one item can cost two reads and three writes of the key file and five syncs, so the bounds cannot be lowered. -/
theorem C78_reached : ∃ (c : Cfg) (s : Store) (l : List FileOp), Trace (commitP c s) l (some ()) ∧ s.p0.length = 1 ∧
    keyReads l = 2 ∧ keyWrites l = 3 ∧ syncs l = 5 := by
  have h := play_tight
  simp only [Prod.mk.injEq] at h
  obtain ⟨h1, h2, h3, h4⟩ := h
  obtain ⟨u, hu⟩ := Option.isSome_iff_exists.mp h4
  have t := trace_play (m := commitP demoCfg tight) 50
  rw [hu] at t
  exact ⟨_, _, _, t, rfl, h1, h2, h3⟩

/-- A world whose files have only zeros. -/
private def blank : World :=
  ⟨fun p => some ⟨match p with | .key => zeros 78 | .dat => zeros 92 | _ => [], []⟩, 0, []⟩

private theorem run_tight : (match commitPrepare demoCfg tight calm blank with
    | (.ok x, _) => (x.c0.length, x.c1.length) == (2, 3)
    | _ => false) = true := by decide +kernel

/-- `C78_memory` applies to commits that get this far, and its bounds are reached, too. -/
example : ∃ (c : Cfg) (s : Store) (σ : Schedule) (w w' : World) (x : Work), commitPrepare c s σ w = (.ok x, w') ∧ s.p0.length = 1 ∧
    x.c0.length = 2 ∧ x.c1.length = 3 := by
  have key : ∀ o : Except Exc Work × World, (match o with
      | (.ok x, _) => (x.c0.length, x.c1.length) == (2, 3)
      | _ => false) = true → ∃ x w', o = (.ok x, w') ∧ x.c0.length = 2 ∧ x.c1.length = 3 := by
    intro o h
    split at h
    · rename_i x w'
      have := (by simpa using h : x.c0.length = 2 ∧ x.c1.length = 3)
      exact ⟨x, w', rfl, this.1, this.2⟩
    · cases h
  obtain ⟨x, w', h1, h2, h3⟩ := key (commitPrepare demoCfg tight calm blank) run_tight
  exact ⟨_, _, _, _, w', x, h1, rfl, h2, h3⟩

/-- `C78` applies to complete commits. -/
example : ∃ (c : Cfg) (s : Store) (l : List FileOp) (r : Option Unit), Trace (commitP c s) l r ∧ keyWrites l = 3 := by
  obtain ⟨c, s, l, h, _, _, h2, _⟩ := C78_reached
  exact ⟨c, s, l, _, h, h2⟩

end NuDB
