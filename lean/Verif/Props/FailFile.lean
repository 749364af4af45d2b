import Verif.Proof.FailFile
import Verif.Proof.Prog
/-
C83: what the failures injected by `test::fail_file` cover.
-/
namespace NuDB.FailFile
open Spec

/-- C83: whatever its target, a run of a program with `fail_file` ends like a run of the model in which some operations fail and none crashes: same result,
same contents of the files. With target 0 nothing fails. -/
theorem _root_.NuDB.C83_covered (p : Prog α) (fs : Fs) (hp : ∀ q, ∃ f, fs q = some f) (t : Nat) :
    ∃ σ : Schedule, (∀ i k, σ i ≠ .crash k) ∧ (t = 0 → σ = calm) ∧
      (run p ⟨t, 0⟩ fs).1 = (p.toM σ ⟨fs, 0, []⟩).1 ∧
      SameContents (run p ⟨t, 0⟩ fs).2.2 (p.toM σ ⟨fs, 0, []⟩).2.fs := by
  obtain ⟨σ, h1, h2, h3⟩ := covered_run p ⟨t, 0⟩ fs fs hp (fun _ => rfl) 0 []
  obtain ⟨g, n, h4, h5⟩ := h3 σ (fun _ _ => rfl)
  exact ⟨σ, h1, h2, by rw [h4], by rw [h4]; exact h5⟩

/-- C83: targets 1, 2, … visit the failures that can be tested one by one, each exactly
once and in order; with any larger target the run is undisturbed. So a test that
increases the target until the run succeeds ends, and has then met all of them. -/
theorem _root_.NuDB.C83_enumerates (p : Prog α) (fs : Fs) (hp : ∀ q, ∃ f, fs q = some f)
    (hu : (p.toM calm ⟨fs, 0, []⟩).1 ≠ .error .ub) (t : Nat) (ht : 0 < t) :
    (t ≤ (failurePoints p fs).length →
      (run p ⟨t, 0⟩ fs).1 = .error (.err .io) ∧ (failurePoints p fs)[t - 1]? = some (run p ⟨t, 0⟩ fs).2.2) ∧
    ((failurePoints p fs).length < t →
      (run p ⟨t, 0⟩ fs).1 = (p.toM calm ⟨fs, 0, []⟩).1 ∧
      SameContents (run p ⟨t, 0⟩ fs).2.2 (p.toM calm ⟨fs, 0, []⟩).2.fs) := by
  obtain ⟨σ, _, h2, h3, h4⟩ := C83_covered p fs hp 0
  rw [h2 rfl] at h3 h4
  obtain ⟨_, h⟩ := enum_run p fs (by rw [h3]; exact hu)
  obtain ⟨h5, h6⟩ := h t 0 ht
  rw [Nat.zero_add] at h5 h6
  refine ⟨h5, fun hl => ?_⟩
  rw [h6 hl]
  exact ⟨h3, h4⟩

/-- C83 for the end of a commit: the log, the buckets and the header of the key file. -/
theorem _root_.NuDB.C83_commit (c : Cfg) (bs : Nat) (c0 c1 : Cache) (fs : Fs) (hp : ∀ q, ∃ f, fs q = some f) (t : Nat) :
    ∃ σ : Schedule, (∀ i k, σ i ≠ .crash k) ∧
      (run (commitLogP c bs c0 >>= fun _ => commitKeysP c bs c1) ⟨t, 0⟩ fs).1 =
        (commitFinish c bs c0 c1 σ ⟨fs, 0, []⟩).1 ∧
      SameContents (run (commitLogP c bs c0 >>= fun _ => commitKeysP c bs c1) ⟨t, 0⟩ fs).2.2
        (commitFinish c bs c0 c1 σ ⟨fs, 0, []⟩).2.fs := by
  obtain ⟨σ, h1, _, h3, h4⟩ := C83_covered (commitLogP c bs c0 >>= fun _ => commitKeysP c bs c1) fs hp t
  rw [commitFinishP_toM] at h3 h4
  exact ⟨σ, h1, h3, h4⟩

/-- What the tests do not meet: a write of four bytes that fails after one. -/
theorem _root_.NuDB.C83_missed : ∃ (p : Prog Unit) (fs : Fs) (σ : Schedule), (∀ q, ∃ f, fs q = some f) ∧ (∀ i k, σ i ≠ .crash k) ∧
    (p.toM calm ⟨fs, 0, []⟩).1 = .ok () ∧
    ∀ t, ¬ SameContents (run p ⟨t, 0⟩ fs).2.2 (p.toM σ ⟨fs, 0, []⟩).2.fs := by
  refine ⟨.write .dat 0 [1, 2, 3, 4] (.ret ()), fun _ => some ⟨[], []⟩, fun _ => .fail 1, fun _ => ⟨_, rfl⟩,
    (fun _ _ h => by cases h), rfl, fun t h => ?_⟩
  have hd := h .dat
  have e : Option.map FileSt.cur ((Prog.toM (.write .dat 0 [1, 2, 3, 4] (.ret ())) (fun _ => Fault.fail 1)
      ⟨fun _ => some ⟨[], []⟩, 0, []⟩).2.fs .dat) = some [1] := by decide
  rw [e] at hd
  match t with
  | 0 => revert hd; decide
  | 1 => revert hd; decide
  | 2 => revert hd; decide
  | t + 3 =>
    have ht : 0 < t + 3 := by omega
    obtain ⟨_, h2⟩ := C83_enumerates (.write .dat 0 [1, 2, 3, 4] (.ret ()) : Prog Unit) (fun _ => some ⟨[], []⟩)
      (fun _ => ⟨_, rfl⟩) (by intro h; cases h) (t + 3) ht
    obtain ⟨_, h3⟩ := h2 (show 2 < t + 3 by omega)
    have := h3 .dat
    rw [hd] at this
    revert this; decide

/-- Nor failures of `size`. -/
theorem _root_.NuDB.C83_size (q : Path) (k : Nat → Prog α) (c : Counter) (fs : Fs) (f : FileSt) (hf : fs q = some f) :
    run (.size q k) c fs = run (k f.cur.length) c fs := by
  simp only [run, FM.bind, size, under, fSize, fileOp, calm, hf]

/-- And nothing is made durable: with or without the call of `sync` the tests see the same, except that the call may fail. -/
theorem _root_.NuDB.C83_sync (q : Path) (k : Prog α) (c : Counter) (fs : Fs) (h : c.fail.1 = false) :
    run (.sync q k) c fs = run k c.fail.2 fs := by
  simp only [run, FM.bind, sync, ifFail, h, Bool.false_eq_true, if_false]

/-- A program of five operations on existing files, with six failures to meet. -/
def sample : Prog Nat :=
  .append .log 0 [1, 2, 3] (.sync .log (.write .key 2 [7, 8] (.read .key 1 3 (fun b => .ret (b.headD 0).toNat))))

def sampleFs : Fs := fun q => if q = .key then some ⟨[0, 5, 0, 0], []⟩ else some ⟨[], []⟩

example : (∀ q, ∃ f, sampleFs q = some f) ∧ (sample.toM calm ⟨sampleFs, 0, []⟩).1 = .ok 5 ∧
    (failurePoints sample sampleFs).map (fun fs => ((fs .key).map FileSt.cur, (fs .log).map FileSt.cur)) =
      [(some [0, 5, 0, 0], some []), (some [0, 5, 0, 0], some [1, 2]), (some [0, 5, 0, 0], some [1, 2, 3]),
       (some [0, 5, 0, 0], some [1, 2, 3]), (some [0, 5, 7, 0], some [1, 2, 3]), (some [0, 5, 7, 8], some [1, 2, 3])] := by
  refine ⟨?_, rfl, by decide⟩
  intro q
  unfold sampleFs
  by_cases h : q = .key
  · rw [if_pos h]; exact ⟨_, rfl⟩
  · rw [if_neg h]; exact ⟨_, rfl⟩

example : (run sample ⟨5, 0⟩ sampleFs).1 = .error (.err .io) := rfl

end NuDB.FailFile
