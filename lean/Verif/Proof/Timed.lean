import Verif.Proof.Blind2
import Verif.Spec.Remove
/- What happens until an operation does not depend on the schedule after it; and which programs may remove the log
file. -/
namespace NuDB

open Spec

/-- `m` consults the schedule only for the operations it makes, dies where the schedule tells it to, and changes nothing
without operation. If `kp`, it never removes the log file. -/
structure Timed (kp : Prop) (m : M α) : Prop where
  mono : ∀ σ w, w.clock ≤ (m σ w).2.clock
  congr : ∀ σ σ' w, (∀ i, w.clock ≤ i → i < (m σ w).2.clock → σ' i = σ i) → m σ' w = m σ w
  still : ∀ σ w, (m σ w).2.clock = w.clock → (m σ w).2.fs = w.fs
  dies : ∀ σ w i, w.clock ≤ i → σ i = .crash 0 → i < (m σ w).2.clock →
    i + 1 = (m σ w).2.clock ∧ (m σ w).1 = .error .crash
  first : ∀ σ w, σ w.clock = .crash 0 → (m σ w).2.fs .log = none → w.fs .log = none
  keep : kp → ∀ σ w, w.fs .log ≠ none → (m σ w).2.fs .log ≠ none

section
variable {p q : Path} {α β : Type} {kp : Prop}

theorem Timed.noOp {m : M α} (h : ∀ σ w, (m σ w).2.clock = w.clock ∧ (m σ w).2.fs = w.fs)
    (h' : ∀ σ σ' w, m σ' w = m σ w) : Timed kp m where
  mono := fun σ w => by rw [(h σ w).1]; exact Nat.le_refl _
  congr := fun σ σ' w _ => h' σ σ' w
  still := fun σ w _ => (h σ w).2
  dies := fun σ w i h1 _ h2 => by rw [(h σ w).1] at h2; omega
  first := fun σ w _ h1 => by rw [← (h σ w).2]; exact h1
  keep := fun _ σ w h1 => by rw [(h σ w).2]; exact h1

theorem Timed.ret (a : α) : Timed kp (M.ret a) := .noOp (fun _ _ => ⟨rfl, rfl⟩) (fun _ _ _ => rfl)
theorem Timed.pure (a : α) : Timed kp (Pure.pure a : M α) := .noOp (fun _ _ => ⟨rfl, rfl⟩) (fun _ _ _ => rfl)
theorem Timed.raise (x : Exc) : Timed kp (M.raise x : M α) := .noOp (fun _ _ => ⟨rfl, rfl⟩) (fun _ _ _ => rfl)
theorem Timed.fail (e : Err) : Timed kp (M.fail e : M α) := .noOp (fun _ _ => ⟨rfl, rfl⟩) (fun _ _ _ => rfl)
theorem Timed.lift (r : Res α) : Timed kp (M.lift r) := .noOp (fun _ _ => ⟨rfl, rfl⟩) (fun _ _ _ => rfl)
theorem Timed.check (r : Except Err α) : Timed kp (M.check r) := by
  refine .noOp (fun _ _ => ?_) (fun _ _ _ => rfl); unfold M.check; cases r <;> exact ⟨rfl, rfl⟩
theorem Timed.emit (e : Event) : Timed kp (NuDB.emit e) := .noOp (fun _ _ => ⟨rfl, rfl⟩) (fun _ _ _ => rfl)
theorem Timed.history : Timed kp NuDB.history := .noOp (fun _ _ => ⟨rfl, rfl⟩) (fun _ _ _ => rfl)
theorem Timed.lookupFuel : Timed kp NuDB.lookupFuel := .noOp (fun _ _ => ⟨rfl, rfl⟩) (fun _ _ _ => rfl)

theorem bind_run {m : M α} {k : α → M β} {σ : Schedule} {w : World} :
    (m >>= k) σ w = match m σ w with
      | (.ok a, w') => k a σ w'
      | (.error x, w') => (.error x, w') := rfl

theorem Timed.bind {m : M α} {k : α → M β} (h : Timed kp m) (hk : ∀ a, Timed kp (k a)) : Timed kp (m >>= k) where
  mono := by
    intro σ w
    rw [bind_run]
    have := h.mono σ w
    cases e : m σ w with
    | mk r w' =>
      rw [e] at this
      cases r with
      | ok a => exact Nat.le_trans this ((hk a).mono σ w')
      | error x => exact this
  congr := by
    intro σ σ' w hs
    rw [bind_run] at hs ⊢
    rw [bind_run]
    have h1 := h.mono σ w
    cases e : m σ w with
    | mk r w' =>
      rw [e] at h1 hs
      have e' : m σ' w = m σ w := by
        apply h.congr
        intro i hi hi'
        rw [e] at hi'
        apply hs i hi
        cases r with
        | ok a => exact Nat.lt_of_lt_of_le hi' ((hk a).mono σ w')
        | error x => exact hi'
      rw [e', e]
      cases r with
      | ok a => exact (hk a).congr σ σ' w' (fun i hi hi' => hs i (Nat.le_trans h1 hi) hi')
      | error x => rfl
  still := by
    intro σ w
    rw [bind_run]
    have h1 := h.mono σ w
    have h2 := h.still σ w
    cases e : m σ w with
    | mk r w' =>
      rw [e] at h1 h2
      cases r with
      | ok a =>
        intro h3
        have h4 := (hk a).mono σ w'
        simp only at h1 h3 h2
        rw [(hk a).still σ w' (by omega), h2 (by omega)]
      | error x => exact h2
  dies := by
    intro σ w i hi hc
    rw [bind_run]
    have h2 := h.dies σ w i hi hc
    cases e : m σ w with
    | mk r w' =>
      rw [e] at h2
      cases r with
      | ok a =>
        intro h3
        by_cases hlt : i < w'.clock
        · have := (h2 hlt).2
          cases this
        · exact (hk a).dies σ w' i (by omega) hc h3
      | error x => intro h3; exact ⟨(h2 h3).1, by have := (h2 h3).2; simp only [Except.error.injEq] at this; rw [this]⟩
  first := by
    intro σ w hc
    rw [bind_run]
    have h1 := h.mono σ w
    have h2 := h.dies σ w w.clock (Nat.le_refl _) hc
    have h3 := h.first σ w hc
    have h4 := h.still σ w
    cases e : m σ w with
    | mk r w' =>
      rw [e] at h1 h2 h3 h4
      cases r with
      | ok a =>
        intro h5
        by_cases hlt : w.clock < w'.clock
        · have := (h2 hlt).2
          cases this
        · have hcl : w'.clock = w.clock := by simp only at h1; omega
          rw [← h4 hcl]
          exact (hk a).first σ w' (by rw [hcl]; exact hc) h5
      | error x => exact h3
  keep := by
    intro hkp σ w hl
    rw [bind_run]
    have h1 := h.keep hkp σ w hl
    cases e : m σ w with
    | mk r w' =>
      rw [e] at h1
      cases r with
      | ok a => exact (hk a).keep hkp σ w' h1
      | error x => exact h1

theorem attempt_world (m : M α) (σ : Schedule) (w : World) : (M.attempt m σ w).2 = (m σ w).2 := by
  unfold M.attempt
  split <;> (rename_i e; rw [e])

theorem Timed.attempt {m : M α} (h : Timed kp m) : Timed kp (M.attempt m) where
  mono := fun σ w => by rw [attempt_world]; exact h.mono σ w
  congr := fun σ σ' w hs => by
    rw [attempt_world] at hs
    have := h.congr σ σ' w hs
    unfold M.attempt
    rw [this]
  still := fun σ w => by rw [attempt_world]; exact h.still σ w
  dies := fun σ w i h1 h2 h3 => by
    rw [attempt_world] at h3 ⊢
    have := h.dies σ w i h1 h2 h3
    refine ⟨this.1, ?_⟩
    have h4 := this.2
    unfold M.attempt
    cases e : m σ w with
    | mk r w' => rw [e] at h4; cases h4; rfl
  first := fun σ w => by rw [attempt_world]; exact h.first σ w
  keep := fun hk σ w => by rw [attempt_world]; exact h.keep hk σ w

theorem Timed.fileOp {ok : Fs → Except Exc α × Fs} {part : Fs → Nat → Fs}
    (h1 : ∀ fs, part fs 0 .log = none → fs .log = none)
    (h2 : kp → ∀ fs, fs .log ≠ none → (ok fs).2 .log ≠ none ∧ ∀ k, part fs k .log ≠ none) : Timed kp (fileOp ok part) where
  mono := by intro σ w; unfold NuDB.fileOp; split <;> exact Nat.le_succ _
  congr := by
    intro σ σ' w h
    have hc : (NuDB.fileOp ok part σ w).2.clock = w.clock + 1 := by unfold NuDB.fileOp; split <;> rfl
    have := h w.clock (Nat.le_refl _) (by omega)
    unfold NuDB.fileOp
    rw [this]
  still := by
    intro σ w h
    have hc : (NuDB.fileOp ok part σ w).2.clock = w.clock + 1 := by unfold NuDB.fileOp; split <;> rfl
    omega
  dies := by
    intro σ w i hi hc hlt
    have hk : (NuDB.fileOp ok part σ w).2.clock = w.clock + 1 := by unfold NuDB.fileOp; split <;> rfl
    obtain rfl : i = w.clock := by omega
    refine ⟨hk.symm, ?_⟩
    unfold NuDB.fileOp
    rw [hc]
  first := by
    intro σ w hc
    unfold NuDB.fileOp
    rw [hc]
    exact h1 _
  keep := by
    intro hkp σ w hl
    unfold NuDB.fileOp
    split
    · exact (h2 hkp _ hl).1
    · exact (h2 hkp _ hl).2 _
    · exact (h2 hkp _ hl).2 _

theorem set_ne_none {fs : Fs} {f : FileSt} (h : fs p ≠ none) : (fs.set q (some f)) p ≠ none := by
  unfold Fs.set
  split
  · exact fun h => by cases h
  · exact h

theorem set_none {fs : Fs} {f g : FileSt} (hq : fs q = some g) (h : (fs.set q (some f)) p = none) : fs p = none := by
  unfold Fs.set at h
  split at h
  · cases h
  · exact h

theorem Timed.fOpen : Timed kp (fOpen q) := by
  apply Timed.fileOp
  · intro fs h; exact h
  · intro _ fs h; refine ⟨?_, fun _ => h⟩; split <;> exact h

theorem Timed.fSize : Timed kp (fSize q) := by
  apply Timed.fileOp
  · intro fs h; exact h
  · intro _ fs h; refine ⟨?_, fun _ => h⟩; split <;> exact h

theorem Timed.fRead {o n : Nat} : Timed kp (fRead q o n) := by
  apply Timed.fileOp
  · intro fs h; exact h
  · intro _ fs h; refine ⟨?_, fun _ => h⟩; repeat' split
    all_goals exact h

theorem Timed.fCreate : Timed kp (fCreate q) := by
  apply Timed.fileOp
  · intro fs h; rw [if_neg (by omega)] at h; exact h
  · intro _ fs h
    refine ⟨?_, fun _ => ?_⟩
    · split
      · exact h
      · exact set_ne_none h
    · split
      · exact set_ne_none h
      · exact h

theorem Timed.fErase (h : q ≠ .log ∨ ¬ kp) : Timed kp (fErase q) := by
  apply Timed.fileOp
  · intro fs h; exact h
  · intro hk fs hl
    have hq : q ≠ .log := h.resolve_right (fun h => h hk)
    refine ⟨?_, fun _ => hl⟩
    split
    · show (fs.set q none) .log ≠ none
      rw [Fs.set_other _ _ (Ne.symm hq)]
      exact hl
    · exact hl

theorem Timed.fWrite {o : Nat} {bs : Bytes} : Timed kp (fWrite q o bs) := by
  apply Timed.fileOp
  · intro fs h
    cases e : fs q with
    | none => simp only [e] at h; exact h
    | some f => simp only [e] at h; exact set_none e h
  · intro _ fs h
    cases e : fs q with
    | none => exact ⟨h, fun _ => h⟩
    | some f => exact ⟨set_ne_none h, fun _ => set_ne_none h⟩

theorem Timed.fAppend {o : Nat} {bs : Bytes} : Timed kp (fAppend q o bs) := by
  apply Timed.fileOp
  · intro fs h
    cases e : fs q with
    | none => simp only [e] at h; exact h
    | some f =>
      simp only [e] at h
      split at h
      · exact set_none e h
      · exact h
  · intro _ fs h
    cases e : fs q with
    | none => exact ⟨h, fun _ => h⟩
    | some f =>
      dsimp only
      split
      · exact ⟨set_ne_none h, fun _ => set_ne_none h⟩
      · exact ⟨h, fun _ => h⟩

theorem Timed.fSync : Timed kp (fSync q) := by
  apply Timed.fileOp
  · intro fs h; exact h
  · intro _ fs h
    refine ⟨?_, fun _ => h⟩
    split
    · exact set_ne_none h
    · exact h

theorem Timed.fTrunc {n : Nat} : Timed kp (fTrunc q n) := by
  apply Timed.fileOp
  · intro fs h; exact h
  · intro _ fs h
    refine ⟨?_, fun _ => h⟩
    split
    · exact set_ne_none h
    · exact h

end

/-- Apply the rules above. -/
macro "timed_" : tactic => `(tactic| repeat' (first
  | assumption
  | exact Timed.ret _ | exact Timed.pure _ | exact Timed.raise _ | exact Timed.fail _ | exact Timed.lift _
  | exact Timed.check _ | exact Timed.emit _ | exact Timed.history | exact Timed.lookupFuel
  | exact Timed.fOpen | exact Timed.fSize | exact Timed.fRead | exact Timed.fCreate
  | exact Timed.fWrite | exact Timed.fAppend | exact Timed.fSync | exact Timed.fTrunc
  | apply Timed.bind | apply Timed.attempt | intro _ | split))

/-- As `timed_`, with rules for given functions. -/
macro "timed!" "[" ts:term,* "]" : tactic => do
  let ts := ts.getElems
  let mut alts ← `(tactic| fail)
  for t in ts do
    alts ← `(tactic| first | exact $t | $alts:tactic)
  `(tactic| repeat' (first
    | $alts:tactic
    | assumption
    | exact Timed.ret _ | exact Timed.pure _ | exact Timed.raise _ | exact Timed.fail _ | exact Timed.lift _
    | exact Timed.check _ | exact Timed.emit _ | exact Timed.history | exact Timed.lookupFuel
    | exact Timed.fOpen | exact Timed.fSize | exact Timed.fRead | exact Timed.fCreate
    | exact Timed.fWrite | exact Timed.fAppend | exact Timed.fSync | exact Timed.fTrunc
    | apply Timed.bind | apply Timed.attempt | intro _ | dsimp only | split))

section
variable {q : Path} {c : Cfg} {kp : Prop}

theorem Timed.readDatHeader : Timed kp readDatHeader := by unfold NuDB.readDatHeader; timed_
theorem Timed.readKeyHeader : Timed kp readKeyHeader := by unfold NuDB.readKeyHeader; timed_
theorem Timed.readLogHeader : Timed kp readLogHeader := by unfold NuDB.readLogHeader; timed_
theorem Timed.eraseFile (h : q ≠ .log ∨ ¬ kp) : Timed kp (eraseFile q) := by unfold NuDB.eraseFile; have := Timed.fErase h; timed_
theorem Timed.readFile {b : Bkt} {o : Nat} : Timed kp (b.readFile q o) := by unfold Bkt.readFile; timed_
theorem Timed.writeFile {b : Bkt} {o : Nat} : Timed kp (b.writeFile q o) := by unfold Bkt.writeFile; timed_
theorem Timed.prepare {r : Reader} {n : Nat} : Timed kp (r.prepare c n) := by unfold Reader.prepare; timed_
theorem Timed.readHead {b : Bkt} {r : Reader} : Timed kp (b.readHead c r) := by
  unfold Bkt.readHead; apply Timed.bind Timed.prepare; timed_
theorem Timed.readBody {b : Bkt} {r : Reader} : Timed kp (b.readBody c r) := by
  unfold Bkt.readBody; apply Timed.bind Timed.prepare; timed_
theorem Timed.clearLog : Timed False clearLog := by unfold NuDB.clearLog; have := Timed.fErase (q := .log) (kp := False) (.inr id); timed_
theorem Timed.truncFiles {lh : LogHeader} : Timed False (truncFiles lh) := by
  have := Timed.clearLog
  have := Timed.fErase (q := .key) (kp := False) (.inr id)
  unfold NuDB.truncFiles; timed_
theorem Timed.recoverWrite {kh : KeyHeader} {d n : Nat} {b : Bkt} : Timed kp (recoverWrite kh d n b) := by
  unfold NuDB.recoverWrite
  repeat' first | exact Timed.fail _ | split
  timed_

theorem Timed.recoverStep {kh : KeyHeader} {d : Nat} {b : Bkt} {r : Reader} : Timed kp (recoverStep c kh d b r) := by
  unfold NuDB.recoverStep
  repeat' first
    | exact Timed.ret _ | exact Timed.fail _ | exact Timed.lift _ | exact Timed.recoverWrite
    | exact Timed.attempt Timed.prepare | exact Timed.attempt Timed.readHead
    | exact Timed.attempt Timed.readBody | apply Timed.bind | intro _ | split

theorem Timed.recoverLoop {kh : KeyHeader} {d : Nat} :
    ∀ (fuel : Nat) (b : Bkt) (r : Reader), Timed kp (recoverLoop c kh d fuel b r) := by
  intro fuel
  induction fuel with
  | zero => intro b r; exact Timed.raise _
  | succ n ih =>
    intro b r
    unfold NuDB.recoverLoop
    apply Timed.bind Timed.recoverStep
    intro a
    split
    · exact Timed.ret _
    · exact ih _ _

theorem Timed.replayLog {dh : DatHeader} {lh : LogHeader} {a b : Nat} : Timed kp (replayLog c dh lh a b) := by
  unfold NuDB.replayLog
  apply Timed.bind Timed.readKeyHeader; intro _
  repeat' first
    | exact Timed.check _ | exact Timed.lift _ | exact Timed.recoverLoop _ _ _ | apply Timed.bind | intro _

theorem Timed.recover : Timed False (recover c) := by
  unfold NuDB.recover
  repeat' first
    | exact Timed.readDatHeader | exact Timed.eraseFile (.inr id) | exact Timed.clearLog | exact Timed.truncFiles
    | exact Timed.replayLog | exact Timed.attempt Timed.readLogHeader | exact Timed.fOpen | exact Timed.fSize
    | exact Timed.fErase (.inr id) | exact Timed.fail _ | exact Timed.check _ | exact Timed.ret _
    | exact Timed.attempt Timed.fOpen | apply Timed.bind | intro _ | split

theorem Timed.openStore : Timed False (openStore c) := by
  unfold NuDB.openStore
  apply Timed.bind Timed.recover; intro _
  repeat' first
    | exact Timed.readDatHeader | exact Timed.readKeyHeader | exact Timed.fOpen | exact Timed.fCreate
    | exact Timed.check _ | exact Timed.fail _ | exact Timed.ret _ | apply Timed.bind | intro _ | split

theorem Timed.fetchScan {n h : Nat} {key : Bytes} {b : Bkt} :
    ∀ fuel i, Timed kp (fetchScan n h key b fuel i) := by
  intro fuel
  induction fuel with
  | zero => intro i; exact Timed.raise _
  | succ n ih =>
    intro i
    unfold NuDB.fetchScan
    split
    · apply Timed.bind (Timed.lift _); intro _
      split
      · exact Timed.ret _
      · apply Timed.bind Timed.fRead; intro _
        split
        · exact Timed.ret _
        · exact ih _
    · exact Timed.ret _

theorem Timed.fetchBucket {kh : KeyHeader} {h : Nat} {key : Bytes} :
    ∀ fuel b, Timed kp (fetchBucket c kh h key fuel b) := by
  intro fuel
  induction fuel with
  | zero => intro i; exact Timed.raise _
  | succ n ih =>
    intro b
    unfold NuDB.fetchBucket
    apply Timed.bind (Timed.lift _); intro _
    apply Timed.bind (Timed.fetchScan _ _); intro _
    split
    · exact Timed.ret _
    · split
      · exact Timed.fail _
      · apply Timed.bind (Timed.lift _); intro _
        apply Timed.bind Timed.readFile; intro _
        exact ih _

theorem Timed.fetch {s : Store} {key : Bytes} : Timed kp (fetch c s key) := by
  unfold NuDB.fetch
  repeat' first
    | exact Timed.fetchBucket _ _ | exact Timed.lift _ | exact Timed.fail _ | exact Timed.ret _
    | exact Timed.lookupFuel | exact Timed.readFile | apply Timed.bind | intro _ | split

end

section
variable {c : Cfg} {kp : Prop}

theorem Timed.existsScan {n h : Nat} {key : Bytes} {b : Bkt} :
    ∀ fuel i, Timed kp (existsScan n h key b fuel i) := by
  intro fuel
  induction fuel with
  | zero => intro i; exact Timed.raise _
  | succ n ih => intro i; unfold NuDB.existsScan; timed! [ih _]

theorem Timed.existsBucket {kh : KeyHeader} {h : Nat} {key : Bytes} :
    ∀ fuel b, Timed kp (existsBucket c kh h key fuel b) := by
  intro fuel
  induction fuel with
  | zero => intro i; exact Timed.raise _
  | succ n ih => intro b; unfold NuDB.existsBucket; timed! [ih _, Timed.existsScan _ _, Timed.readFile]

theorem Timed.insert {s : Store} {k v : Bytes} : Timed kp (insert c s k v) := by
  have h : ∀ h, Timed kp (insertCheck c s h k) := by
    intro h; unfold NuDB.insertCheck; timed! [Timed.existsBucket _ _, Timed.readFile]
  unfold NuDB.insert
  timed! [h _]

theorem Timed.writerFlush {w : Writer} : Timed kp w.flush := by unfold Writer.flush; timed_
theorem Timed.append {w : Writer} {bs : Bytes} : Timed kp (w.append bs) := by
  unfold Writer.append; timed! [Timed.writerFlush]
theorem Timed.maybeSpill {b : Bkt} {w : Writer} : Timed kp (maybeSpill b w) := by
  unfold NuDB.maybeSpill; timed! [Timed.append]

theorem Timed.splitTmp {n1 n2 buckets modulus : Nat} {tmp : Bkt} :
    ∀ fuel i b1 b2 w, Timed kp (splitTmp n1 n2 buckets modulus tmp fuel i b1 b2 w) := by
  intro fuel
  induction fuel with
  | zero => intro i b1 b2 w; exact Timed.raise _
  | succ n ih => intro i b1 b2 w; unfold NuDB.splitTmp; timed! [ih _ _ _ _, Timed.maybeSpill]

theorem Timed.splitSpills {cap n1 n2 buckets modulus : Nat} :
    ∀ fuel spill b1 b2 tmp w, Timed kp (splitSpills cap n1 n2 buckets modulus fuel spill b1 b2 tmp w) := by
  intro fuel
  induction fuel with
  | zero => intro i b1 b2 tmp w; exact Timed.raise _
  | succ n ih =>
    intro i b1 b2 tmp w
    unfold NuDB.splitSpills; timed! [ih _ _ _ _ _, Timed.splitTmp _ _ _ _ _, Timed.writerFlush, Timed.readFile]

theorem Timed.split {cap n1 n2 buckets modulus : Nat} {b1 b2 tmp : Bkt} {w : Writer} :
    Timed kp (split cap n1 n2 buckets modulus b1 b2 tmp w) := by
  unfold NuDB.split; timed! [Timed.splitSpills _ _ _ _ _ _]

theorem Timed.load {bs n : Nat} {c1 c0 : Cache} : Timed kp (load c bs n c1 c0) := by
  unfold NuDB.load; timed! [Timed.readFile]

theorem Timed.appendData : ∀ (p : Pool) (w : Writer), Timed kp (appendData p w) := by
  intro p
  induction p with
  | nil => intro w; exact Timed.ret _
  | cons it p ih => intro w; unfold NuDB.appendData; timed! [ih _, Timed.append]

theorem Timed.commitInserts {kh : KeyHeader} {t : Nat} :
    ∀ (l : List (Item × Nat)) (x : Work), Timed kp (commitInserts c kh t l x) := by
  have h1 : ∀ x, Timed kp (commitSplit c kh t x) := by
    intro x; unfold commitSplit; timed! [Timed.load, Timed.split]
  have h2 : ∀ it off x, Timed kp (commitInsert c kh t it off x) := by
    intro it off x; unfold commitInsert; timed! [h1 _, Timed.load, Timed.maybeSpill]
  intro l
  induction l with
  | nil => intro x; exact Timed.ret _
  | cons a l ih => intro x; unfold NuDB.commitInserts; timed! [h2 _ _ _, ih _]

theorem Timed.commitPrepare {s : Store} : Timed kp (commitPrepare c s) := by
  unfold NuDB.commitPrepare
  timed! [Timed.appendData _ _, Timed.commitInserts _ _, Timed.writerFlush]

theorem Timed.logRecords {bs : Nat} : ∀ (l : List (Nat × Bytes)) (w : Writer), Timed kp (logRecords bs l w) := by
  intro l
  induction l with
  | nil => intro w; exact Timed.ret _
  | cons a l ih => intro w; unfold NuDB.logRecords; timed! [ih _, Timed.append]

theorem Timed.keyBlocks {bs : Nat} : ∀ (l : List (Nat × Bytes)), Timed kp (keyBlocks bs l) := by
  intro l
  induction l with
  | nil => exact Timed.ret _
  | cons a l ih => unfold NuDB.keyBlocks; timed! [ih, Timed.writeFile]

theorem Timed.commitFinish {bs : Nat} {c0 c1 : Cache} : Timed kp (commitFinish c bs c0 c1) := by
  unfold NuDB.commitFinish NuDB.commitLog
  timed! [Timed.logRecords _ _, Timed.keyBlocks _, Timed.writerFlush]

theorem Timed.commit {s : Store} : Timed kp (commit c s) := by
  unfold NuDB.commit
  timed! [Timed.commitPrepare, Timed.commitFinish]

theorem Timed.flush {s : Store} : Timed kp (flush c s) := by
  unfold NuDB.flush; timed! [Timed.commit]

theorem Timed.close {s : Store} : Timed False (close c s) := by
  unfold NuDB.close; timed! [Timed.flush, Timed.fErase (.inr id)]

theorem Timed.perform {op : Op} {so : Option Store} : Timed False (perform c op so) := by
  unfold Spec.perform
  timed! [Timed.insert, Timed.fetch, Timed.flush, Timed.close, Timed.openStore]

end

end NuDB
