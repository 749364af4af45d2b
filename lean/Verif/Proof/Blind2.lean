import Verif.Proof.Blind
import Verif.Spec.History
/- The calls of a client do not depend on what has been synced. -/
namespace NuDB

open Spec

/-- As `blind`, with rules for given functions. -/
local macro "blind!" "[" ts:term,* "]" : tactic => do
  let ts := ts.getElems
  let mut alts ← `(tactic| fail)
  for t in ts do
    alts ← `(tactic| first | exact $t | $alts:tactic)
  `(tactic| repeat' (first
    | $alts:tactic
    | assumption
    | exact Blind.ret _ | exact Blind.pure _ | exact Blind.raise _ | exact Blind.fail _ | exact Blind.lift _
    | exact Blind.check _ | exact Blind.emit _ | exact Blind.history | exact Blind.lookupFuel
    | exact Blind.fOpen | exact Blind.fSize | exact Blind.fRead | exact Blind.fCreate | exact Blind.fErase
    | exact Blind.fWrite | exact Blind.fAppend | exact Blind.fSync | exact Blind.fTrunc
    | apply Blind.bind | apply Blind.attempt | intro _ | dsimp only | split))

section
variable {c : Cfg}

theorem Blind.existsScan {n h : Nat} {key : Bytes} {b : Bkt} :
    ∀ fuel i, Blind (existsScan n h key b fuel i) := by
  intro fuel
  induction fuel with
  | zero => intro i; exact Blind.raise _
  | succ n ih => intro i; unfold NuDB.existsScan; blind! [ih _]

theorem Blind.existsBucket {kh : KeyHeader} {h : Nat} {key : Bytes} :
    ∀ fuel b, Blind (existsBucket c kh h key fuel b) := by
  intro fuel
  induction fuel with
  | zero => intro i; exact Blind.raise _
  | succ n ih => intro b; unfold NuDB.existsBucket; blind! [ih _, Blind.existsScan _ _, Blind.readFile]

theorem Blind.insert {s : Store} {k v : Bytes} : Blind (insert c s k v) := by
  have h : ∀ h, Blind (insertCheck c s h k) := by
    intro h; unfold NuDB.insertCheck; blind! [Blind.existsBucket _ _, Blind.readFile]
  unfold NuDB.insert
  blind! [h _]

theorem Blind.writerFlush {w : Writer} : Blind w.flush := by unfold Writer.flush; blind
theorem Blind.append {w : Writer} {bs : Bytes} : Blind (w.append bs) := by
  unfold Writer.append; blind! [Blind.writerFlush]
theorem Blind.maybeSpill {b : Bkt} {w : Writer} : Blind (maybeSpill b w) := by
  unfold NuDB.maybeSpill; blind! [Blind.append]

theorem Blind.splitTmp {n1 n2 buckets modulus : Nat} {tmp : Bkt} :
    ∀ fuel i b1 b2 w, Blind (splitTmp n1 n2 buckets modulus tmp fuel i b1 b2 w) := by
  intro fuel
  induction fuel with
  | zero => intro i b1 b2 w; exact Blind.raise _
  | succ n ih => intro i b1 b2 w; unfold NuDB.splitTmp; blind! [ih _ _ _ _, Blind.maybeSpill]

theorem Blind.splitSpills {cap n1 n2 buckets modulus : Nat} :
    ∀ fuel spill b1 b2 tmp w, Blind (splitSpills cap n1 n2 buckets modulus fuel spill b1 b2 tmp w) := by
  intro fuel
  induction fuel with
  | zero => intro i b1 b2 tmp w; exact Blind.raise _
  | succ n ih =>
    intro i b1 b2 tmp w
    unfold NuDB.splitSpills; blind! [ih _ _ _ _ _, Blind.splitTmp _ _ _ _ _, Blind.writerFlush, Blind.readFile]

theorem Blind.split {cap n1 n2 buckets modulus : Nat} {b1 b2 tmp : Bkt} {w : Writer} :
    Blind (split cap n1 n2 buckets modulus b1 b2 tmp w) := by
  unfold NuDB.split; blind! [Blind.splitSpills _ _ _ _ _ _]

theorem Blind.load {bs n : Nat} {c1 c0 : Cache} : Blind (load c bs n c1 c0) := by
  unfold NuDB.load; blind! [Blind.readFile]

theorem Blind.appendData : ∀ (p : Pool) (w : Writer), Blind (appendData p w) := by
  intro p
  induction p with
  | nil => intro w; exact Blind.ret _
  | cons it p ih => intro w; unfold NuDB.appendData; blind! [ih _, Blind.append]

theorem Blind.commitInserts {kh : KeyHeader} {t : Nat} :
    ∀ (l : List (Item × Nat)) (x : Work), Blind (commitInserts c kh t l x) := by
  have h1 : ∀ x, Blind (commitSplit c kh t x) := by
    intro x; unfold commitSplit; blind! [Blind.load, Blind.split]
  have h2 : ∀ it off x, Blind (commitInsert c kh t it off x) := by
    intro it off x; unfold commitInsert; blind! [h1 _, Blind.load, Blind.maybeSpill]
  intro l
  induction l with
  | nil => intro x; exact Blind.ret _
  | cons a l ih => intro x; unfold NuDB.commitInserts; blind! [h2 _ _ _, ih _]

theorem Blind.commitPrepare {s : Store} : Blind (commitPrepare c s) := by
  unfold NuDB.commitPrepare
  blind! [Blind.appendData _ _, Blind.commitInserts _ _, Blind.writerFlush]

theorem Blind.logRecords {bs : Nat} : ∀ (l : List (Nat × Bytes)) (w : Writer), Blind (logRecords bs l w) := by
  intro l
  induction l with
  | nil => intro w; exact Blind.ret _
  | cons a l ih => intro w; unfold NuDB.logRecords; blind! [ih _, Blind.append]

theorem Blind.keyBlocks {bs : Nat} : ∀ (l : List (Nat × Bytes)), Blind (keyBlocks bs l) := by
  intro l
  induction l with
  | nil => exact Blind.ret _
  | cons a l ih => unfold NuDB.keyBlocks; blind! [ih, Blind.writeFile]

theorem Blind.commitFinish {bs : Nat} {c0 c1 : Cache} : Blind (commitFinish c bs c0 c1) := by
  unfold NuDB.commitFinish NuDB.commitLog
  blind! [Blind.logRecords _ _, Blind.keyBlocks _, Blind.writerFlush]

theorem Blind.commit {s : Store} : Blind (commit c s) := by
  unfold NuDB.commit
  blind! [Blind.commitPrepare, Blind.commitFinish]

theorem Blind.flush {s : Store} : Blind (flush c s) := by
  unfold NuDB.flush; blind! [Blind.commit]

theorem Blind.close {s : Store} : Blind (close c s) := by
  unfold NuDB.close; blind! [Blind.flush]

theorem Blind.perform {op : Op} {so : Option Store} : Blind (perform c op so) := by
  unfold Spec.perform
  blind! [Blind.insert, Blind.fetch, Blind.flush, Blind.close, Blind.openStore]

end

end NuDB
