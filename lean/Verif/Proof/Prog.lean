import Verif.Model.Prog
/- Running a tree of file operations without interference is the program of `Model/Store`. -/
namespace NuDB

open Prog

theorem M.bind_assoc (m : M α) (f : α → M β) (g : β → M γ) :
    M.bind (M.bind m f) g = M.bind m (fun a => M.bind (f a) g) := by
  funext σ w
  simp only [M.bind]
  cases m σ w with
  | mk r w' => cases r <;> rfl

theorem toM_bind (p : Prog α) (f : α → Prog β) :
    (p.bind f).toM = M.bind p.toM (fun a => (f a).toM) := by
  induction p with
  | ret a => rfl
  | raise x => rfl
  | size p k ih => simp only [Prog.bind, toM, M.bind_assoc, ih]
  | read p off n k ih => simp only [Prog.bind, toM, M.bind_assoc, ih]
  | write p off bs k ih => simp only [Prog.bind, toM, M.bind_assoc, ih]
  | append p off bs k ih => simp only [Prog.bind, toM, M.bind_assoc, ih]
  | sync p k ih => simp only [Prog.bind, toM, M.bind_assoc, ih]
  | trunc p n k ih => simp only [Prog.bind, toM, M.bind_assoc, ih]

theorem toM_bind' (p : Prog α) (f : α → Prog β) :
    (p >>= f).toM = p.toM >>= (fun a => (f a).toM) := toM_bind p f

theorem toM_lift (r : Res α) : (Prog.lift r).toM = M.lift r := by cases r <;> rfl

theorem toM_fail (e : Err) : (Prog.fail e : Prog α).toM = M.fail e := rfl

theorem toM_ret (a : α) : (Prog.ret a).toM = M.ret a := rfl

theorem toM_raise (x : Exc) : (Prog.raise x : Prog α).toM = M.raise x := rfl

theorem M.bind_ret (m : M α) : M.bind m M.ret = m := by
  funext σ w
  simp only [M.bind]
  cases m σ w with
  | mk r w' => cases r <;> rfl

theorem toM_ite (c : Prop) [Decidable c] (p q : Prog α) :
    (if c then p else q).toM = if c then p.toM else q.toM := by split <;> rfl

theorem toM_read (p : Path) (off n : Nat) : (Prog.read p off n .ret).toM = fRead p off n := M.bind_ret _
theorem toM_size (p : Path) : (Prog.size p .ret).toM = fSize p := M.bind_ret _
theorem toM_write (p : Path) (off : Nat) (bs : Bytes) : (Prog.write p off bs (.ret ())).toM = fWrite p off bs := M.bind_ret _
theorem toM_append (p : Path) (off : Nat) (bs : Bytes) : (Prog.append p off bs (.ret ())).toM = fAppend p off bs := M.bind_ret _
theorem toM_sync (p : Path) : (Prog.sync p (.ret ())).toM = fSync p := M.bind_ret _
theorem toM_trunc (p : Path) (n : Nat) : (Prog.trunc p n (.ret ())).toM = fTrunc p n := M.bind_ret _

theorem readFileP_toM (b : Bkt) (p : Path) (off : Nat) : (b.readFileP p off).toM = b.readFile p off := by
  unfold Bkt.readFileP Bkt.readFile
  simp only [toM_bind', toM_lift, toM_read, toM_ite, toM_fail, toM_ret]

theorem writeFileP_toM (b : Bkt) (p : Path) (off : Nat) : (b.writeFileP p off).toM = b.writeFile p off := by
  unfold Bkt.writeFileP Bkt.writeFile
  simp only [toM_bind', toM_lift, toM_write]

theorem flushP_toM (w : Writer) : w.flushP.toM = w.flush := by
  unfold Writer.flushP Writer.flush
  simp only [toM_ite, toM_ret]
  rfl

theorem appendP_toM (w : Writer) (bs : Bytes) : (w.appendP bs).toM = w.append bs := by
  unfold Writer.appendP Writer.append
  simp only [toM_bind', toM_ite, flushP_toM, toM_ret]

theorem maybeSpillP_toM (b : Bkt) (w : Writer) : (maybeSpillP b w).toM = maybeSpill b w := by
  unfold maybeSpillP maybeSpill
  simp only [toM_bind', toM_ite, toM_lift, appendP_toM, toM_ret]

theorem fetchScanP_toM (keySize h : Nat) (key : Bytes) (b : Bkt) : ∀ fuel i,
    (fetchScanP keySize h key b fuel i).toM = fetchScan keySize h key b fuel i := by
  intro fuel
  induction fuel with
  | zero => intro i; rfl
  | succ fuel ih =>
    intro i
    unfold fetchScanP fetchScan
    simp only [toM_bind', toM_ite, toM_lift, toM_read, toM_ret, ih]

theorem fetchBucketP_toM (c : Cfg) (kh : KeyHeader) (h : Nat) (key : Bytes) : ∀ fuel b,
    (fetchBucketP c kh h key fuel b).toM = fetchBucket c kh h key fuel b := by
  intro fuel
  induction fuel with
  | zero => intro b; rfl
  | succ fuel ih =>
    intro b
    unfold fetchBucketP fetchBucket
    simp only [toM_bind', toM_lift, fetchScanP_toM]
    congr 1; funext i
    congr 1; funext r
    cases r with
    | some v => rfl
    | none => simp only [toM_ite, toM_fail, toM_bind', toM_lift, readFileP_toM, ih]

theorem existsScanP_toM (keySize h : Nat) (key : Bytes) (b : Bkt) : ∀ fuel i,
    (existsScanP keySize h key b fuel i).toM = existsScan keySize h key b fuel i := by
  intro fuel
  induction fuel with
  | zero => intro i; rfl
  | succ fuel ih =>
    intro i
    unfold existsScanP existsScan
    simp only [toM_bind', toM_ite, toM_lift, toM_read, toM_ret, ih]

theorem M.bind_assoc' (m : M α) (f : α → M β) (g : β → M γ) :
    ((m >>= f) >>= g) = (m >>= fun a => f a >>= g) := M.bind_assoc m f g

theorem existsBucketP_toM (c : Cfg) (kh : KeyHeader) (h : Nat) (key : Bytes) : ∀ fuel b,
    (existsBucketP c kh h key fuel b).toM = existsBucket c kh h key fuel b := by
  intro fuel
  induction fuel with
  | zero => intro b; rfl
  | succ fuel ih =>
    intro b
    unfold existsBucketP existsBucket existsFirstP existsRestP
    simp only [toM_bind', toM_ite, toM_lift, existsScanP_toM, toM_ret, readFileP_toM, ih, M.bind_assoc']

theorem splitTmpP_toM (n1 n2 B m : Nat) (tmp : Bkt) : ∀ fuel i b1 b2 w,
    (splitTmpP n1 n2 B m tmp fuel i b1 b2 w).toM = splitTmp n1 n2 B m tmp fuel i b1 b2 w := by
  intro fuel
  induction fuel with
  | zero => intros; rfl
  | succ fuel ih =>
    intros
    unfold splitTmpP splitTmp
    simp only [toM_bind', toM_ite, toM_lift, maybeSpillP_toM, toM_ret, ih]

theorem splitSpillsP_toM (cap n1 n2 B m : Nat) : ∀ fuel spill b1 b2 tmp w,
    (splitSpillsP cap n1 n2 B m fuel spill b1 b2 tmp w).toM =
      splitSpills cap n1 n2 B m fuel spill b1 b2 tmp w := by
  intro fuel
  induction fuel with
  | zero => intros; rfl
  | succ fuel ih =>
    intros
    unfold splitSpillsP splitSpills
    simp only [toM_bind', toM_ite, readFileP_toM, flushP_toM, splitTmpP_toM, toM_ret, ih]

theorem splitP_toM (cap n1 n2 B m : Nat) (b1 b2 tmp : Bkt) (w : Writer) :
    (splitP cap n1 n2 B m b1 b2 tmp w).toM = split cap n1 n2 B m b1 b2 tmp w := by
  unfold splitP split
  simp only [toM_bind', toM_ite, toM_lift, splitSpillsP_toM, toM_ret]

theorem loadP_toM (c : Cfg) (bs n : Nat) (c1 c0 : Cache) : (loadP c bs n c1 c0).toM = load c bs n c1 c0 := by
  unfold loadP load
  cases c1.find n with
  | some p => simp only [toM_bind', toM_lift, toM_ret]
  | none =>
    cases c0.find n with
    | some p => simp only [toM_bind', toM_lift, toM_ret]
    | none => simp only [toM_bind', toM_lift, toM_ret, readFileP_toM]

theorem appendDataP_toM : ∀ (p : Pool) (w : Writer), (appendDataP p w).toM = appendData p w := by
  intro p
  induction p with
  | nil => intro w; rfl
  | cons it p ih =>
    intro w
    unfold appendDataP appendData
    simp only [toM_bind', toM_lift, appendP_toM, toM_ret, ih]

theorem commitSplitP_toM (c : Cfg) (kh : KeyHeader) (t : Nat) (x : Work) :
    (commitSplitP c kh t x).toM = commitSplit c kh t x := by
  unfold commitSplitP commitSplit
  simp only [toM_ite, toM_bind', toM_lift, loadP_toM, splitP_toM, toM_ret]

theorem commitInsertP_toM (c : Cfg) (kh : KeyHeader) (t : Nat) (it : Item) (off : Nat) (x : Work) :
    (commitInsertP c kh t it off x).toM = commitInsert c kh t it off x := by
  unfold commitInsertP commitInsert
  simp only [toM_bind', toM_lift, commitSplitP_toM, loadP_toM, maybeSpillP_toM, toM_ret]

theorem commitInsertsP_toM (c : Cfg) (kh : KeyHeader) (t : Nat) : ∀ l x,
    (commitInsertsP c kh t l x).toM = commitInserts c kh t l x := by
  intro l
  induction l with
  | nil => intro x; rfl
  | cons a l ih =>
    intro x
    obtain ⟨it, off⟩ := a
    unfold commitInsertsP commitInserts
    simp only [toM_bind', commitInsertP_toM, ih]

theorem commitPrepareP_toM (c : Cfg) (s : Store) : (commitPrepareP c s).toM = commitPrepare c s := by
  unfold commitPrepareP commitPrepare
  cases s.ec with
  | some e => simp only [toM_bind', toM_lift, toM_size, toM_fail]
  | none =>
    simp only [toM_bind', toM_lift, toM_size, toM_append, toM_sync, appendDataP_toM,
      commitInsertsP_toM, flushP_toM, toM_ret]

theorem logRecordsP_toM (bs : Nat) : ∀ l w, (logRecordsP bs l w).toM = logRecords bs l w := by
  intro l
  induction l with
  | nil => intro w; rfl
  | cons a l ih =>
    intro w
    obtain ⟨n, p⟩ := a
    unfold logRecordsP logRecords
    simp only [toM_bind', toM_lift, appendP_toM, ih]

theorem commitLogP_toM (c : Cfg) (bs : Nat) (c0 : Cache) : (commitLogP c bs c0).toM = commitLog c bs c0 := by
  unfold commitLogP commitLog
  simp only [toM_bind', toM_size, logRecordsP_toM, flushP_toM, toM_sync]

theorem keyBlocksP_toM (bs : Nat) : ∀ l, (keyBlocksP bs l).toM = keyBlocks bs l := by
  intro l
  induction l with
  | nil => rfl
  | cons a l ih =>
    obtain ⟨n, p⟩ := a
    unfold keyBlocksP keyBlocks
    simp only [toM_bind', toM_lift, writeFileP_toM, ih]

/-- The two parts of the end of a commit are the whole of it. -/
theorem commitFinishP_toM (c : Cfg) (bs : Nat) (c0 c1 : Cache) :
    (commitLogP c bs c0 >>= fun _ => commitKeysP c bs c1).toM = commitFinish c bs c0 c1 := by
  unfold commitKeysP commitFinish
  simp only [toM_bind', commitLogP_toM, keyBlocksP_toM, toM_sync, toM_trunc]

end NuDB
