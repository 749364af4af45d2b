import Verif.Model.Concurrent
import Verif.Proof.Prog
import Verif.Proof.Finish
/- Which file operations a program tree contains, and what they do to the files. -/
namespace NuDB

/-- A file operation. -/
inductive FOp
  | size (p : Path)
  | read (p : Path) (off n : Nat)
  | write (p : Path) (off : Nat) (bs : Bytes)
  | append (p : Path) (off : Nat) (bs : Bytes)
  | sync (p : Path)
  | trunc (p : Path) (n : Nat)

/-- All operations of the tree satisfy `P`, all results satisfy `R`. -/
inductive Uses (P : FOp → Prop) (R : α → Prop) : Prog α → Prop
  | ret {a} (h : R a) : Uses P R (.ret a)
  | raise {x} : Uses P R (.raise x)
  | size {p k} (h : P (.size p)) (hk : ∀ n, Uses P R (k n)) : Uses P R (.size p k)
  | read {p off n k} (h : P (.read p off n)) (hk : ∀ b, Uses P R (k b)) : Uses P R (.read p off n k)
  | write {p off bs k} (h : P (.write p off bs)) (hk : Uses P R k) : Uses P R (.write p off bs k)
  | append {p off bs k} (h : P (.append p off bs)) (hk : Uses P R k) : Uses P R (.append p off bs k)
  | sync {p k} (h : P (.sync p)) (hk : Uses P R k) : Uses P R (.sync p k)
  | trunc {p n k} (h : P (.trunc p n)) (hk : Uses P R k) : Uses P R (.trunc p n k)

section
variable {P : FOp → Prop}

theorem Uses.bind {R : α → Prop} {R' : β → Prop} {p : Prog α} {f : α → Prog β} (h : Uses P R p)
    (hf : ∀ a, R a → Uses P R' (f a)) : Uses P R' (p >>= f) := by
  show Uses P R' (p.bind f)
  induction h with
  | ret h => exact hf _ h
  | raise => exact .raise
  | size h _ ih => exact .size h ih
  | read h _ ih => exact .read h ih
  | write h _ ih => exact .write h ih
  | append h _ ih => exact .append h ih
  | sync h _ ih => exact .sync h ih
  | trunc h _ ih => exact .trunc h ih

theorem Uses.lift {R : α → Prop} {r : Res α} (h : ∀ a, r = .ok a → R a) : Uses P R (Prog.lift r) := by
  cases r with
  | ok a => exact .ret (h a rfl)
  | error x => exact .raise

theorem Uses.liftT {r : Res α} : Uses P (fun _ => True) (Prog.lift r) := .lift (fun _ _ => trivial)

theorem Uses.weaken {R R' : α → Prop} {p : Prog α} (h : Uses P R p) (hr : ∀ a, R a → R' a) : Uses P R' p := by
  induction h with
  | ret h => exact .ret (hr _ h)
  | raise => exact .raise
  | size h _ ih => exact .size h ih
  | read h _ ih => exact .read h ih
  | write h _ ih => exact .write h ih
  | append h _ ih => exact .append h ih
  | sync h _ ih => exact .sync h ih
  | trunc h _ ih => exact .trunc h ih

theorem Uses.ite {R : α → Prop} {cond : Prop} [Decidable cond] {p q : Prog α} (hp : Uses P R p) (hq : Uses P R q) :
    Uses P R (if cond then p else q) := by split <;> assumption

theorem uses_readFileP {b : Bkt} {p : Path} {off : Nat}
    (h : P (.read p off (bucketSize (bucketCapacity b.bs)))) :
    Uses P (fun _ => True) (b.readFileP p off) := by
  unfold Bkt.readFileP
  refine .bind (R := fun _ => True) (.read h (fun _ => .ret trivial)) fun d _ => ?_
  refine .bind .liftT fun m _ => ?_
  refine .bind .liftT fun b' _ => ?_
  exact .ite .raise (.ret trivial)

theorem uses_fetchScanP (hd : ∀ off n, P (.read .dat off n)) {ks h : Nat} {key : Bytes} {b : Bkt} :
    ∀ fuel i, Uses P (fun _ => True) (fetchScanP ks h key b fuel i) := by
  intro fuel
  induction fuel with
  | zero => intro i; exact .raise
  | succ fuel ih =>
    intro i
    unfold fetchScanP
    refine .ite ?_ (.ret trivial)
    refine .bind .liftT fun e _ => ?_
    refine .ite (.ret trivial) ?_
    refine .bind (R := fun _ => True) (.read (hd _ _) (fun _ => .ret trivial)) fun d _ => ?_
    exact .ite (.ret trivial) (ih _)

theorem uses_fetchBucketP (hd : ∀ off n, P (.read .dat off n)) {c : Cfg} {kh : KeyHeader} {h : Nat} {key : Bytes} :
    ∀ fuel b, Uses P (fun _ => True) (fetchBucketP c kh h key fuel b) := by
  intro fuel
  induction fuel with
  | zero => intro i; exact .raise
  | succ fuel ih =>
    intro b
    unfold fetchBucketP
    refine .bind .liftT fun i _ => ?_
    refine .bind (uses_fetchScanP hd _ _) fun r _ => ?_
    cases r with
    | some v => exact .ret trivial
    | none =>
      refine .ite .raise ?_
      refine .bind .liftT fun nb _ => ?_
      exact .bind (uses_readFileP (hd _ _)) fun nb _ => ih _

theorem uses_existsScanP (hd : ∀ off n, P (.read .dat off n)) {ks h : Nat} {key : Bytes} {b : Bkt} :
    ∀ fuel i, Uses P (fun _ => True) (existsScanP ks h key b fuel i) := by
  intro fuel
  induction fuel with
  | zero => intro i; exact .raise
  | succ fuel ih =>
    intro i
    unfold existsScanP
    refine .ite ?_ (.ret trivial)
    refine .bind .liftT fun e _ => ?_
    refine .ite (.ret trivial) ?_
    refine .bind (R := fun _ => True) (.read (hd _ _) (fun _ => .ret trivial)) fun d _ => ?_
    exact .ite (.ret trivial) (ih _)

theorem uses_existsFirstP (hd : ∀ off n, P (.read .dat off n)) {kh : KeyHeader} {h : Nat} {key : Bytes} {b : Bkt} :
    Uses P (fun _ => True) (existsFirstP kh h key b) := by
  unfold existsFirstP
  exact .bind .liftT fun i _ => uses_existsScanP hd _ _

theorem uses_existsRestP (hd : ∀ off n, P (.read .dat off n)) {c : Cfg} {kh : KeyHeader} {next : Bkt → Prog Bool}
    (hn : ∀ b, Uses P (fun _ => True) (next b)) {spill : Nat} :
    Uses P (fun _ => True) (existsRestP c kh next spill) := by
  unfold existsRestP
  refine .ite (.ret trivial) ?_
  refine .bind .liftT fun nb _ => ?_
  exact .bind (uses_readFileP (hd _ _)) fun nb _ => hn _

theorem uses_existsBucketP (hd : ∀ off n, P (.read .dat off n)) {c : Cfg} {kh : KeyHeader} {h : Nat} {key : Bytes} :
    ∀ fuel b, Uses P (fun _ => True) (existsBucketP c kh h key fuel b) := by
  intro fuel
  induction fuel with
  | zero => intro i; exact .raise
  | succ fuel ih =>
    intro b
    unfold existsBucketP
    refine .bind (uses_existsFirstP hd) fun r _ => ?_
    exact .ite (.ret trivial) (uses_existsRestP hd ih)

end

/-- The operations of a flusher that changes at most the key file blocks in `T`, only
appends to the data file, and truncates only the log. -/
def OpOk (T : Nat → Prop) (bs : Nat) : FOp → Prop
  | .write p off b => p = .key ∧ ∃ n, T n ∧ off = (n + 1) * bs ∧ b.length ≤ bs
  | .append p _ _ => p ≠ .key
  | .trunc p _ => p = .log
  | _ => True

section
variable {T : Nat → Prop} {bs : Nat}

/-- The writer is attached to the data file or the log file. -/
def OnAppend (w : Writer) : Prop := w.path ≠ .key

theorem uses_flushP {w : Writer} (h : OnAppend w) : Uses (OpOk T bs) OnAppend w.flushP := by
  unfold Writer.flushP
  exact .ite (.append h (.ret h)) (.ret h)

theorem uses_appendP {w : Writer} {b : Bytes} (h : OnAppend w) : Uses (OpOk T bs) OnAppend (w.appendP b) := by
  unfold Writer.appendP
  split
  · refine .bind (uses_flushP h) fun w hw => ?_
    refine .ret ?_
    show OnAppend _
    unfold OnAppend at *
    split <;> exact hw
  refine .bind (.ret h) fun w hw => ?_
  refine .ret ?_
  show OnAppend _
  unfold OnAppend at *
  split <;> exact hw

theorem uses_maybeSpillP {b : Bkt} {w : Writer} (h : OnAppend w) :
    Uses (OpOk T bs) (fun r : Bkt × Writer => OnAppend r.2) (maybeSpillP b w) := by
  unfold maybeSpillP
  refine .ite ?_ (.ret h)
  refine .bind .liftT fun _ _ => ?_
  refine .bind .liftT fun _ _ => ?_
  refine .bind (uses_appendP h) fun w hw => ?_
  refine .bind .liftT fun _ _ => ?_
  refine .bind .liftT fun _ _ => ?_
  exact .ret hw

theorem uses_splitTmpP {n1 n2 B m : Nat} {tmp : Bkt} : ∀ fuel i b1 b2 w, OnAppend w →
    Uses (OpOk T bs) (fun r : Bkt × Bkt × Writer => OnAppend r.2.2) (splitTmpP n1 n2 B m tmp fuel i b1 b2 w) := by
  intro fuel
  induction fuel with
  | zero => intros; exact .raise
  | succ fuel ih =>
    intro i b1 b2 w hw
    unfold splitTmpP
    refine .ite ?_ (.ret hw)
    refine .bind .liftT fun _ _ => ?_
    refine .bind .liftT fun _ _ => ?_
    refine .bind .liftT fun _ _ => ?_
    refine .ite ?_ ?_
    · refine .bind (uses_maybeSpillP hw) fun r hr => ?_
      obtain ⟨b2, w⟩ := r
      refine .bind .liftT fun _ _ => ?_
      exact ih _ _ _ _ hr
    · refine .bind (uses_maybeSpillP hw) fun r hr => ?_
      obtain ⟨b2, w⟩ := r
      refine .bind .liftT fun _ _ => ?_
      exact ih _ _ _ _ hr

theorem uses_splitSpillsP {cap n1 n2 B m : Nat} : ∀ fuel spill b1 b2 tmp w, OnAppend w →
    Uses (OpOk T bs) (fun r : Bkt × Bkt × Bkt × Writer => OnAppend r.2.2.2)
      (splitSpillsP cap n1 n2 B m fuel spill b1 b2 tmp w) := by
  intro fuel
  induction fuel with
  | zero => intros; exact .raise
  | succ fuel ih =>
    intro spill b1 b2 tmp w hw
    unfold splitSpillsP
    have key : ∀ w, OnAppend w → Uses (OpOk T bs) (fun r : Bkt × Bkt × Bkt × Writer => OnAppend r.2.2.2) (do
        let tmp ← tmp.readFileP .dat spill
        let (b1, b2, w) ← splitTmpP n1 n2 B m tmp (tmp.size + 1) 0 b1 b2 w
        if tmp.spill ≠ 0 then splitSpillsP cap n1 n2 B m fuel tmp.spill b1 b2 tmp w
        else .ret (b1, b2, tmp, w)) := by
      intro w hw
      refine .bind (uses_readFileP trivial) fun tmp _ => ?_
      refine .bind (uses_splitTmpP _ _ _ _ _ hw) fun r hr => ?_
      obtain ⟨b1, b2, w⟩ := r
      exact .ite (ih _ _ _ _ _ hr) (.ret hr)
    split
    · exact .bind (uses_flushP hw) key
    · exact .bind (.ret hw) key

theorem uses_splitP {cap n1 n2 B m : Nat} {b1 b2 tmp : Bkt} {w : Writer} (hw : OnAppend w) :
    Uses (OpOk T bs) (fun r : Bkt × Bkt × Bkt × Writer => OnAppend r.2.2.2)
      (splitP cap n1 n2 B m b1 b2 tmp w) := by
  unfold splitP
  refine .ite (.ret hw) ?_
  refine .bind .liftT fun r _ => ?_
  obtain ⟨b1, b2⟩ := r
  refine .ite ?_ (.ret hw)
  refine .bind .liftT fun _ _ => ?_
  exact uses_splitSpillsP _ _ _ _ _ _ hw

theorem uses_loadP {c : Cfg} {b n : Nat} {c1 c0 : Cache} :
    Uses (OpOk T bs) (fun _ => True) (loadP c b n c1 c0) := by
  unfold loadP
  cases c1.find n with
  | some p =>
    refine .bind .liftT fun _ _ => ?_
    exact .ret trivial
  | none =>
    cases c0.find n with
    | some p =>
      refine .bind .liftT fun _ _ => ?_
      refine .bind .liftT fun r _ => ?_
      exact .ret trivial
    | none =>
      refine .bind .liftT fun _ _ => ?_
      refine .bind (uses_readFileP trivial) fun _ _ => ?_
      refine .bind .liftT fun _ _ => ?_
      refine .bind .liftT fun _ _ => ?_
      exact .ret trivial

theorem uses_appendDataP : ∀ (p : Pool) (w : Writer), OnAppend w →
    Uses (OpOk T bs) (fun r : List (Item × Nat) × Writer => OnAppend r.2) (appendDataP p w) := by
  intro p
  induction p with
  | nil => intro w h; exact .ret h
  | cons it p ih =>
    intro w h
    unfold appendDataP
    refine .bind .liftT fun _ _ => ?_
    refine .bind (uses_appendP h) fun w hw => ?_
    refine .bind (ih w hw) fun r hr => ?_
    exact .ret hr

theorem uses_commitSplitP {c : Cfg} {kh : KeyHeader} {t : Nat} {x : Work} (h : OnAppend x.w) :
    Uses (OpOk T bs) (fun x : Work => OnAppend x.w) (commitSplitP c kh t x) := by
  unfold commitSplitP
  refine .ite ?_ (.ret h)
  refine .bind uses_loadP fun r _ => ?_
  obtain ⟨b1, c1, c0⟩ := r
  refine .bind .liftT fun r _ => ?_
  refine .bind (uses_splitP h) fun r hr => ?_
  obtain ⟨b1, b2, tmp, w⟩ := r
  exact .ret hr

theorem uses_commitInsertP {c : Cfg} {kh : KeyHeader} {t : Nat} {it : Item} {off : Nat} {x : Work} (h : OnAppend x.w) :
    Uses (OpOk T bs) (fun x : Work => OnAppend x.w) (commitInsertP c kh t it off x) := by
  unfold commitInsertP
  refine .bind (uses_commitSplitP h) fun x hx => ?_
  refine .bind .liftT fun _ _ => ?_
  refine .bind uses_loadP fun r _ => ?_
  obtain ⟨b1, c1, c0⟩ := r
  refine .bind (uses_maybeSpillP hx) fun r hr => ?_
  obtain ⟨b, w⟩ := r
  refine .bind .liftT fun _ _ => ?_
  exact .ret hr

theorem uses_commitInsertsP {c : Cfg} {kh : KeyHeader} {t : Nat} : ∀ l x, OnAppend x.w →
    Uses (OpOk T bs) (fun x : Work => OnAppend x.w) (commitInsertsP c kh t l x) := by
  intro l
  induction l with
  | nil => intro x h; exact .ret h
  | cons a l ih =>
    intro x h
    obtain ⟨it, off⟩ := a
    unfold commitInsertsP
    exact .bind (uses_commitInsertP h) fun x hx => ih x hx

theorem uses_commitPrepareP {c : Cfg} {s : Store} :
    Uses (OpOk T bs) (fun _ => True) (commitPrepareP c s) := by
  unfold commitPrepareP
  refine .bind .liftT fun _ _ => ?_
  refine .bind (R := fun _ => True) (.size trivial fun _ => .ret trivial) fun _ _ => ?_
  cases s.ec with
  | some e => exact .raise
  | none =>
    refine .bind (R := fun _ => True) (.size trivial fun _ => .ret trivial) fun _ _ => ?_
    refine .bind (R := fun _ => True) (.append (by simp [OpOk]) (.ret trivial)) fun _ _ => ?_
    refine .bind (R := fun _ => True) (.sync trivial (.ret trivial)) fun _ _ => ?_
    refine .bind (R := fun _ => True) (.size trivial fun _ => .ret trivial) fun _ _ => ?_
    refine .bind (uses_appendDataP _ _ (by simp [OnAppend, Writer.new])) fun r hr => ?_
    refine .bind (uses_commitInsertsP _ _ hr) fun x hx => ?_
    refine .bind (uses_flushP hx) fun w hw => ?_
    exact .ret trivial

theorem uses_logRecordsP {b : Nat} : ∀ l w, OnAppend w → Uses (OpOk T bs) OnAppend (logRecordsP b l w) := by
  intro l
  induction l with
  | nil => intro w h; exact .ret h
  | cons a l ih =>
    intro w h
    obtain ⟨n, p⟩ := a
    unfold logRecordsP
    refine .bind .liftT fun _ _ => ?_
    refine .bind .liftT fun _ _ => ?_
    exact .bind (uses_appendP h) fun w hw => ih w hw

theorem uses_commitLogP {c : Cfg} {b : Nat} {c0 : Cache} :
    Uses (OpOk T bs) (fun _ => True) (commitLogP c b c0) := by
  unfold commitLogP
  refine .bind (R := fun _ => True) (.size trivial fun _ => .ret trivial) fun _ _ => ?_
  refine .bind (uses_logRecordsP _ _ (by simp [OnAppend, Writer.new])) fun w hw => ?_
  refine .bind (uses_flushP hw) fun w hw => ?_
  exact .sync trivial (.ret trivial)

theorem ofMem_bs {n : Nat} {p : Bytes} {b : Bkt} (h : Bkt.ofMem n p = .ok b) : b.bs = n ∧ b.p = p := by
  unfold Bkt.ofMem at h
  simp only [bind, Except.bind, pure, Except.pure] at h
  split at h
  · cases h
  · split at h
    · cases h
    · cases h; exact ⟨rfl, rfl⟩

theorem padded_length {b : Bkt} {q : Bytes} (h : b.padded = .ok q) : q.length = b.p.length := by
  unfold Bkt.padded poke at h
  split at h
  · split at h
    · rename_i h1
      cases h
      exact put_length h1
    · cases h
  · cases h

theorem uses_keyBlocksP : ∀ l : List (Nat × Bytes), (∀ n p, (n, p) ∈ l → T n ∧ p.length ≤ bs) →
    Uses (OpOk T bs) (fun _ => True) (keyBlocksP bs l) := by
  intro l
  induction l with
  | nil => intro _; exact .ret trivial
  | cons a l ih =>
    intro h
    obtain ⟨n, p⟩ := a
    have hp := h n p (by simp)
    unfold keyBlocksP
    refine .bind (.lift (R := fun b => b.p = p) (fun _ hb => (ofMem_bs hb).2)) fun b hb => ?_
    refine .bind (R := fun _ => True) ?_ fun _ _ => ih (fun m q hm => h m q (by simp [hm]))
    unfold Bkt.writeFileP
    refine .bind (.lift (R := fun q => q.length ≤ bs) fun q hq => ?_) fun q hq => ?_
    · rw [padded_length hq, hb]; exact hp.2
    · exact .write ⟨rfl, n, hp.1, rfl, hq⟩ (.ret trivial)

theorem uses_commitKeysP {c : Cfg} {c1 : Cache} (h : ∀ n p, (n, p) ∈ c1 → T n ∧ p.length ≤ bs) :
    Uses (OpOk T bs) (fun _ => True) (commitKeysP c bs c1) := by
  unfold commitKeysP
  refine .bind (uses_keyBlocksP _ fun n p hm => h n p ((c.order_perm c1).mem_iff.mp hm)) fun _ _ => ?_
  refine .bind (R := fun _ => True) (.sync trivial (.ret trivial)) fun _ _ => ?_
  refine .bind (R := fun _ => True) (.sync trivial (.ret trivial)) fun _ _ => ?_
  refine .bind (R := fun _ => True) (.trunc rfl (.ret trivial)) fun _ _ => ?_
  exact .sync trivial (.ret trivial)

end

/-- The data file starts with `D`. -/
def HasD (D : Bytes) (fs : Fs) : Prop := ∃ f, fs .dat = some f ∧ D <+: f.cur

/-- Block `n` of the key file. -/
def KeyBlk (bs : Nat) (n : Nat) (blk : Bytes) (fs : Fs) : Prop :=
  ∃ f, fs .key = some f ∧ (n + 1) * bs + bs ≤ f.cur.length ∧ slice f.cur ((n + 1) * bs) bs = blk

section
variable {T : Nat → Prop} {bs : Nat} {R : α → Prop} {p : Prog α} {f : Fault} {fs : Fs}

theorem hasD_push {D : Bytes} {f : FileSt} {b : Bytes} (h : D <+: f.cur) :
    D <+: (f.push (.write f.cur.length b)).cur := by
  rw [cur_push]
  simp only [POp.apply, writeAt_end]
  exact h.trans (List.prefix_append _ _)

theorem blk_disjoint {bs n m : Nat} (h : n ≠ m) :
    (n + 1) * bs + bs ≤ (m + 1) * bs ∨ (m + 1) * bs + bs ≤ (n + 1) * bs := by
  rcases Nat.lt_or_gt_of_ne h with h | h
  · left
    have : (n + 1 + 1) * bs ≤ (m + 1) * bs := Nat.mul_le_mul_right _ (by omega)
    rw [Nat.add_mul (n + 1) 1 bs] at this; omega
  · right
    have : (m + 1 + 1) * bs ≤ (n + 1) * bs := Nat.mul_le_mul_right _ (by omega)
    rw [Nat.add_mul (m + 1) 1 bs] at this; omega

theorem keyBlk_push {f : FileSt} {n m : Nat} {b : Bytes} (hl : (n + 1) * bs + bs ≤ f.cur.length)
    (hm : n ≠ m) (hb : b.length ≤ bs) :
    (n + 1) * bs + bs ≤ (f.push (.write ((m + 1) * bs) b)).cur.length ∧
    slice (f.push (.write ((m + 1) * bs) b)).cur ((n + 1) * bs) bs = slice f.cur ((n + 1) * bs) bs := by
  rw [cur_push]
  simp only [POp.apply]
  have := writeAt_le_length f.cur b ((m + 1) * bs)
  have hd := blk_disjoint (bs := bs) hm
  refine ⟨by omega, ?_⟩
  exact writeAt_slice_other (by omega) hl

/-- One file operation of a flusher leaves alone what readers rely on. -/
theorem step_keeps (h : Uses (OpOk T bs) R p) :
    Uses (OpOk T bs) R (p.step f fs).1 ∧
    (∀ D, HasD D fs → HasD D (p.step f fs).2) ∧
    (∀ n blk, KeyBlk bs n blk fs → ¬ T n → KeyBlk bs n blk (p.step f fs).2) := by
  cases h with
  | ret h => exact ⟨.ret h, fun _ h => h, fun _ _ h _ => h⟩
  | raise => exact ⟨.raise, fun _ h => h, fun _ _ h _ => h⟩
  | size h hk =>
    rename_i q k
    simp only [Prog.step, Prog.after, fSize, fileOp]
    cases f with
    | none =>
      simp only
      cases hq : fs q with
      | none => exact ⟨.raise, fun _ h => h, fun _ _ h _ => h⟩
      | some f => exact ⟨hk _, fun _ h => h, fun _ _ h _ => h⟩
    | fail j => exact ⟨.raise, fun _ h => h, fun _ _ h _ => h⟩
    | crash j => exact ⟨.raise, fun _ h => h, fun _ _ h _ => h⟩
  | read h hk =>
    rename_i q off n k
    simp only [Prog.step, Prog.after, fRead, fileOp]
    cases f with
    | none =>
      simp only
      cases hq : fs q with
      | none => exact ⟨.raise, fun _ h => h, fun _ _ h _ => h⟩
      | some f =>
        simp only
        split
        · rename_i he; split at he <;> cases he; exact ⟨hk _, fun _ h => h, fun _ _ h _ => h⟩
        · rename_i he; split at he <;> cases he; exact ⟨.raise, fun _ h => h, fun _ _ h _ => h⟩
    | fail j => exact ⟨.raise, fun _ h => h, fun _ _ h _ => h⟩
    | crash j => exact ⟨.raise, fun _ h => h, fun _ _ h _ => h⟩
  | sync h hk =>
    rename_i q k
    simp only [Prog.step, Prog.after, fSync, fileOp]
    cases f with
    | none =>
      simp only
      cases hq : fs q with
      | none => exact ⟨.raise, fun _ h => h, fun _ _ h _ => h⟩
      | some f =>
        simp only
        refine ⟨hk, ?_, ?_⟩
        · rintro D ⟨g, h1, h2⟩
          by_cases hd : q = .dat
          · subst hd
            rw [hq] at h1; cases h1
            exact ⟨_, Fs.set_same _ _ _, by simpa using h2⟩
          · exact ⟨g, by rw [Fs.set_other _ _ (Ne.symm hd)]; exact h1, h2⟩
        · rintro n blk ⟨g, h1, h2⟩ _
          by_cases hd : q = .key
          · subst hd
            rw [hq] at h1; cases h1
            exact ⟨_, Fs.set_same _ _ _, by simpa using h2⟩
          · exact ⟨g, by rw [Fs.set_other _ _ (Ne.symm hd)]; exact h1, h2⟩
    | fail j => exact ⟨.raise, fun _ h => h, fun _ _ h _ => h⟩
    | crash j => exact ⟨.raise, fun _ h => h, fun _ _ h _ => h⟩
  | trunc h hk =>
    rename_i q n k
    have h : q = .log := h
    subst h
    simp only [Prog.step, Prog.after, fTrunc, fileOp]
    cases f with
    | none =>
      simp only
      cases hq : fs .log with
      | none => exact ⟨.raise, fun _ h => h, fun _ _ h _ => h⟩
      | some f => exact ⟨hk, fun _ h => h, fun _ _ h _ => h⟩
    | fail j => exact ⟨.raise, fun _ h => h, fun _ _ h _ => h⟩
    | crash j => exact ⟨.raise, fun _ h => h, fun _ _ h _ => h⟩
  | write h hk =>
    rename_i q off b k
    obtain ⟨rfl, m, hm, rfl, hb⟩ := h
    have key : ∀ (b' : Bytes) f, b'.length ≤ bs → fs .key = some f →
        (∀ D, HasD D fs → HasD D (fs.set .key (some (f.push (.write ((m + 1) * bs) b'))))) ∧
        (∀ n blk, KeyBlk bs n blk fs → ¬ T n →
          KeyBlk bs n blk (fs.set .key (some (f.push (.write ((m + 1) * bs) b'))))) := by
      intro b' f hb' hf
      refine ⟨fun _ h => h, ?_⟩
      rintro n blk ⟨g, h1, h2, h3⟩ hn
      rw [hf] at h1; cases h1
      have hne : n ≠ m := by rintro rfl; exact hn hm
      obtain ⟨a1, a2⟩ := keyBlk_push (f := f) h2 hne hb'
      exact ⟨_, Fs.set_same _ _ _, a1, by rw [a2]; exact h3⟩
    simp only [Prog.step, Prog.after, fWrite, fileOp]
    have ht : ∀ j, (b.take j).length ≤ bs := by intro j; rw [List.length_take]; omega
    cases f with
    | none =>
      simp only
      cases hq : fs .key with
      | none => exact ⟨.raise, fun _ h => h, fun _ _ h _ => h⟩
      | some f => exact ⟨hk, key b f hb hq⟩
    | fail j =>
      simp only
      cases hq : fs .key with
      | none => exact ⟨.raise, fun _ h => h, fun _ _ h _ => h⟩
      | some f => exact ⟨.raise, key _ f (ht j) hq⟩
    | crash j =>
      simp only
      cases hq : fs .key with
      | none => exact ⟨.raise, fun _ h => h, fun _ _ h _ => h⟩
      | some f => exact ⟨.raise, key _ f (ht j) hq⟩
  | append h hk =>
    rename_i q off b k
    have h : q ≠ .key := h
    have key : ∀ (b' : Bytes) f, fs q = some f →
        (∀ D, HasD D fs → HasD D (fs.set q (some (f.push (.write f.cur.length b'))))) ∧
        (∀ n blk, KeyBlk bs n blk fs → ¬ T n →
          KeyBlk bs n blk (fs.set q (some (f.push (.write f.cur.length b'))))) := by
      intro b' f hf
      refine ⟨?_, ?_⟩
      · rintro D ⟨g, h1, h2⟩
        by_cases hd : q = .dat
        · subst hd
          rw [hf] at h1; cases h1
          exact ⟨_, Fs.set_same _ _ _, hasD_push h2⟩
        · exact ⟨g, by rw [Fs.set_other _ _ (Ne.symm hd)]; exact h1, h2⟩
      · rintro n blk ⟨g, h1, h2⟩ _
        exact ⟨g, by rw [Fs.set_other _ _ (Ne.symm h)]; exact h1, h2⟩
    simp only [Prog.step, Prog.after, fAppend, fileOp]
    cases f with
    | none =>
      simp only
      cases hq : fs q with
      | none => exact ⟨.raise, fun _ h => h, fun _ _ h _ => h⟩
      | some f =>
        by_cases ho : off = f.cur.length
        · simp only [ho, if_true]
          exact ⟨hk, key b f hq⟩
        · simp only [ho, if_false]
          exact ⟨.raise, fun _ h => h, fun _ _ h _ => h⟩
    | fail j =>
      simp only
      cases hq : fs q with
      | none => exact ⟨.raise, fun _ h => h, fun _ _ h _ => h⟩
      | some f =>
        by_cases ho : off = f.cur.length
        · simp only [ho, if_true]
          exact ⟨.raise, key _ f hq⟩
        · simp only [ho, if_false]
          exact ⟨.raise, fun _ h => h, fun _ _ h _ => h⟩
    | crash j =>
      simp only
      cases hq : fs q with
      | none => exact ⟨.raise, fun _ h => h, fun _ _ h _ => h⟩
      | some f =>
        by_cases ho : off = f.cur.length
        · simp only [ho, if_true]
          exact ⟨.raise, key _ f hq⟩
        · simp only [ho, if_false]
          exact ⟨.raise, fun _ h => h, fun _ _ h _ => h⟩

end

end NuDB
