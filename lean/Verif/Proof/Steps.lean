import Verif.Proof.Uses
/- Single steps of program trees: Hoare triples survive steps of the flusher, and the result
of a reader does not depend on the changes other threads make. -/
namespace NuDB

open Conc

theorem fileOp_at {ok : Fs → Except Exc α × Fs} {part : Fs → Nat → Fs} {σ : Schedule} {w : World} {f : Fault}
    (h : σ w.clock = f) :
    fileOp ok part σ w = ((fileOp ok part (fun _ => f) ⟨w.fs, 0, []⟩).1,
      ⟨(fileOp ok part (fun _ => f) ⟨w.fs, 0, []⟩).2.fs, w.clock + 1, w.out⟩) := by
  unfold fileOp
  rw [h]
  cases f <;> rfl

/-- The file operations of trees. -/
def IsOp (m : M α) : Prop := ∃ ok part, m = fileOp ok part

theorem isOp_size (p : Path) : IsOp (fSize p) := ⟨_, _, rfl⟩
theorem isOp_read (p : Path) (o n : Nat) : IsOp (fRead p o n) := ⟨_, _, rfl⟩
theorem isOp_write (p : Path) (o : Nat) (b : Bytes) : IsOp (fWrite p o b) := ⟨_, _, rfl⟩
theorem isOp_append (p : Path) (o : Nat) (b : Bytes) : IsOp (fAppend p o b) := ⟨_, _, rfl⟩
theorem isOp_sync (p : Path) : IsOp (fSync p) := ⟨_, _, rfl⟩
theorem isOp_trunc (p : Path) (n : Nat) : IsOp (fTrunc p n) := ⟨_, _, rfl⟩

theorem IsOp.at {m : M α} (hm : IsOp m) {σ : Schedule} {w : World} {f : Fault} (h : σ w.clock = f) :
    m σ w = ((m (fun _ => f) ⟨w.fs, 0, []⟩).1, ⟨(m (fun _ => f) ⟨w.fs, 0, []⟩).2.fs, w.clock + 1, w.out⟩) := by
  obtain ⟨ok, part, rfl⟩ := hm
  exact fileOp_at h

/-- Only the future part of the schedule matters. -/
theorem toM_congr (p : Prog α) : ∀ {σ σ' : Schedule} {w : World}, (∀ i, w.clock ≤ i → σ i = σ' i) →
    p.toM σ w = p.toM σ' w := by
  have op : ∀ {β : Type} {m : M β} {k : β → Prog α}, IsOp m →
      (∀ b {σ σ' : Schedule} {w : World}, (∀ i, w.clock ≤ i → σ i = σ' i) → (k b).toM σ w = (k b).toM σ' w) →
      ∀ {σ σ' : Schedule} {w : World}, (∀ i, w.clock ≤ i → σ i = σ' i) →
      M.bind m (fun b => (k b).toM) σ w = M.bind m (fun b => (k b).toM) σ' w := by
    intro β m k hm ih σ σ' w h
    simp only [M.bind]
    rw [hm.at (f := σ w.clock) rfl, hm.at (σ := σ') (f := σ w.clock) (h _ (Nat.le_refl _)).symm]
    cases (m (fun _ => σ w.clock) ⟨w.fs, 0, []⟩).1 with
    | error x => rfl
    | ok b => exact ih b (fun i hi => h i (by simp only at hi; omega))
  induction p with
  | ret a => intros; rfl
  | raise x => intros; rfl
  | size p k ih => exact op (isOp_size p) (fun b _ _ _ h => ih b h)
  | read p off n k ih => exact op (isOp_read p off n) (fun b _ _ _ h => ih b h)
  | write p off bs k ih => exact op (k := fun _ => k) (isOp_write p off bs) (fun b _ _ _ h => ih h)
  | append p off bs k ih => exact op (k := fun _ => k) (isOp_append p off bs) (fun b _ _ _ h => ih h)
  | sync p k ih => exact op (k := fun _ => k) (isOp_sync p) (fun b _ _ _ h => ih h)
  | trunc p n k ih => exact op (k := fun _ => k) (isOp_trunc p n) (fun b _ _ _ h => ih h)

/-- Whatever the faults to come, if they are among `ok`, the program ends in `Q` or leaves
exceptionally in `X`. -/
def SureOn (ok : Fault → Prop) (Q : α → Fs → Prop) (X : Exc → Fs → Prop) (p : Prog α) (fs : Fs) : Prop :=
  ∃ n, ∀ (σ : Schedule) clk, (∀ i, ok (σ i)) → n ≤ clk →
    wp σ p.toM (fun a w => Q a w.fs) (fun x w => X x w.fs) ⟨fs, clk, []⟩

/-- Any faults. -/
abbrev Ensures (Q : α → Fs → Prop) (X : Exc → Fs → Prop) (p : Prog α) (fs : Fs) : Prop :=
  SureOn (fun _ => True) Q X p fs

section
variable {ok : Fault → Prop} {Q : α → Fs → Prop} {X : Exc → Fs → Prop} {p : Prog α} {fs : Fs}

theorem SureOn.of_wp (h : ∀ (σ : Schedule) (w : World), (∀ i, ok (σ i)) → w.fs = fs →
    wp σ p.toM (fun a w => Q a w.fs) (fun x w => X x w.fs) w) : SureOn ok Q X p fs :=
  ⟨0, fun σ clk hσ _ => h σ ⟨fs, clk, []⟩ hσ rfl⟩

theorem SureOn.ret {a : α} (h : SureOn ok Q X (.ret a) fs) (h0 : ok .none) : Q a fs := by
  obtain ⟨n, h⟩ := h
  exact h calm n (fun _ => h0) (Nat.le_refl _)

theorem SureOn.raise {x : Exc} (h : SureOn ok Q X (.raise x) fs) (h0 : ok .none) : X x fs := by
  obtain ⟨n, h⟩ := h
  exact h calm n (fun _ => h0) (Nat.le_refl _)

theorem SureOn.mono {Q' : α → Fs → Prop} {X' : Exc → Fs → Prop} (h : SureOn ok Q X p fs)
    (hQ : ∀ a fs, Q a fs → Q' a fs) (hX : ∀ x fs, X x fs → X' x fs) : SureOn ok Q' X' p fs := by
  obtain ⟨n, h⟩ := h
  exact ⟨n, fun σ clk hσ hc => wp_conseq (h σ clk hσ hc) (fun a w => hQ a w.fs) (fun x w => hX x w.fs)⟩

theorem SureOn.op {m : M β} {k : β → Prog α} (hm : IsOp m) {n : Nat}
    (h : ∀ (σ : Schedule) clk, (∀ i, ok (σ i)) → n ≤ clk →
      wp σ (M.bind m fun b => (k b).toM) (fun a w => Q a w.fs) (fun x w => X x w.fs) ⟨fs, clk, []⟩) (f : Fault)
    (hf : ok f) :
    SureOn ok Q X (Prog.after m k f fs).1 (Prog.after m k f fs).2 := by
  refine ⟨n + 1, ?_⟩
  intro σ clk hσ hclk
  have h1 := h (fun i => if i = clk - 1 then f else σ i) (clk - 1) (by
    intro i
    split
    · exact hf
    · exact hσ i) (by omega)
  unfold wp M.bind at h1
  rw [hm.at (f := f) (by simp)] at h1
  have e : clk - 1 + 1 = clk := by omega
  simp only [e] at h1
  unfold Prog.after
  generalize m (fun _ => f) ⟨fs, 0, []⟩ = r at h1 ⊢
  obtain ⟨r, w⟩ := r
  cases r with
  | error x => exact h1
  | ok b =>
    simp only at h1 ⊢
    rw [toM_congr (k b) (σ' := σ) (by
      intro i hi
      have : clk ≤ i := hi
      rw [if_neg (by omega)])] at h1
    exact h1

/-- A step of the flusher, with or without a fault. -/
theorem SureOn.step (h : SureOn ok Q X p fs) (f : Fault) (hf : ok f) :
    SureOn ok Q X (p.step f fs).1 (p.step f fs).2 := by
  cases p with
  | ret a => exact h
  | raise x => exact h
  | size q k => obtain ⟨n, h⟩ := h; exact SureOn.op (isOp_size q) h f hf
  | read q off n k => obtain ⟨n, h⟩ := h; exact SureOn.op (isOp_read ..) h f hf
  | write q off bs k => obtain ⟨n, h⟩ := h; exact SureOn.op (k := fun _ => k) (isOp_write ..) h f hf
  | append q off bs k => obtain ⟨n, h⟩ := h; exact SureOn.op (k := fun _ => k) (isOp_append ..) h f hf
  | sync q k => obtain ⟨n, h⟩ := h; exact SureOn.op (k := fun _ => k) (isOp_sync ..) h f hf
  | trunc q n k => obtain ⟨n, h⟩ := h; exact SureOn.op (k := fun _ => k) (isOp_trunc ..) h f hf

theorem after_crash {m : M β} {k : β → Prog α} (hm : IsOp m) (j : Nat) :
    (Prog.after m k (.crash j) fs).1 = .raise .crash := by
  obtain ⟨ok, part, rfl⟩ := hm
  rfl

/-- What other threads see in the middle of an operation. -/
theorem SureOn.seen (h : SureOn (fun _ => True) Q X p fs) {S : Fs → Prop} (hQ : ∀ a fs, Q a fs → S fs) (hX : ∀ x fs, X x fs → S fs)
    (j : Nat) : S (p.step (.crash j) fs).2 := by
  have h1 := h.step (.crash j) trivial
  cases p with
  | ret a => exact hQ _ _ (h1.ret trivial)
  | raise x => exact hX _ _ (h1.raise trivial)
  | size q k => simp only [Prog.step, after_crash (isOp_size q)] at h1; exact hX _ _ (h1.raise trivial)
  | read q off n k => simp only [Prog.step, after_crash (isOp_read ..)] at h1; exact hX _ _ (h1.raise trivial)
  | write q off bs k => simp only [Prog.step, after_crash (isOp_write ..)] at h1; exact hX _ _ (h1.raise trivial)
  | append q off bs k => simp only [Prog.step, after_crash (isOp_append ..)] at h1; exact hX _ _ (h1.raise trivial)
  | sync q k => simp only [Prog.step, after_crash (isOp_sync ..)] at h1; exact hX _ _ (h1.raise trivial)
  | trunc q n k => simp only [Prog.step, after_crash (isOp_trunc ..)] at h1; exact hX _ _ (h1.raise trivial)

end

/-- The result of a reader, given the data file and possibly one block of the key file. -/
def eval (B : Option (Nat × Bytes)) (D : Bytes) : Prog α → Except Exc α
  | .ret a => .ok a
  | .raise x => .error x
  | .read .dat off n k =>
    if n = 0 ∨ off + n ≤ D.length then eval B D (k (slice D off n)) else .error (.err .short_read)
  | .read .key off n k =>
    match B with
    | some (b, blk) =>
      if b ≤ off ∧ off + n ≤ b + blk.length then eval B D (k (slice blk (off - b) n)) else .error .ub
    | none => .error .ub
  | _ => .error .ub

/-- Reads of the data file and of the block `B`. -/
def RdOk (B : Option (Nat × Bytes)) : FOp → Prop
  | .read .dat _ _ => True
  | .read .key off n => ∃ b blk, B = some (b, blk) ∧ b ≤ off ∧ off + n ≤ b + blk.length
  | _ => False

/-- The key file contains the block `B`. -/
def BlkAt (B : Option (Nat × Bytes)) (fs : Fs) : Prop :=
  ∀ b blk, B = some (b, blk) → ∃ g, fs .key = some g ∧ b + blk.length ≤ g.cur.length ∧
    slice g.cur b blk.length = blk

theorem blkAt_none (fs : Fs) : BlkAt none fs := by intro b blk h; cases h

section
variable {B : Option (Nat × Bytes)} {D : Bytes} {R : α → Prop} {p q : Prog α} {fs : Fs}

theorem blk_slice {g : FileSt} {b off n : Nat} {blk : Bytes} (h : slice g.cur b blk.length = blk)
    (h1 : b ≤ off) (h2 : off + n ≤ b + blk.length) : slice g.cur off n = slice blk (off - b) n := by
  have := slice_slice (p := g.cur) (o := b) (n := blk.length) (o' := off - b) (n' := n) (by omega)
  rw [h, show b + (off - b) = off by omega] at this
  exact this.symm

/-- The result when nobody interferes. -/
theorem eval_toM (hu : Uses (RdOk B) R p) {f : FileSt} (hd : fs .dat = some f) (hD : f.cur = D)
    (hB : BlkAt B fs) : ∀ clk out, (p.toM calm ⟨fs, clk, out⟩).1 = eval B D p := by
  induction hu with
  | ret h => intros; rfl
  | raise => intros; rfl
  | size h => exact h.elim
  | write h => exact h.elim
  | append h => exact h.elim
  | sync h => exact h.elim
  | trunc h => exact h.elim
  | read h hk ih =>
    rename_i q off n k
    intro clk out
    cases q with
    | dat =>
      simp only [Prog.toM, M.bind, fRead, fileOp, calm, hd, eval, hD]
      by_cases hc : n = 0 ∨ off + n ≤ D.length
      · rw [if_pos hc, if_pos hc]
        exact ih _ _ _
      · rw [if_neg hc, if_neg hc]
    | key =>
      obtain ⟨b, blk, rfl, h1, h2⟩ := h
      obtain ⟨g, hg, h3, h4⟩ := hB b blk rfl
      simp only [Prog.toM, M.bind, fRead, fileOp, calm, hg, eval]
      rw [if_pos (.inr (by omega)), if_pos ⟨h1, h2⟩, blk_slice h4 h1 h2]
      exact ih _ _ _
    | log => exact h.elim

/-- Not the result of a read outside the file. -/
def Good (r : Except Exc α) : Prop := r ≠ .error .ub ∧ r ≠ .error (.err .short_read)

theorem Good.ok (a : α) : Good (.ok a : Except Exc α) := ⟨(by intro h; cases h), (by intro h; cases h)⟩

theorem Good.notFound : Good (.error (.err .key_not_found) : Except Exc α) :=
  ⟨(by intro h; cases h), (by intro h; cases h)⟩

/-- Growing the data file does not matter. -/
theorem eval_mono {D' : Bytes} (hp : D <+: D') : ∀ {p : Prog α}, Good (eval B D p) →
    eval B D' p = eval B D p := by
  intro p
  induction p with
  | ret a => intro _; rfl
  | raise x => intro _; rfl
  | size => intro h; exact absurd rfl h.1
  | write => intro h; exact absurd rfl h.1
  | append => intro h; exact absurd rfl h.1
  | sync => intro h; exact absurd rfl h.1
  | trunc => intro h; exact absurd rfl h.1
  | read q off n k ih =>
    intro h
    cases q with
    | log => exact absurd rfl h.1
    | dat =>
      simp only [eval] at h ⊢
      by_cases hc : n = 0 ∨ off + n ≤ D.length
      · rw [if_pos hc] at h ⊢
        have hl := hp.length_le
        rw [if_pos (by omega)]
        have hs : slice D' off n = slice D off n := by
          rcases hc with rfl | hc
          · simp
          · exact slice_eq_of_prefix hp hc
        rw [hs]
        exact ih _ h
      · rw [if_neg hc] at h
        exact absurd rfl h.2
    | key =>
      cases B with
      | none => exact absurd rfl h.1
      | some B =>
        obtain ⟨b, blk⟩ := B
        simp only [eval] at h ⊢
        split
        · rename_i hc
          rw [if_pos hc] at h
          exact ih _ h
        · rfl

/-- A step of a reader without fault keeps the result. -/
theorem eval_step (hd : HasD D fs) (hB : BlkAt B fs) (hg : Good (eval B D p))
    (hs : readStep .none fs p = some q) : eval B D q = eval B D p := by
  cases p with
  | read path off n k =>
    simp only [readStep, Option.some.injEq] at hs
    subst hs
    cases path with
    | log => exact absurd rfl hg.1
    | dat =>
      obtain ⟨f, hf, hpre⟩ := hd
      simp only [eval] at hg ⊢
      by_cases hc : n = 0 ∨ off + n ≤ D.length
      · rw [if_pos hc] at hg ⊢
        have hl := hpre.length_le
        have hs : slice f.cur off n = slice D off n := by
          rcases hc with rfl | hc
          · simp
          · exact slice_eq_of_prefix hpre hc
        have hc' : n = 0 ∨ off + n ≤ f.cur.length := by omega
        simp only [Prog.step, Prog.after, fRead, fileOp, hf, hc', if_true, hs]
      · rw [if_neg hc] at hg
        exact absurd rfl hg.2
    | key =>
      cases B with
      | none => exact absurd rfl hg.1
      | some B =>
        obtain ⟨b, blk⟩ := B
        obtain ⟨g, hg', h3, h4⟩ := hB b blk rfl
        simp only [eval] at hg ⊢
        by_cases hc : b ≤ off ∧ off + n ≤ b + blk.length
        · rw [if_pos hc]
          have hc' : n = 0 ∨ off + n ≤ g.cur.length := by omega
          simp only [Prog.step, Prog.after, fRead, fileOp, hg', hc', if_true, blk_slice h4 hc.1 hc.2]
        · rw [if_neg hc] at hg
          exact absurd rfl hg.1
  | _ => simp [readStep] at hs

/-- A failing read. -/
theorem eval_fail {k : Nat} (hs : readStep (.fail k) fs p = some q) : q = .raise (.err .io) := by
  cases p with
  | read path off n k =>
    simp only [readStep, Option.some.injEq] at hs
    subst hs
    rfl
  | _ => simp [readStep] at hs

end

end NuDB
