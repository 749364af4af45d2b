import Verif.Proof.Frame
import Verif.Proof.Field
/- How many file operations a lookup makes at most. -/
namespace NuDB

/-- `m` makes at most `n` file operations, and a result satisfies `P`. -/
structure Cost (n : Nat) (m : M α) (P : α → Prop) : Prop where
  go : ∀ σ w, (m σ w).2.clock ≤ w.clock + n ∧ ∀ a, (m σ w).1 = .ok a → P a

section
variable {α β : Type} {P : α → Prop} {Q : β → Prop} {n k : Nat}

theorem Cost.ret {a : α} (h : P a) : Cost n (M.ret a) P :=
  ⟨fun σ w => ⟨Nat.le_add_right _ _, fun b e => by cases e; exact h⟩⟩
theorem Cost.raise (x : Exc) : Cost n (M.raise x : M α) P :=
  ⟨fun σ w => ⟨Nat.le_add_right _ _, fun b e => by cases e⟩⟩
theorem Cost.fail (e : Err) : Cost n (M.fail e : M α) P := Cost.raise _
theorem Cost.lift {r : Res α} (h : ∀ a, r = .ok a → P a) : Cost n (M.lift r) P :=
  ⟨fun σ w => ⟨Nat.le_add_right _ _, fun b e => h b e⟩⟩
theorem Cost.mono {m : M α} (h : Cost n m P) (hk : n ≤ k) : Cost k m P :=
  ⟨fun σ w => ⟨Nat.le_trans (h.go σ w).1 (Nat.add_le_add_left hk _), (h.go σ w).2⟩⟩

theorem Cost.bind {m : M α} {f : α → M β} (h : Cost n m P) (hf : ∀ a, P a → Cost k (f a) Q) :
    Cost (n + k) (m >>= f) Q := by
  refine ⟨fun σ w => ?_⟩
  have h1 := h.go σ w
  show (M.bind m f σ w).2.clock ≤ _ ∧ ∀ a, (M.bind m f σ w).1 = .ok a → Q a
  unfold M.bind
  split
  · rename_i a w' e
    rw [e] at h1
    have h2 := (hf a (h1.2 a rfl)).go σ w'
    exact ⟨by have := h1.1; simp only at this; omega, h2.2⟩
  · rename_i x w' e
    rw [e] at h1
    exact ⟨by have := h1.1; simp only at this ⊢; omega, fun a h => by cases h⟩

/-- as above, with the sum given -/
theorem Cost.seq {t : Nat} {m : M α} {f : α → M β} (h : Cost n m P) (hf : ∀ a, P a → Cost k (f a) Q) (ht : n + k ≤ t) :
    Cost t (m >>= f) Q := (h.bind hf).mono ht

theorem Cost.fileOp {ok : Fs → Except Exc α × Fs} {part : Fs → Nat → Fs} :
    Cost 1 (fileOp ok part) (fun _ => True) := by
  refine ⟨fun σ w => ⟨?_, fun _ _ => trivial⟩⟩
  unfold NuDB.fileOp
  split <;> exact Nat.le_refl _

theorem ofMem_size {bs : Nat} {p : Bytes} {b : Bkt} (h : Bkt.ofMem bs p = .ok b) : b.size < 2 ^ 16 := by
  unfold Bkt.ofMem at h
  simp only [bind, Except.bind] at h
  split at h
  · cases h
  · rename_i size e
    split at h
    · cases h
    · cases h
      apply (putU16_getU16 _).2
      unfold peek at e
      split at e
      · cases e
        rw [slice, List.length_take, List.length_drop]; omega
      · cases e

theorem Cost.readFile {b : Bkt} {p : Path} {o : Nat} : Cost 1 (b.readFile p o) (fun b => b.size < 2 ^ 16) := by
  unfold Bkt.readFile
  refine Cost.seq (n := 1) (k := 0) Cost.fileOp (fun d _ => ?_) (Nat.le_refl _)
  refine Cost.seq (n := 0) (k := 0) (P := fun _ => True) (Cost.lift (fun _ _ => trivial)) (fun mem _ => ?_) (Nat.le_refl _)
  refine Cost.seq (n := 0) (k := 0) (Cost.lift (fun _ h => ofMem_size h)) (fun b hb => ?_) (Nat.le_refl _)
  split
  · exact Cost.fail _
  · exact Cost.ret hb

theorem Cost.fetchScan {ks h : Nat} {key : Bytes} {b : Bkt} : ∀ fuel i, Cost fuel (fetchScan ks h key b fuel i) (fun _ => True) := by
  intro fuel
  induction fuel with
  | zero => intro i; exact Cost.raise _
  | succ fuel ih =>
    intro i
    unfold NuDB.fetchScan
    split
    · refine Cost.seq (n := 0) (k := fuel + 1) (P := fun _ => True) (Cost.lift (fun _ _ => trivial)) (fun e _ => ?_) (by omega)
      split
      · exact Cost.ret trivial
      · refine Cost.seq (n := 1) (k := fuel) Cost.fileOp (fun buf _ => ?_) (by omega)
        split
        · exact Cost.ret trivial
        · exact ih _
    · exact Cost.ret trivial

theorem Cost.existsScan {ks h : Nat} {key : Bytes} {b : Bkt} : ∀ fuel i, Cost fuel (existsScan ks h key b fuel i) (fun _ => True) := by
  intro fuel
  induction fuel with
  | zero => intro i; exact Cost.raise _
  | succ fuel ih =>
    intro i
    unfold NuDB.existsScan
    split
    · refine Cost.seq (n := 0) (k := fuel + 1) (P := fun _ => True) (Cost.lift (fun _ _ => trivial)) (fun e _ => ?_) (by omega)
      split
      · exact Cost.ret trivial
      · refine Cost.seq (n := 1) (k := fuel) Cost.fileOp (fun buf _ => ?_) (by omega)
        split
        · exact Cost.ret trivial
        · exact ih _
    · exact Cost.ret trivial

variable {c : Cfg}

theorem Cost.fetchBucket {kh : KeyHeader} {h : Nat} {key : Bytes} : ∀ fuel b, b.size < 2 ^ 16 →
    Cost (fuel * (2 ^ 16 + 1)) (fetchBucket c kh h key fuel b) (fun _ => True) := by
  intro fuel
  induction fuel with
  | zero => intro b _; exact Cost.raise _
  | succ fuel ih =>
    intro b hb
    unfold NuDB.fetchBucket
    refine Cost.seq (n := 0) (k := (fuel + 1) * (2 ^ 16 + 1)) (P := fun _ => True) (Cost.lift (fun _ _ => trivial))
      (fun i _ => ?_) (by omega)
    refine Cost.seq (n := 2 ^ 16) (k := 1 + fuel * (2 ^ 16 + 1)) ((Cost.fetchScan _ _).mono (by omega)) (fun r _ => ?_) (by omega)
    split
    · exact Cost.ret trivial
    · split
      · exact Cost.fail _
      · refine Cost.seq (n := 0) (k := 1 + fuel * (2 ^ 16 + 1)) (P := fun _ => True) (Cost.lift (fun _ _ => trivial))
          (fun i _ => ?_) (by omega)
        exact Cost.seq Cost.readFile (fun nb hnb => ih nb hnb) (Nat.le_refl _)

theorem Cost.existsBucket {kh : KeyHeader} {h : Nat} {key : Bytes} : ∀ fuel b, b.size < 2 ^ 16 →
    Cost (fuel * (2 ^ 16 + 1)) (existsBucket c kh h key fuel b) (fun _ => True) := by
  intro fuel
  induction fuel with
  | zero => intro b _; exact Cost.raise _
  | succ fuel ih =>
    intro b hb
    unfold NuDB.existsBucket
    refine Cost.seq (n := 0) (k := (fuel + 1) * (2 ^ 16 + 1)) (P := fun _ => True) (Cost.lift (fun _ _ => trivial))
      (fun i _ => ?_) (by omega)
    refine Cost.seq (n := 2 ^ 16) (k := 1 + fuel * (2 ^ 16 + 1)) ((Cost.existsScan _ _).mono (by omega)) (fun r _ => ?_) (by omega)
    split
    · exact Cost.ret trivial
    · split
      · exact Cost.ret trivial
      · refine Cost.seq (n := 0) (k := 1 + fuel * (2 ^ 16 + 1)) (P := fun _ => True) (Cost.lift (fun _ _ => trivial))
          (fun i _ => ?_) (by omega)
        exact Cost.seq Cost.readFile (fun nb hnb => ih nb hnb) (Nat.le_refl _)

/-- The length of the data file. -/
def datLen (fs : Fs) : Nat := match fs .dat with | some f => f.cur.length | none => 0

theorem cost_lookupFuel {f : Nat → M β} {σ : Schedule} {w : World} {n : Nat}
    (h : ((f (datLen w.fs + 2)) σ w).2.clock ≤ n) : ((lookupFuel >>= f) σ w).2.clock ≤ n := by
  show (M.bind lookupFuel f σ w).2.clock ≤ n
  unfold M.bind lookupFuel
  unfold datLen at h
  cases hd : w.fs .dat with
  | none => rw [hd] at h; exact h
  | some f => rw [hd] at h; exact h

theorem cost_lift {α : Type} {r : Res α} {f : α → M β} {σ : Schedule} {w : World} {n : Nat} (hn : w.clock ≤ n)
    (h : ∀ a, ((f a) σ w).2.clock ≤ n) : ((M.lift r >>= f) σ w).2.clock ≤ n := by
  show (M.bind (M.lift r) f σ w).2.clock ≤ n
  unfold M.bind M.lift
  cases r with
  | ok a => exact h a
  | error x => exact hn

theorem fetch_clock (s : Store) (k : Bytes) (σ : Schedule) (w : World) :
    (fetch c s k σ w).2.clock ≤ w.clock + (1 + (datLen w.fs + 2) * (2 ^ 16 + 1)) := by
  unfold fetch
  cases s.ec with
  | some e => exact Nat.le_add_right _ _
  | none =>
    simp only
    cases s.p1.find k with
    | some it => exact Nat.le_add_right _ _
    | none =>
      cases s.p0.find k with
      | some it => exact Nat.le_add_right _ _
      | none =>
        simp only
        apply cost_lift (Nat.le_add_right _ _)
        intro n
        apply cost_lookupFuel
        cases s.c1.find n with
        | some p =>
          refine (Cost.seq (n := 0) (k := (datLen w.fs + 2) * (2 ^ 16 + 1)) (t := 1 + (datLen w.fs + 2) * (2 ^ 16 + 1)) (Q := fun _ => True)
            (Cost.lift (fun _ h => ofMem_size h)) (fun b hb => ?_) (by omega)).go σ w |>.1
          exact Cost.fetchBucket _ _ hb
        | none =>
          refine (Cost.seq (n := 0) (k := 1 + (datLen w.fs + 2) * (2 ^ 16 + 1)) (t := 1 + (datLen w.fs + 2) * (2 ^ 16 + 1)) (Q := fun _ => True)
            (Cost.lift (fun _ h => ofMem_size h)) (fun b hb => ?_) (by omega)).go σ w |>.1
          exact Cost.seq Cost.readFile (fun nb hnb => Cost.fetchBucket _ _ hnb) (Nat.le_refl _)

theorem insert_clock (s : Store) (k v : Bytes) (σ : Schedule) (w : World) :
    (insert c s k v σ w).2.clock ≤ w.clock + (1 + (datLen w.fs + 2) * (2 ^ 16 + 1)) := by
  have hc : ∀ h, (insertCheck c s h k σ w).2.clock ≤ w.clock + (1 + (datLen w.fs + 2) * (2 ^ 16 + 1)) := by
    intro h
    unfold insertCheck
    split
    · exact Nat.le_add_right _ _
    · apply cost_lift (Nat.le_add_right _ _)
      intro n
      apply cost_lookupFuel
      have hlast : ∀ found : Bool, Cost 0 ((fun found => if found = true then M.fail Err.key_exists else M.ret ()) found)
          (fun _ => True) := by
        intro found
        simp only
        split
        · exact Cost.fail _
        · exact Cost.ret trivial
      cases s.c1.find n with
      | some p =>
        refine (Cost.seq (n := 0) (k := (datLen w.fs + 2) * (2 ^ 16 + 1)) (t := 1 + (datLen w.fs + 2) * (2 ^ 16 + 1)) (Q := fun _ => True)
          (Cost.lift (fun _ h => ofMem_size h)) (fun b hb => ?_) (by omega)).go σ w |>.1
        exact Cost.seq (Cost.existsBucket _ _ hb) (fun r _ => hlast r) (by omega)
      | none =>
        refine (Cost.seq (n := 0) (k := 1 + (datLen w.fs + 2) * (2 ^ 16 + 1)) (t := 1 + (datLen w.fs + 2) * (2 ^ 16 + 1)) (Q := fun _ => True)
          (Cost.lift (fun _ h => ofMem_size h)) (fun b hb => ?_) (by omega)).go σ w |>.1
        exact Cost.seq (k := (datLen w.fs + 2) * (2 ^ 16 + 1)) Cost.readFile (fun nb hnb => Cost.seq (Cost.existsBucket _ _ hnb) (fun r _ => hlast r) (by omega))
          (by omega)
  unfold insert
  cases s.ec with
  | some e => exact Nat.le_add_right _ _
  | none =>
    simp only
    apply cost_lift (Nat.le_add_right _ _)
    intro _
    apply cost_lift (Nat.le_add_right _ _)
    intro _
    show (M.bind _ _ σ w).2.clock ≤ _
    unfold M.bind
    have h1 := hc (hashKey c.H s.kh.salt k)
    split
    · rename_i e
      rw [e] at h1
      exact cost_lift h1 (fun _ => h1)
    · rename_i e
      rw [e] at h1
      exact h1

end

end NuDB
