import Verif.Model.XorShift
import Mathlib.Data.Fintype.Pigeonhole
import Mathlib.Data.Fintype.Prod
/-
The generator of the tests steps along a permutation of its states.
-/
namespace NuDB.XorShift

theorem xor_step_inj (f : BitVec 64 → BitVec 64) (hx : ∀ a b, f (a ^^^ b) = f a ^^^ f b) (h0 : ∀ z, f z = z → z = 0#64)
    {x y : BitVec 64} (h : x ^^^ f x = y ^^^ f y) : x = y := by
  apply BitVec.xor_eq_zero_iff.mp
  apply h0
  rw [hx]
  have := congrArg (· ^^^ (y ^^^ f x)) h
  have l : x ^^^ f x ^^^ (y ^^^ f x) = x ^^^ y := by
    ext i; simp only [BitVec.getElem_xor]; cases x[i] <;> cases y[i] <;> cases (f x)[i] <;> rfl
  have r : y ^^^ f y ^^^ (y ^^^ f x) = f x ^^^ f y := by
    ext i; simp only [BitVec.getElem_xor]; cases y[i] <;> cases (f y)[i] <;> cases (f x)[i] <;> rfl
  rw [l, r] at this
  exact this.symm

theorem shr_fix (n : Nat) (hn : 0 < n) (z : BitVec 64) (h : z >>> n = z) : z = 0#64 := by
  have it : ∀ k, z >>> (k * n) = z := by
    intro k
    induction k with
    | zero => simp
    | succ k ih => rw [Nat.succ_mul, BitVec.shiftRight_add, ih, h]
  rw [← it 64]
  ext i hi
  simp only [BitVec.getElem_ushiftRight, BitVec.getElem_zero]
  exact BitVec.getLsbD_of_ge _ _ (by have := Nat.mul_le_mul_left 64 hn; omega)

theorem shl_fix (n : Nat) (hn : 0 < n) (z : BitVec 64) (h : z <<< n = z) : z = 0#64 := by
  have it : ∀ k, z <<< (k * n) = z := by
    intro k
    induction k with
    | zero => simp
    | succ k ih => rw [Nat.succ_mul, BitVec.shiftLeft_add, ih, h]
  rw [← it 64]
  ext i hi
  have := Nat.mul_le_mul_left 64 hn
  simp [BitVec.getElem_shiftLeft, BitVec.getElem_zero]
  omega

theorem shr_inj (n : Nat) (hn : 0 < n) {x y : BitVec 64} (h : x ^^^ x >>> n = y ^^^ y >>> n) : x = y :=
  xor_step_inj (· >>> n) (fun a b => BitVec.ushiftRight_xor_distrib a b n) (fun z => shr_fix n hn z) h

theorem shl_inj (n : Nat) (hn : 0 < n) {x y : BitVec 64} (h : x ^^^ x <<< n = y ^^^ y <<< n) : x = y :=
  xor_step_inj (· <<< n) (fun a b => BitVec.shiftLeft_xor_distrib a b n) (fun z => shl_fix n hn z) h

theorem ushr_inj (n : UInt64) (m : Nat) (hm : 0 < m) (hn : ∀ z : UInt64, (z >>> n).toBitVec = z.toBitVec >>> m) {x y : UInt64}
    (h : x ^^^ x >>> n = y ^^^ y >>> n) : x = y := by
  apply UInt64.toBitVec_inj.mp
  apply shr_inj m hm
  have := congrArg UInt64.toBitVec h
  rw [UInt64.toBitVec_xor, UInt64.toBitVec_xor, hn, hn] at this
  exact this

theorem ushl_inj (n : UInt64) (m : Nat) (hm : 0 < m) (hn : ∀ z : UInt64, (z <<< n).toBitVec = z.toBitVec <<< m) {x y : UInt64}
    (h : x ^^^ x <<< n = y ^^^ y <<< n) : x = y := by
  apply UInt64.toBitVec_inj.mp
  apply shl_inj m hm
  have := congrArg UInt64.toBitVec h
  rw [UInt64.toBitVec_xor, UInt64.toBitVec_xor, hn, hn] at this
  exact this

theorem mul_inj (c d : UInt64) (hcd : c * d = 1) {x y : UInt64} (h : x * c = y * c) : x = y := by
  have := congrArg (· * d) h
  rw [UInt64.mul_assoc, UInt64.mul_assoc, hcd, UInt64.mul_one, UInt64.mul_one] at this
  exact this

theorem murmur_inj {x y : UInt64} (h : murmurhash3 x = murmurhash3 y) : x = y := by
  unfold murmurhash3 at h
  dsimp only at h
  have e : ∀ {a b : UInt64}, a ^^^ a >>> 33 = b ^^^ b >>> 33 → a = b :=
    fun h => ushr_inj 33 33 (by decide) (fun z => rfl) h
  have h1 := mul_inj 0xc4ceb9fe1a85ec53 0x9cb4b2f8129337db (by decide) (e h)
  have h2 := mul_inj 0xff51afd7ed558ccd 0x4f74430c22a54005 (by decide) (e h1)
  exact e h2

theorem murmur_zero : murmurhash3 0 = 0 := by decide

theorem next_inj {a b : Engine} (h : (next a).2 = (next b).2) : a = b := by
  obtain ⟨a0, a1⟩ := a
  obtain ⟨b0, b1⟩ := b
  unfold next at h
  dsimp only at h
  have h1 : a1 = b1 := congrArg Engine.s0 h
  have h2 := congrArg Engine.s1 h
  dsimp only at h2
  subst h1
  have h3 : (a0 ^^^ a0 <<< 23) ^^^ (a0 ^^^ a0 <<< 23) >>> 17 = (b0 ^^^ b0 <<< 23) ^^^ (b0 ^^^ b0 <<< 23) >>> 17 := by
    generalize a0 ^^^ a0 <<< 23 = u at h2 ⊢
    generalize b0 ^^^ b0 <<< 23 = v at h2 ⊢
    have h4 := congrArg (fun t => t ^^^ a1 ^^^ a1 >>> 26) h2
    have e : ∀ w : UInt64, w ^^^ a1 ^^^ w >>> 17 ^^^ a1 >>> 26 ^^^ a1 ^^^ a1 >>> 26 = w ^^^ w >>> 17 := by
      intro w
      generalize w >>> 17 = p
      generalize a1 >>> 26 = q
      apply UInt64.toBitVec_inj.mp
      ext i hi
      simp only [UInt64.toBitVec_xor, BitVec.getElem_xor]
      cases w.toBitVec[i] <;> cases a1.toBitVec[i] <;> cases p.toBitVec[i] <;> cases q.toBitVec[i] <;> rfl
    rw [e, e] at h4
    exact h4
  have h4 := ushr_inj 17 17 (by decide) (fun z => rfl) h3
  have h5 := ushl_inj 23 23 (by decide) (fun z => rfl) h4
  rw [h5]

theorem next_zero : (next ⟨0, 0⟩).2 = ⟨0, 0⟩ := by decide

theorem after_succ : ∀ n e, after (n + 1) e = (next (after n e)).2
  | 0, _ => rfl
  | n + 1, e => after_succ n (next e).2

theorem after_add : ∀ n m e, after (n + m) e = after m (after n e)
  | 0, m, e => by rw [Nat.zero_add]; rfl
  | n + 1, m, e => by rw [Nat.succ_add]; exact after_add n m (next e).2

theorem after_inj : ∀ n {a b : Engine}, after n a = after n b → a = b
  | 0, _, _, h => h
  | n + 1, _, _, h => next_inj (after_inj n h)

theorem after_zero : ∀ n, after n ⟨0, 0⟩ = ⟨0, 0⟩
  | 0 => rfl
  | n + 1 => by rw [after_succ, after_zero n, next_zero]

instance : Finite Engine :=
  Finite.of_injective (fun e : Engine => (e.s0.toFin, e.s1.toFin)) (by
    intro a b h
    obtain ⟨a0, a1⟩ := a
    obtain ⟨b0, b1⟩ := b
    simp only [Prod.mk.injEq] at h
    rw [UInt64.toFin_inj.mp h.1, UInt64.toFin_inj.mp h.2])

theorem after_period (e : Engine) : ∃ n, 0 < n ∧ after n e = e := by
  obtain ⟨i, j, hne, h⟩ := Finite.exists_ne_map_eq_of_infinite (fun n => after n e)
  have key : ∀ i j, i < j → after i e = after j e → ∃ n, 0 < n ∧ after n e = e := by
    intro i j hij h
    refine ⟨j - i, by omega, ?_⟩
    have : j = (j - i) + i := by omega
    rw [this, after_add] at h
    exact (after_inj i h).symm
  rcases Nat.lt_or_gt_of_ne hne with hl | hl
  · exact key i j hl h
  · exact key j i hl h.symm

end NuDB.XorShift
