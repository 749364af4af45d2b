import Verif.Model.Tool
import Verif.Spec.Tool
/-
Functions of the command line tool.
-/
namespace NuDB.Tool
open Spec

/-- What the steps of `log2` keep. -/
structure LogInv (n0 k : Nat) (x : Int × Nat) (e : Nat) : Prop where
  exp : x.1 = e
  pos : 1 ≤ x.2
  bound : x.2 < 2 ^ k
  low : x.2 * 2 ^ e ≤ n0
  high : n0 < (x.2 + 1) * 2 ^ e

theorem LogInv.step {n0 k : Nat} {x : Int × Nat} {e : Nat} (h : LogInv n0 (k + k) x e) : ∃ e', LogInv n0 k (log2Step k x) e' := by
  unfold log2Step
  by_cases hk : x.2 ≥ 2 ^ k
  · rw [if_pos hk]
    have hp := Nat.two_pow_pos k
    have h1 : x.2 / 2 ^ k * 2 ^ k ≤ x.2 := Nat.div_mul_le_self _ _
    have h2 : x.2 + 1 ≤ (x.2 / 2 ^ k + 1) * 2 ^ k := by
      have := Nat.lt_div_mul_add hp (a := x.2)
      rw [Nat.succ_mul]; omega
    refine ⟨e + k, ⟨?_, Nat.div_pos hk hp, ?_, ?_, ?_⟩⟩
    · dsimp only; rw [h.exp]; omega
    · apply Nat.div_lt_of_lt_mul
      rw [← Nat.pow_add]; exact h.bound
    · dsimp only
      calc x.2 / 2 ^ k * 2 ^ (e + k) = x.2 / 2 ^ k * 2 ^ k * 2 ^ e := by rw [Nat.add_comm, Nat.pow_add, Nat.mul_assoc]
        _ ≤ x.2 * 2 ^ e := Nat.mul_le_mul_right _ h1
        _ ≤ n0 := h.low
    · dsimp only
      calc n0 < (x.2 + 1) * 2 ^ e := h.high
        _ ≤ (x.2 / 2 ^ k + 1) * 2 ^ k * 2 ^ e := Nat.mul_le_mul_right _ h2
        _ = _ := by rw [Nat.add_comm e k, Nat.pow_add, Nat.mul_assoc]
  · rw [if_neg hk]
    exact ⟨e, ⟨h.exp, h.pos, by omega, h.low, h.high⟩⟩

theorem log2_spec {n : Nat} (hn : 1 ≤ n) (hb : n < 2 ^ 64) : ∃ i : Nat, log2 n = i ∧ i < 64 ∧ InClass i n := by
  have h0 : LogInv n 64 (0, n) 0 := ⟨rfl, hn, hb, by simp, by simp⟩
  obtain ⟨e1, h1⟩ := LogInv.step (k := 32) h0
  obtain ⟨e2, h2⟩ := LogInv.step (k := 16) h1
  obtain ⟨e3, h3⟩ := LogInv.step (k := 8) h2
  obtain ⟨e4, h4⟩ := LogInv.step (k := 4) h3
  obtain ⟨e5, h5⟩ := LogInv.step (k := 2) h4
  obtain ⟨e6, h6⟩ := LogInv.step (k := 1) h5
  have hm : (log2Step 1 (log2Step 2 (log2Step 4 (log2Step 8 (log2Step 16 (log2Step 32 (0, n))))))).2 = 1 := by
    have := h6.pos
    have := h6.bound
    omega
  have hl := h6.low
  have hh := h6.high
  rw [hm] at hl hh
  refine ⟨e6, ?_, ?_, ?_, ?_⟩
  · have := h6.exp
    unfold log2
    rw [if_neg (by omega)]
    exact this
  · apply (Nat.pow_lt_pow_iff_right (a := 2) (by omega)).1
    omega
  · omega
  · rw [Nat.pow_succ]; omega

theorem inClass_unique {i j n : Nat} (hi : InClass i n) (hj : InClass j n) : i = j := by
  have h1 : i < j + 1 := (Nat.pow_lt_pow_iff_right (a := 2) (by omega)).1 (Nat.lt_of_le_of_lt hi.1 hj.2)
  have h2 : j < i + 1 := (Nat.pow_lt_pow_iff_right (a := 2) (by omega)).1 (Nat.lt_of_le_of_lt hj.1 hi.2)
  omega

theorem tally_ok : ∀ (l : List Bytes) (t : Tally), t.hist.length = 64 → (∀ v ∈ l, 1 ≤ v.length ∧ v.length < 2 ^ 64) →
    ∃ t', tally l t = .ok t' ∧ t'.count = t.count + l.length ∧ t'.hist.length = 64 ∧
      ∀ i, i < 64 → t'.hist.getD i 0 = t.hist.getD i 0 + (l.filter (fun v => InClass i v.length)).length
  | [], t, ht, _ => ⟨t, rfl, rfl, ht, fun i _ => rfl⟩
  | v :: l, t, ht, h => by
    obtain ⟨hv1, hv2⟩ := h v (List.mem_cons_self ..)
    obtain ⟨i, e, hi, hc⟩ := log2_spec hv1 hv2
    obtain ⟨t', h1, h2, h3, h4⟩ := tally_ok l ⟨t.count + 1, t.hist.modify i (· + 1)⟩ (by simp [ht])
      (fun x hx => h x (List.mem_cons_of_mem _ hx))
    refine ⟨t', ?_, ?_, h3, ?_⟩
    · unfold tally
      dsimp only
      rw [e, if_pos ⟨by omega, by omega⟩]
      exact h1
    · rw [h2, List.length_cons]; dsimp only; omega
    · intro j hj
      rw [h4 j hj]
      dsimp only
      have hm : (t.hist.modify i (· + 1)).getD j 0 = t.hist.getD j 0 + (if i = j then 1 else 0) := by
        simp only [List.getD_eq_getElem?_getD, List.getElem?_modify]
        by_cases hij : i = j
        · subst hij
          rw [List.getElem?_eq_getElem (by omega)]
          simp
        · simp [hij]
      rw [hm, List.filter_cons]
      by_cases hij : i = j
      · subst hij
        rw [if_pos rfl, if_pos (by simpa using hc), List.length_cons]
        omega
      · rw [if_neg hij, if_neg (by simp only [decide_eq_true_eq]; exact fun h => hij (inClass_unique hc h))]
        omega

/-- The separators in a number under construction, seen from its end. -/
def Separated (l : List Char) : Prop := ∀ i, i < l.length → (l.getD i ' ' = ',' ↔ i % 4 = 3)

theorem fdecLoop_spec : ∀ (cs : List Char) (n : Nat) (s2 done : List Char), (∀ ch ∈ cs, ch ≠ ',') → n ≤ 3 → (n = 0 → s2 = []) →
    (s2.length % 4 = n) → Separated s2.reverse → s2.filter (· ≠ ',') = done →
    (fdecLoop cs n s2).filter (· ≠ ',') = cs.reverse ++ done ∧ Separated (fdecLoop cs n s2).reverse ∧
      ((cs ≠ [] ∨ ∃ ch l, s2 = ch :: l ∧ ch ≠ ',') → ∃ ch l, fdecLoop cs n s2 = ch :: l ∧ ch ≠ ',')
  | [], n, s2, done, _, _, _, _, hs, hd => ⟨by simpa [fdecLoop] using hd, hs, fun h => h.elim (fun h => absurd rfl h) id⟩
  | ch :: cs, n, s2, done, hc, hn, h0, hl, hs, hd => by
    have hch : ch ≠ ',' := hc ch (List.mem_cons_self ..)
    have hcs : ∀ x ∈ cs, x ≠ ',' := fun x hx => hc x (List.mem_cons_of_mem _ hx)
    unfold fdecLoop
    have snoc : ∀ (l : List Char) (x : Char), Separated l → (x = ',' ↔ l.length % 4 = 3) → Separated (l ++ [x]) := by
      intro l x hl hx i hi
      rw [List.length_append, List.length_singleton] at hi
      by_cases hi' : i < l.length
      · rw [List.getD_eq_getElem?_getD, List.getElem?_append_left hi', ← List.getD_eq_getElem?_getD]
        exact hl i hi'
      · have : i = l.length := by omega
        subst this
        rw [List.getD_eq_getElem?_getD, List.getElem?_append_right (by omega), Nat.sub_self]
        exact hx
    by_cases h3 : n = 3
    · rw [if_pos h3]
      subst h3
      obtain ⟨a1, a2, a3⟩ := fdecLoop_spec cs 1 (ch :: ',' :: s2) (ch :: done) hcs (by omega) (by omega)
        (by simp only [List.length_cons]; omega)
        (by
          rw [List.reverse_cons, List.reverse_cons]
          refine snoc _ _ (snoc _ _ hs ?_) ?_
          · rw [List.length_reverse]; exact ⟨fun _ => hl, fun _ => rfl⟩
          · rw [List.length_append, List.length_reverse, List.length_singleton]
            exact ⟨fun h => absurd h hch, fun h => by omega⟩)
        (by rw [← hd]; simp [List.filter_cons, hch])
      exact ⟨by rw [a1]; simp, a2, fun _ => a3 (.inr ⟨ch, _, rfl, hch⟩)⟩
    · rw [if_neg h3]
      obtain ⟨a1, a2, a3⟩ := fdecLoop_spec cs (n + 1) (ch :: s2) (ch :: done) hcs (by omega) (by omega)
        (by simp only [List.length_cons]; omega)
        (by
          rw [List.reverse_cons]
          refine snoc _ _ hs ?_
          rw [List.length_reverse]
          exact ⟨fun h => absurd h hch, fun h => by omega⟩)
        (by rw [← hd]; simp [List.filter_cons, hch])
      exact ⟨by rw [a1]; simp, a2, fun _ => a3 (.inr ⟨ch, _, rfl, hch⟩)⟩

theorem hexDigit_value (v : Nat) (h : v < 16) : hexDigitValue (hexDigit v) = v := by
  have : ∀ v : Fin 16, hexDigitValue (hexDigit v.val) = v.val := by decide
  exact this ⟨v, h⟩

theorem hexValue_snoc (l : List Char) (ch : Char) : hexValue (l ++ [ch]) = 16 * hexValue l + hexDigitValue ch := by
  simp [hexValue, List.foldl_append]

theorem hexValue_zeros (k : Nat) : hexValue (List.replicate k '0') = 0 := by
  induction k with
  | zero => rfl
  | succ k ih => rw [List.replicate_succ', hexValue_snoc, ih]; rfl

theorem fhexLoop_spec : ∀ (k v : Nat) (ds : List Char), v < 16 ^ k →
    ∃ xs, fhexLoop v (2 + k) ('0' :: 'x' :: (List.replicate k '0' ++ ds)) = .ok ('0' :: 'x' :: (xs ++ ds)) ∧
      xs.length = k ∧ hexValue xs = v
  | 0, v, ds, h => by
    have : v = 0 := by simpa using h
    subst this
    refine ⟨[], ?_, rfl, rfl⟩
    unfold fhexLoop
    rw [dif_pos rfl]
    rfl
  | k + 1, v, ds, h => by
    by_cases hv : v = 0
    · subst hv
      refine ⟨List.replicate (k + 1) '0', ?_, by simp, hexValue_zeros _⟩
      unfold fhexLoop
      rw [dif_pos rfl]
    · obtain ⟨xs, h1, h2, h3⟩ := fhexLoop_spec k (v / 16) (hexDigit (v % 16) :: ds) (by
        apply Nat.div_lt_of_lt_mul; rw [Nat.pow_succ] at h; omega)
      refine ⟨xs ++ [hexDigit (v % 16)], ?_, by simp [h2], ?_⟩
      · unfold fhexLoop
        rw [dif_neg hv, if_neg (by omega)]
        have e : ('0' :: 'x' :: (List.replicate (k + 1) '0' ++ ds)).set (2 + (k + 1) - 1) (hexDigit (v % 16)) =
            '0' :: 'x' :: (List.replicate k '0' ++ hexDigit (v % 16) :: ds) := by
          rw [show 2 + (k + 1) - 1 = k + 1 + 1 from by omega, List.set_cons_succ, List.set_cons_succ, List.replicate_succ',
            List.append_assoc, List.set_append_right _ _ (by simp)]
          simp
        rw [e, show 2 + (k + 1) - 1 = 2 + k from by omega, h1]
        simp
      · rw [hexValue_snoc, h3, hexDigit_value _ (Nat.mod_lt _ (by omega))]
        omega

theorem fhistLast_spec (hist : List Nat) : ∀ n, fhistLast hist n ≤ n ∧
    (fhistLast hist n = 0 ∨ hist.getD (fhistLast hist n) 0 ≠ 0) ∧ ∀ i, fhistLast hist n < i → i ≤ n → hist.getD i 0 = 0
  | 0 => ⟨Nat.le_refl _, .inl rfl, fun i h1 h2 => by
      have : fhistLast hist 0 = 0 := rfl
      omega⟩
  | n + 1 => by
    unfold fhistLast
    by_cases h : hist[n + 1]?.getD 0 ≠ 0
    · rw [if_pos h]
      exact ⟨Nat.le_refl _, .inr (by rw [List.getD_eq_getElem?_getD]; exact h), fun i h1 h2 => by omega⟩
    · rw [if_neg h]
      obtain ⟨a1, a2, a3⟩ := fhistLast_spec hist n
      refine ⟨by omega, a2, fun i h1 h2 => ?_⟩
      by_cases hi : i = n + 1
      · subst hi
        rw [List.getD_eq_getElem?_getD]
        exact Decidable.not_not.mp h
      · exact a3 i h1 (by omega)

end NuDB.Tool
