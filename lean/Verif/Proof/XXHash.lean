import Verif.Model.XXHash
import Verif.Spec.XXHash
/- The hash function as implemented computes XXH64. -/
namespace NuDB.XX

open Spec

theorem leVal_lt (bs : Bytes) : leVal bs < 256 ^ bs.length := by
  induction bs with
  | nil => simp [leVal]
  | cons b bs ih =>
    have := b.toNat_lt
    simp only [leVal, List.length_cons, Nat.pow_succ]
    omega

theorem leVal_append (a b : Bytes) : leVal (a ++ b) = leVal a + 256 ^ a.length * leVal b := by
  induction a with
  | nil => simp [leVal]
  | cons x a ih =>
    simp only [List.cons_append, leVal, ih, List.length_cons, Nat.pow_succ, Nat.mul_add]
    rw [Nat.mul_comm (256 ^ a.length) 256, Nat.mul_assoc]
    omega

theorem bigVal_eq (bs : Bytes) : bigVal bs = leVal bs.reverse := by
  induction bs with
  | nil => rfl
  | cons b bs ih =>
    simp only [bigVal, List.reverse_cons, leVal_append, leVal, ih, List.length_reverse]
    rw [Nat.mul_comm, Nat.mul_zero, Nat.add_zero]
    omega

theorem leVal_testBit (bs : Bytes) (j : Nat) :
    (leVal bs).testBit j = ((bs.getD (j / 8) 0).toNat).testBit (j % 8) := by
  induction bs generalizing j with
  | nil => simp [leVal]
  | cons b bs ih =>
    have hb := b.toNat_lt
    have : leVal (b :: bs) = 2 ^ 8 * leVal bs + b.toNat := by simp only [leVal]; omega
    rw [this, Nat.testBit_two_pow_mul_add _ hb]
    split
    · rename_i h
      rw [Nat.div_eq_of_lt h, Nat.mod_eq_of_lt h]
      simp
    · rename_i h
      rw [ih]
      obtain ⟨i, rfl⟩ : ∃ i, j = i + 8 := ⟨j - 8, by omega⟩
      have e1 : (i + 8) / 8 = i / 8 + 1 := by omega
      have e2 : (i + 8) % 8 = i % 8 := by omega
      rw [e1, e2]
      simp

theorem toNat_word {n : Nat} (h : n < 2 ^ 64) : (UInt64.ofNat n).toNat = n := UInt64.toNat_ofNat_of_lt h

theorem swap64_eq {bs : Bytes} (h : bs.length = 8) :
    swap64 (UInt64.ofNat (leVal bs.reverse)) = UInt64.ofNat (leVal bs) := by
  have h1 := leVal_lt bs
  have h2 := leVal_lt bs.reverse
  rw [List.length_reverse] at h2
  rw [h] at h1 h2
  apply UInt64.toNat_inj.mp
  rw [toNat_word h1]
  unfold swap64
  simp only [UInt64.toNat_or, UInt64.toNat_and, UInt64.toNat_shiftLeft, UInt64.toNat_shiftRight]
  rw [toNat_word h2]
  apply Nat.eq_of_testBit_eq
  intro i
  simp only [Nat.testBit_or, Nat.testBit_and, Nat.testBit_mod_two_pow, Nat.testBit_shiftLeft, Nat.testBit_shiftRight,
    leVal_testBit]
  match bs, h with
  | [b0, b1, b2, b3, b4, b5, b6, b7], _ =>
    rcases Nat.lt_or_ge i 64 with hi | hi
    · have key : i ∈ List.range 64 := List.mem_range.mpr hi
      have e : List.range 64 = [0, 1, 2, 3, 4, 5, 6, 7, 8, 9, 10, 11, 12, 13, 14, 15, 16, 17, 18, 19, 20, 21, 22, 23,
        24, 25, 26, 27, 28, 29, 30, 31, 32, 33, 34, 35, 36, 37, 38, 39, 40, 41, 42, 43, 44, 45, 46, 47, 48, 49, 50, 51,
        52, 53, 54, 55, 56, 57, 58, 59, 60, 61, 62, 63] := by decide
      rw [e] at key
      clear e hi h1 h2
      repeat
        rcases List.mem_cons.mp key with rfl | key
        · simp [Nat.testBit]
          done
      cases key
    · have hm : ∀ k : UInt64, k.toNat.testBit i = false := fun k =>
        Nat.testBit_lt_two_pow (Nat.lt_of_lt_of_le k.toNat_lt (Nat.pow_le_pow_right (by omega) hi))
      have h8 : (([b0, b1, b2, b3, b4, b5, b6, b7] : Bytes).getD (i / 8) 0) = 0 := by
        rw [List.getD_eq_getElem?_getD, List.getElem?_eq_none (by simp only [List.length_cons, List.length_nil]; omega)]
        rfl
      simp only [hm, h8, Bool.and_false, Bool.or_false]
      simp

theorem swap32_eq {bs : Bytes} (h : bs.length = 4) :
    swap32 (UInt64.ofNat (leVal bs.reverse)) = UInt64.ofNat (leVal bs) := by
  have h1 := leVal_lt bs
  have h2 := leVal_lt bs.reverse
  rw [List.length_reverse] at h2
  rw [h] at h1 h2
  apply UInt64.toNat_inj.mp
  rw [toNat_word (Nat.lt_trans h1 (by decide))]
  unfold swap32
  simp only [UInt64.toNat_or, UInt64.toNat_and, UInt64.toNat_shiftLeft, UInt64.toNat_shiftRight]
  rw [toNat_word (Nat.lt_trans h2 (by decide))]
  apply Nat.eq_of_testBit_eq
  intro i
  simp only [Nat.testBit_or, Nat.testBit_and, Nat.testBit_mod_two_pow, Nat.testBit_shiftLeft, Nat.testBit_shiftRight,
    leVal_testBit]
  match bs, h with
  | [b0, b1, b2, b3], _ =>
    rcases Nat.lt_or_ge i 32 with hi | hi
    · have key : i ∈ List.range 32 := List.mem_range.mpr hi
      have e : List.range 32 = [0, 1, 2, 3, 4, 5, 6, 7, 8, 9, 10, 11, 12, 13, 14, 15, 16, 17, 18, 19, 20, 21, 22, 23,
        24, 25, 26, 27, 28, 29, 30, 31] := by decide
      rw [e] at key
      clear e hi h1 h2
      repeat
        rcases List.mem_cons.mp key with rfl | key
        · simp [Nat.testBit]
          done
      cases key
    · have hm : ∀ k : UInt64, k.toNat < 2 ^ 32 → k.toNat.testBit i = false := fun k hk =>
        Nat.testBit_lt_two_pow (Nat.lt_of_lt_of_le hk (Nat.pow_le_pow_right (by omega) hi))
      have h8 : (([b0, b1, b2, b3] : Bytes).getD (i / 8) 0) = 0 := by
        rw [List.getD_eq_getElem?_getD, List.getElem?_eq_none (by simp only [List.length_cons, List.length_nil]; omega)]
        rfl
      rw [hm 0xff000000 (by decide), hm 0x00ff0000 (by decide), hm 0x0000ff00 (by decide), hm 0x000000ff (by decide)]
      simp only [h8, Bool.and_false, Bool.or_false]
      simp

/-- A load succeeds if it stays inside the buffer and is aligned where necessary. -/
def Fine (m : Machine) (al : Bool) (b : Buf) (n p : Nat) : Prop :=
  al = false ∨ m.strict = false ∨ (b.addr + p) % n = 0

theorem load_eq (m : Machine) (bs : Bytes) : m.load bs = if m.little then leVal bs else leVal bs.reverse := by
  unfold Machine.load
  rw [bigVal_eq, bigVal_eq, List.reverse_reverse]

theorem slice_word (b : Bytes) (n p : Nat) : slice b p n = (b.drop p).take n := rfl

theorem copy_ok {m : Machine} {b : Buf} {n p : Nat} (h : p + n ≤ b.bytes.length) :
    copy m b n p = .ok (UInt64.ofNat (m.load ((b.bytes.drop p).take n))) := by
  unfold copy peek
  rw [if_pos h]
  rfl

theorem deref_ok {m : Machine} {b : Buf} {n p : Nat} (h : p + n ≤ b.bytes.length)
    (hf : m.strict = false ∨ (b.addr + p) % n = 0) :
    deref m b n p = .ok (UInt64.ofNat (m.load ((b.bytes.drop p).take n))) := by
  unfold deref
  rw [if_neg, copy_ok h]
  rcases hf with h | h <;> simp [h]

theorem readLE64_ok {m : Machine} {al : Bool} {b : Buf} {p : Nat} (h : p + 8 ≤ b.bytes.length)
    (hf : Fine m al b 8 p) : readLE64 m al b p = .ok (word 8 (b.bytes.drop p)) := by
  have hl : ((b.bytes.drop p).take 8).length = 8 := by simp; omega
  unfold readLE64 word
  cases hm : m.little <;> cases al
  · simp only [copy_ok h, Except.map, load_eq, hm, Bool.false_eq_true, if_false, swap64_eq hl]
  · simp only [deref_ok h (hf.resolve_left (by simp)), Except.map, load_eq, hm, Bool.false_eq_true, if_false,
      swap64_eq hl]
  · simp only [copy_ok h, load_eq, hm, if_true]
  · simp only [deref_ok h (hf.resolve_left (by simp)), load_eq, hm, if_true]

theorem readLE32_ok {m : Machine} {al : Bool} {b : Buf} {p : Nat} (h : p + 4 ≤ b.bytes.length)
    (hf : Fine m al b 4 p) : readLE32 m al b p = .ok (word 4 (b.bytes.drop p)) := by
  have hl : ((b.bytes.drop p).take 4).length = 4 := by simp; omega
  unfold readLE32 word
  cases hm : m.little <;> cases al
  · simp only [copy_ok h, Except.map, load_eq, hm, Bool.false_eq_true, if_false, swap32_eq hl]
  · simp only [deref_ok h (hf.resolve_left (by simp)), Except.map, load_eq, hm, Bool.false_eq_true, if_false,
      swap32_eq hl]
  · simp only [copy_ok h, load_eq, hm, if_true]
  · simp only [deref_ok h (hf.resolve_left (by simp)), load_eq, hm, if_true]

theorem deref_bad {m : Machine} {b : Buf} {n p : Nat} (hs : m.strict = true) (hp : (b.addr + p) % n ≠ 0) :
    deref m b n p = .error .ub := by
  unfold deref
  rw [if_pos]
  simp [hs, hp]

theorem readLE64_bad {m : Machine} {b : Buf} {p : Nat} (hs : m.strict = true) (hp : (b.addr + p) % 8 ≠ 0) :
    readLE64 m true b p = .error .ub := by
  unfold readLE64
  cases m.little <;> simp only [deref_bad hs hp, Except.map]

theorem readLE32_bad {m : Machine} {b : Buf} {p : Nat} (hs : m.strict = true) (hp : (b.addr + p) % 4 ≠ 0) :
    readLE32 m true b p = .error .ub := by
  unfold readLE32
  cases m.little <;> simp only [deref_bad hs hp, Except.map]

theorem round_eq (a i : UInt64) : round a i = Spec.round a i := rfl
theorem mergeRound_eq (a i : UInt64) : mergeRound a i = Spec.merge a i := rfl
theorem rotl_eq (a i : UInt64) : rotl64 a i = Spec.rotl a i := rfl

/-- Merging of the accumulators. -/
def mergeAll (v : UInt64 × UInt64 × UInt64 × UInt64) : UInt64 :=
  merge (merge (merge (merge (rotl v.1 1 + rotl v.2.1 7 + rotl v.2.2.1 12 + rotl v.2.2.2 18) v.1) v.2.1) v.2.2.1) v.2.2.2

theorem loop32_ok {m : Machine} {al : Bool} {b : Buf} (hf : ∀ q, q % 8 = 0 → Fine m al b 8 q) {fuel : Nat} :
    ∀ {v1 v2 v3 v4 : UInt64} {p : Nat}, p % 8 = 0 → p + 32 ≤ b.bytes.length → b.bytes.length < p + 32 * fuel + 1 →
    ∃ v q, loop32 m al b (b.bytes.length - 32) fuel v1 v2 v3 v4 p = .ok (v, q) ∧ q % 8 = 0 ∧ q ≤ b.bytes.length ∧
      stripes v1 v2 v3 v4 (b.bytes.drop p) = (mergeAll v, b.bytes.drop q) := by
  induction fuel with
  | zero => intro v1 v2 v3 v4 p h8 h1 h2; omega
  | succ fuel ih =>
    intro v1 v2 v3 v4 p h8 h1 h2
    have e1 := readLE64_ok (m := m) (al := al) (b := b) (p := p) (by omega) (hf p h8)
    have e2 := readLE64_ok (m := m) (al := al) (b := b) (p := p + 8) (by omega) (hf _ (by omega))
    have e3 := readLE64_ok (m := m) (al := al) (b := b) (p := p + 8 + 8) (by omega) (hf _ (by omega))
    have e4 := readLE64_ok (m := m) (al := al) (b := b) (p := p + 8 + 8 + 8) (by omega) (hf _ (by omega))
    rw [stripes, if_pos (by simp; omega)]
    simp only [loop32, e1, e2, e3, e4, bind, Except.bind, List.drop_drop]
    by_cases hle : p + 8 + 8 + 8 + 8 ≤ b.bytes.length - 32
    · rw [if_pos hle]
      exact ih (by omega) (by omega) (by omega)
    · rw [if_neg hle]
      refine ⟨_, _, rfl, by omega, by omega, ?_⟩
      rw [stripes, if_neg (by simp; omega)]
      rfl

theorem loop8_ok {m : Machine} {al : Bool} {b : Buf} (hf : ∀ q, q % 8 = 0 → Fine m al b 8 q) {fuel : Nat} :
    ∀ {h : UInt64} {p : Nat}, p % 8 = 0 → p ≤ b.bytes.length → b.bytes.length < p + 8 * fuel →
    ∃ h' q, loop8 m al b fuel h p = .ok (h', q) ∧ q % 8 = 0 ∧ q ≤ b.bytes.length ∧
      lanes h (b.bytes.drop p) = (h', b.bytes.drop q) := by
  induction fuel with
  | zero => intro h p h8 h1 h2; omega
  | succ fuel ih =>
    intro h p h8 h1 h2
    rw [lanes]
    by_cases hle : p + 8 ≤ b.bytes.length
    · rw [if_pos (by simp; omega)]
      simp only [loop8, hle, if_true, readLE64_ok hle (hf p h8), bind, Except.bind, List.drop_drop]
      exact ih (by omega) (by omega) (by omega)
    · rw [if_neg (by simp; omega)]
      simp only [loop8, hle, if_false]
      exact ⟨_, _, rfl, h8, h1, rfl⟩

theorem loop1_ok {b : Buf} {fuel : Nat} : ∀ {h : UInt64} {p : Nat}, p ≤ b.bytes.length →
    b.bytes.length < p + fuel → loop1 b fuel h p = .ok (single h (b.bytes.drop p)) := by
  induction fuel with
  | zero => intro h p h1 h2; omega
  | succ fuel ih =>
    intro h p h1 h2
    by_cases hlt : p < b.bytes.length
    · have e : b.bytes.drop p = b.bytes[p] :: b.bytes.drop (p + 1) := List.drop_eq_getElem_cons hlt
      have e2 : peek b.bytes p 1 = .ok [b.bytes[p]] := by
        unfold peek slice
        rw [if_pos (by omega), e]
        rfl
      simp only [loop1, hlt, if_true, e2, bind, Except.bind]
      rw [ih (by omega) (by omega), e]
      rfl
    · simp only [loop1, hlt, if_false]
      rw [List.drop_of_length_le (by omega)]
      rfl

theorem step4_ok {m : Machine} {al : Bool} {b : Buf} {h : UInt64} {p : Nat} (hf : p + 4 ≤ b.bytes.length → Fine m al b 4 p)
    (hp : p ≤ b.bytes.length) :
    ∃ h' q, step4 m al b h p = .ok (h', q) ∧ q ≤ b.bytes.length ∧ half h (b.bytes.drop p) = (h', b.bytes.drop q) := by
  unfold step4 half
  by_cases hle : p + 4 ≤ b.bytes.length
  · rw [if_pos hle, if_pos (by simp; omega)]
    simp only [readLE32_ok hle (hf hle), bind, Except.bind]
    exact ⟨_, _, rfl, hle, by rw [List.drop_drop]; rfl⟩
  · rw [if_neg hle, if_neg (by simp; omega)]
    exact ⟨_, _, rfl, hp, rfl⟩

theorem endianAlign_ok {m : Machine} {al : Bool} {b : Buf} {seed : UInt64}
    (hf : 8 ≤ b.bytes.length → ∀ q, q % 8 = 0 → Fine m al b 8 q)
    (hf4 : 4 ≤ b.bytes.length → ∀ q, q % 4 = 0 → Fine m al b 4 q) :
    endianAlign m al b seed = .ok (xxh64 seed b.bytes) := by
  unfold endianAlign xxh64
  have h1 : ∃ h p, first m al b seed = .ok (h, p) ∧ p % 8 = 0 ∧ p ≤ b.bytes.length ∧
    (if 32 ≤ b.bytes.length then stripes (seed + prime1 + prime2) (seed + prime2) seed (seed - prime1) b.bytes
      else (seed + prime5, b.bytes)) = (h, b.bytes.drop p) := by
    unfold first
    by_cases h32 : 32 ≤ b.bytes.length
    · obtain ⟨v, q, e1, e2, e3, e4⟩ := loop32_ok (m := m) (al := al) (b := b) (fuel := b.bytes.length)
        (v1 := seed + prime64_1 + prime64_2) (v2 := seed + prime64_2) (v3 := seed + 0) (v4 := seed - prime64_1)
        (hf (by omega)) (p := 0) rfl (by omega) (by omega)
      simp only [if_pos h32, e1, bind, Except.bind]
      refine ⟨_, q, rfl, e2, e3, ?_⟩
      simp only [List.drop_zero] at e4
      have : seed + 0 = seed := by simp
      rw [this] at e4
      exact e4
    · simp only [if_neg h32]
      exact ⟨_, 0, rfl, rfl, by omega, rfl⟩
  obtain ⟨h, p, e1, e2, e3, e4⟩ := h1
  rw [e4]
  simp only [e1, bind, Except.bind]
  have h2 : ∃ h' q, loop8 m al b (b.bytes.length + 1) (h + UInt64.ofNat b.bytes.length) p = .ok (h', q) ∧ q % 8 = 0 ∧
      q ≤ b.bytes.length ∧ lanes (h + UInt64.ofNat b.bytes.length) (b.bytes.drop p) = (h', b.bytes.drop q) := by
    by_cases h8 : 8 ≤ b.bytes.length
    · exact loop8_ok (hf h8) e2 e3 (by omega)
    · have : ¬ p + 8 ≤ b.bytes.length := by omega
      refine ⟨h + UInt64.ofNat b.bytes.length, p, ?_, e2, e3, ?_⟩
      · simp only [loop8, this, if_false]
      · rw [lanes, if_neg (by simp; omega)]
  obtain ⟨h', q, f1, f2, f3, f4⟩ := h2
  obtain ⟨h'', r, g1, g2, g3⟩ := step4_ok (m := m) (al := al) (h := h') (p := q)
    (fun h => hf4 (by omega) q (by omega)) f3
  rw [f4]
  simp only [f1, g1, g3]
  rw [loop1_ok g2 (by omega)]
  rfl

/-- Where the hash function is defined it computes XXH64; it is undefined exactly for
certain buffers that are not aligned. -/
theorem XXH64_cases (m : Machine) (b : Buf) (seed : UInt64) :
    if m.strict = true ∧ ((8 ≤ b.bytes.length ∧ b.addr % 8 ≠ 0) ∨
        (4 ≤ b.bytes.length ∧ b.bytes.length < 8 ∧ b.addr % 4 ≠ 0)) then XXH64 m b seed = .error .ub
    else XXH64 m b seed = .ok (xxh64 seed b.bytes) := by
  unfold XXH64
  split
  · rename_i h
    obtain ⟨hs, h⟩ := h
    rw [if_neg (by omega)]
    unfold endianAlign
    rcases h with ⟨h1, h2⟩ | ⟨h1, h2, h3⟩
    · by_cases h32 : 32 ≤ b.bytes.length
      · obtain ⟨n, hn⟩ : ∃ n, b.bytes.length = n + 1 := ⟨b.bytes.length - 1, by omega⟩
        have e := readLE64_bad (b := b) (p := 0) hs h2
        unfold first
        simp only [h32, if_true]
        rw [hn]
        simp only [loop32, e, bind, Except.bind]
      · have e := readLE64_bad (b := b) (p := 0) hs h2
        have : 0 + 8 ≤ b.bytes.length := by omega
        simp only [first, h32, if_false, bind, Except.bind, loop8, this, if_true, e]
    · have e := readLE32_bad (b := b) (p := 0) hs h3
      have n8 : ¬ 0 + 8 ≤ b.bytes.length := by omega
      have n32 : ¬ 32 ≤ b.bytes.length := by omega
      have n4 : 0 + 4 ≤ b.bytes.length := by omega
      simp only [first, n32, if_false, bind, Except.bind, loop8, n8, step4, n4, if_true, e]
  · rename_i h
    have h' : m.strict = true → (8 ≤ b.bytes.length → b.addr % 8 = 0) ∧
        (4 ≤ b.bytes.length → b.bytes.length < 8 → b.addr % 4 = 0) := by
      intro hs
      constructor
      · intro h1
        exact Classical.byContradiction fun h2 => h ⟨hs, .inl ⟨h1, h2⟩⟩
      · intro h1 h2
        exact Classical.byContradiction fun h3 => h ⟨hs, .inr ⟨h1, h2, h3⟩⟩
    split
    · exact endianAlign_ok (fun _ _ _ => .inl rfl) (fun _ _ _ => .inl rfl)
    · apply endianAlign_ok
      · intro h8 q hq
        cases hs : m.strict with
        | false => exact .inr (.inl hs)
        | true => exact .inr (.inr (by have := (h' hs).1 h8; omega))
      · intro h4 q hq
        cases hs : m.strict with
        | false => exact .inr (.inl hs)
        | true =>
          refine .inr (.inr ?_)
          by_cases h8 : 8 ≤ b.bytes.length
          · have := (h' hs).1 h8; omega
          · have := (h' hs).2 h4 (by omega); omega

end NuDB.XX
