import Verif.Spec.Float
/-
Rounding to 24 significant bits.
-/
namespace NuDB.F32

open Spec

/-- What rounding does: `b` is the distance of neighbouring results and `q` the number of such distances. -/
structure Rounded (n d : Nat) (x : F32) (l q : Nat) : Prop where
  eq : x = ⟨q * 2 ^ l, 2 ^ 183⟩
  /-- the fraction is at least half of the range of the exponent -/
  low : d * 2 ^ l ≤ n * 2 ^ 160
  high : n * 2 ^ 160 < d * 2 ^ (l + 1)
  near : 2 * (q * (d * 2 ^ l)) ≤ 2 * (n * 2 ^ 183) + d * 2 ^ l ∧ 2 * (n * 2 ^ 183) ≤ 2 * (q * (d * 2 ^ l)) + d * 2 ^ l
  /-- halfway cases -/
  even : 2 * (q * (d * 2 ^ l)) = 2 * (n * 2 ^ 183) + d * 2 ^ l ∨ 2 * (n * 2 ^ 183) = 2 * (q * (d * 2 ^ l)) + d * 2 ^ l → q % 2 = 0
  /-- no integer lies strictly between the fraction and its rounding -/
  up : ∀ m, n * 2 ^ 183 ≤ m * (d * 2 ^ l) → q ≤ m
  down : ∀ m, m * (d * 2 ^ l) ≤ n * 2 ^ 183 → m ≤ q

theorem rounded {n d : Nat} (hn : 0 < n) (hd : 0 < d) (hs : d ≤ n * 2 ^ 160) : ∃ l q, Rounded n d (round n d) l q := by
  have hv : n * 2 ^ 160 / d ≠ 0 := by
    have := Nat.div_pos hs hd
    omega
  generalize hl : Nat.log2 (n * 2 ^ 160 / d) = l
  have h1 : 2 ^ l ≤ n * 2 ^ 160 / d := by rw [← hl]; exact Nat.log2_self_le hv
  have h2 : n * 2 ^ 160 / d < 2 ^ (l + 1) := by rw [← hl]; exact Nat.lt_log2_self
  have hb : 0 < d * 2 ^ l := Nat.mul_pos hd (Nat.two_pow_pos l)
  have hlow : d * 2 ^ l ≤ n * 2 ^ 160 := by
    rw [Nat.mul_comm]; exact (Nat.le_div_iff_mul_le hd).1 h1
  have hhigh : n * 2 ^ 160 < d * 2 ^ (l + 1) := by
    rw [Nat.mul_comm d]; exact (Nat.div_lt_iff_lt_mul hd).1 h2
  unfold round
  rw [if_neg (by omega)]
  dsimp only
  rw [hl]
  obtain ⟨b, hbe⟩ : ∃ b, d * 2 ^ l = b := ⟨_, rfl⟩
  obtain ⟨a, hae⟩ : ∃ a, n * 2 ^ 183 = a := ⟨_, rfl⟩
  rw [hbe] at hb ⊢
  rw [hae]
  have hdm := Nat.div_add_mod a b
  have hr := Nat.mod_lt a hb
  generalize a / b = q at hdm ⊢
  generalize a % b = r at hdm hr ⊢
  have hup : ∀ m, a ≤ m * b → q ≤ m ∧ (0 < r → q + 1 ≤ m) := by
    intro m hm
    rw [Nat.mul_comm m] at hm
    refine ⟨Nat.le_of_mul_le_mul_left (by omega : b * q ≤ b * m) hb, fun h0 => Nat.lt_of_mul_lt_mul_left (a := b) (by omega)⟩
  have hdown : ∀ m, m * b ≤ a → m ≤ q := by
    intro m hm
    have h : b * m < b * (q + 1) := by rw [Nat.mul_succ, Nat.mul_comm b m]; omega
    have := Nat.lt_of_mul_lt_mul_left h
    omega
  refine ⟨l, _, ⟨rfl, hlow, hhigh, ?_, ?_, ?_, ?_⟩⟩
  · rw [hbe, hae]
    split
    · rw [Nat.succ_mul q b, Nat.mul_comm q b]; omega
    · rw [Nat.mul_comm q b]; omega
  · rw [hbe, hae]
    split
    · rw [Nat.succ_mul q b, Nat.mul_comm q b]; omega
    · rw [Nat.mul_comm q b]; omega
  · intro m hm
    rw [hbe, hae] at hm
    split
    · exact (hup m hm).2 (by omega)
    · exact (hup m hm).1
  · intro m hm
    rw [hbe, hae] at hm
    have := hdown m hm
    split <;> omega

/-- The relative error of rounding is at most 2^-24. -/
theorem round_err {n d : Nat} (hd : 0 < d) (hs : n = 0 ∨ d ≤ n * 2 ^ 160) :
    Near 24 (round n d) n d ∧ (0 < n → 0 < (round n d).num) := by
  by_cases hn : n = 0
  · subst hn
    exact ⟨⟨by simp [round], by simp [round], by simp⟩, fun h => absurd h (Nat.lt_irrefl 0)⟩
  · obtain ⟨l, q, h⟩ := rounded (by omega) hd (by omega : d ≤ n * 2 ^ 160)
    obtain ⟨h1, h2⟩ := h.near
    have h3 := h.low
    have e : q * 2 ^ l * d = q * (d * 2 ^ l) := by rw [Nat.mul_assoc, Nat.mul_comm d]
    have hb : 0 < d * 2 ^ l := Nat.mul_pos hd (Nat.two_pow_pos l)
    have hq : 0 < q := by
      apply Nat.pos_of_ne_zero
      intro h0
      subst h0
      omega
    have hp := Nat.mul_pos hq (Nat.two_pow_pos l)
    rw [h.eq]
    refine ⟨⟨Nat.two_pow_pos _, ?_, ?_⟩, fun _ => hp⟩ <;> dsimp only <;> rw [e]
    all_goals
      generalize d * 2 ^ l = b at *
      generalize q * b = z at *
      omega

/-- Numbers with at most 24 significant bits are not changed. -/
theorem round_exact {n k : Nat} (hn : n < 2 ^ 24) (hs : n = 0 ∨ 2 ^ k ≤ n * 2 ^ 160) :
    (round n (2 ^ k)).num * 2 ^ k = n * (round n (2 ^ k)).den := by
  by_cases h0 : n = 0
  · subst h0
    simp [round]
  · obtain ⟨l, q, h⟩ := rounded (by omega) (Nat.two_pow_pos k) (by omega : 2 ^ k ≤ n * 2 ^ 160)
    have h3 := h.low
    rw [← Nat.pow_add] at h3
    have hkl : k + l < 184 := by
      apply (Nat.pow_lt_pow_iff_right (a := 2) (by omega)).1
      omega
    have e : n * 2 ^ (183 - (k + l)) * (2 ^ k * 2 ^ l) = n * 2 ^ 183 := by
      rw [Nat.mul_assoc, ← Nat.pow_add, ← Nat.pow_add, Nat.sub_add_cancel (by omega)]
    have e1 := h.up _ (Nat.le_of_eq e.symm)
    have e2 := h.down _ (Nat.le_of_eq e)
    rw [h.eq]
    dsimp only
    rw [← e, ← Nat.le_antisymm e1 e2, Nat.mul_assoc, Nat.mul_comm (2 ^ l)]

theorem ofNat_near (n : Nat) : Near 24 (ofNat n) n 1 ∧ (0 < n → 0 < (ofNat n).num) :=
  round_err (by omega) (by omega)

private theorem le_trans_mul {x y z a b c d g h : Nat} (h1 : x * a ≤ y * b) (h2 : y * c ≤ z * d) (hac : 0 < a * c)
    (hn : b * d * g ≤ h * (a * c)) : x * g ≤ z * h := by
  apply Nat.le_of_mul_le_mul_left _ hac
  calc a * c * (x * g) = x * a * (c * g) := by ac_rfl
    _ ≤ y * b * (c * g) := Nat.mul_le_mul_right _ h1
    _ = y * c * (b * g) := by ac_rfl
    _ ≤ z * d * (b * g) := Nat.mul_le_mul_right _ h2
    _ = z * (b * d * g) := by ac_rfl
    _ ≤ z * (h * (a * c)) := Nat.mul_le_mul_left _ hn
    _ = a * c * (z * h) := by ac_rfl

private theorem fin_upper {r1 r2 r3 : Nat} (h1 : r1 * 2 ^ 24 ≤ r3 * (2 ^ 24 + 1))
    (h2 : r3 * (2 ^ 24 * (2 ^ 24 - 1)) ≤ r2 * (2 ^ 24 * (2 ^ 24 + 1))) : r1 * 2 ^ 22 ≤ r2 * (2 ^ 22 + 1) := by
  exact le_trans_mul h1 h2 (by decide) (by decide)

private theorem fin_lower {r1 r2 r3 : Nat} (h1 : r3 * (2 ^ 24 - 1) ≤ r1 * 2 ^ 24)
    (h2 : r2 * (2 ^ 24 * (2 ^ 24 - 1)) ≤ r3 * (2 ^ 24 * (2 ^ 24 + 1))) : r2 * (2 ^ 22 - 1) ≤ r1 * 2 ^ 22 := by
  exact le_trans_mul h2 h1 (by decide) (by decide)

private theorem fin_size {A B M N : Nat} (hN : 0 < N) (hsz : M ≤ N * 2 ^ 150)
    (l1 : N * B * (2 ^ 24 * (2 ^ 24 - 1)) ≤ A * M * (2 ^ 24 * (2 ^ 24 + 1))) : B ≤ A * 2 ^ 160 := by
  have h1 : A * M ≤ A * (N * 2 ^ 150) := Nat.mul_le_mul_left _ hsz
  have h2 : A * (N * 2 ^ 150) = N * (A * 2 ^ 150) := by ac_rfl
  have h3 : N * B ≤ N * (A * 2 ^ 160) := by
    have h4 : N * (A * 2 ^ 160) = N * (A * 2 ^ 150) * 2 ^ 10 := by
      rw [Nat.mul_assoc, Nat.mul_assoc]
    rw [h4]
    rw [h2] at h1
    generalize N * (A * 2 ^ 150) = z at h1
    generalize N * B = y at l1
    generalize A * M = x at h1 l1
    omega
  exact Nat.le_of_mul_le_mul_left h3 hN

/-- The quotient of two rounded fractions. -/
theorem div_near {x y : F32} {n p m s : Nat} (hx : Near 24 x n p) (hy : Near 24 y m s) (hn : 0 < n) (hp : 0 < p) (hm : 0 < m) (hs : 0 < s)
    (hsz : p * m ≤ n * s * 2 ^ 150) : Near 22 (x.div y) (n * s) (p * m) ∧ 0 < (x.div y).num := by
  obtain ⟨X, D⟩ := x
  obtain ⟨Y, E⟩ := y
  obtain ⟨hD, x1, x2⟩ := hx
  obtain ⟨hE, y1, y2⟩ := hy
  dsimp only at *
  have hX : 0 < X := by
    apply Nat.pos_of_ne_zero
    intro h; subst h
    have := Nat.mul_pos hn hD
    omega
  have hY : 0 < Y := by
    apply Nat.pos_of_ne_zero
    intro h; subst h
    have := Nat.mul_pos hm hE
    omega
  -- products of the bounds
  have u1 := Nat.mul_le_mul x1 y2
  have l1 := Nat.mul_le_mul x2 y1
  have a1 : X * p * 2 ^ 24 * (m * E * (2 ^ 24 - 1)) = (X * E) * (p * m) * (2 ^ 24 * (2 ^ 24 - 1)) := by ac_rfl
  have a2 : n * D * (2 ^ 24 + 1) * (Y * s * 2 ^ 24) = (n * s) * (D * Y) * (2 ^ 24 * (2 ^ 24 + 1)) := by ac_rfl
  have a3 : n * D * (2 ^ 24 - 1) * (Y * s * 2 ^ 24) = (n * s) * (D * Y) * (2 ^ 24 * (2 ^ 24 - 1)) := by ac_rfl
  have a4 : X * p * 2 ^ 24 * (m * E * (2 ^ 24 + 1)) = (X * E) * (p * m) * (2 ^ 24 * (2 ^ 24 + 1)) := by ac_rfl
  rw [a1, a2] at u1
  rw [a3, a4] at l1
  have hN : 0 < n * s := Nat.mul_pos hn hs
  have hM : 0 < p * m := Nat.mul_pos hp hm
  have hXE : 0 < X * E := Nat.mul_pos hX hE
  have hB : 0 < D * Y := Nat.mul_pos hD hY
  show Near 22 (round (X * E) (D * Y)) _ _ ∧ _ < (round (X * E) (D * Y)).num
  generalize n * s = N at *
  generalize p * m = M at *
  generalize X * E = A at *
  generalize D * Y = B at *
  have hsB := fin_size hN hsz l1
  obtain ⟨⟨hd, z1, z2⟩, hpos⟩ := round_err (n := A) (d := B) hB (.inr hsB)
  refine ⟨?_, hpos hXE⟩
  generalize round A B = z at *
  obtain ⟨Z, F⟩ := z
  dsimp only at *
  have m1 := Nat.mul_le_mul_right M z1
  have m2 := Nat.mul_le_mul_right F u1
  have m3 := Nat.mul_le_mul_right M z2
  have m4 := Nat.mul_le_mul_right F l1
  refine ⟨hd, ?_, ?_⟩ <;> dsimp only
  · apply Nat.le_of_mul_le_mul_left _ hB
    have e1 : B * (Z * M * 2 ^ 22) = Z * B * M * 2 ^ 22 := by ac_rfl
    have e2 : B * (N * F * (2 ^ 22 + 1)) = N * B * F * (2 ^ 22 + 1) := by ac_rfl
    have e3 : Z * B * 2 ^ 24 * M = Z * B * M * 2 ^ 24 := by ac_rfl
    have e4 : A * F * (2 ^ 24 + 1) * M = A * M * F * (2 ^ 24 + 1) := by ac_rfl
    have e5 : A * M * (2 ^ 24 * (2 ^ 24 - 1)) * F = A * M * F * (2 ^ 24 * (2 ^ 24 - 1)) := by ac_rfl
    have e6 : N * B * (2 ^ 24 * (2 ^ 24 + 1)) * F = N * B * F * (2 ^ 24 * (2 ^ 24 + 1)) := by ac_rfl
    rw [e1, e2]
    rw [e3, e4] at m1
    rw [e5, e6] at m2
    exact fin_upper m1 m2
  · apply Nat.le_of_mul_le_mul_left _ hB
    have e1 : B * (Z * M * 2 ^ 22) = Z * B * M * 2 ^ 22 := by ac_rfl
    have e2 : B * (N * F * (2 ^ 22 - 1)) = N * B * F * (2 ^ 22 - 1) := by ac_rfl
    have e3 : Z * B * 2 ^ 24 * M = Z * B * M * 2 ^ 24 := by ac_rfl
    have e4 : A * F * (2 ^ 24 - 1) * M = A * M * F * (2 ^ 24 - 1) := by ac_rfl
    have e5 : N * B * (2 ^ 24 * (2 ^ 24 - 1)) * F = N * B * F * (2 ^ 24 * (2 ^ 24 - 1)) := by ac_rfl
    have e6 : A * M * (2 ^ 24 * (2 ^ 24 + 1)) * F = A * M * F * (2 ^ 24 * (2 ^ 24 + 1)) := by ac_rfl
    rw [e1, e2]
    rw [e3, e4] at m3
    rw [e5, e6] at m4
    exact fin_lower m3 m4

/-- Rounding depends on the value of the fraction only. -/
theorem round_scale {c n d : Nat} (hc : 0 < c) : round (c * n) (c * d) = round n d := by
  unfold round
  by_cases hn : n = 0
  · subst hn; rw [Nat.mul_zero, if_pos rfl, if_pos rfl]
  · rw [if_neg hn, if_neg (Nat.mul_ne_zero (by omega) hn)]
    have e1 : c * n * 2 ^ 160 / (c * d) = n * 2 ^ 160 / d := by
      rw [Nat.mul_assoc, Nat.mul_div_mul_left _ _ hc]
    dsimp only
    rw [e1]
    generalize Nat.log2 (n * 2 ^ 160 / d) = l
    rw [Nat.mul_assoc c n, Nat.mul_assoc c d, Nat.mul_div_mul_left _ _ hc, Nat.mul_mod_mul_left]
    generalize n * 2 ^ 183 = a
    generalize d * 2 ^ l = b
    have e2 : 2 * (c * (a % b)) = c * (2 * (a % b)) := by ac_rfl
    have e3 : c * b < c * (2 * (a % b)) ↔ b < 2 * (a % b) := Nat.mul_lt_mul_left hc
    have e4 : c * b = c * (2 * (a % b)) ↔ b = 2 * (a % b) := Nat.mul_right_inj (by omega)
    simp only [e2, e3, e4]

/-- The result of rounding up is the exact one for fractions with a small numerator. -/
theorem ceil_round {n d K : Nat} (hn : 0 < n) (hn' : n < 2 ^ 24) (hd : 0 < d) (hs : d ≤ n * 2 ^ 160) (h1 : n ≤ K * d) (h2 : K * d < n + d) :
    (round n d).ceil = .ok K := by
  obtain ⟨l, q, h⟩ := rounded hn hd hs
  obtain ⟨⟨hz, _, z2⟩, _⟩ := round_err (n := n) hd (.inr hs)
  have hl : l ≤ 183 := by
    have h3 := h.low
    have : 2 ^ l ≤ d * 2 ^ l := Nat.le_mul_of_pos_left _ hd
    have : l < 184 := (Nat.pow_lt_pow_iff_right (a := 2) (by omega)).1 (by omega)
    omega
  have e : (2 : Nat) ^ (183 - l) * 2 ^ l = 2 ^ 183 := by rw [← Nat.pow_add, Nat.sub_add_cancel hl]
  have hup : q ≤ K * 2 ^ (183 - l) := by
    apply h.up
    calc n * 2 ^ 183 ≤ K * d * 2 ^ 183 := Nat.mul_le_mul_right _ h1
      _ = K * d * (2 ^ (183 - l) * 2 ^ l) := by rw [e]
      _ = _ := by ac_rfl
  have hup' : (round n d).num ≤ K * (round n d).den := by
    rw [h.eq]
    dsimp only
    calc q * 2 ^ l ≤ K * 2 ^ (183 - l) * 2 ^ l := Nat.mul_le_mul_right _ hup
      _ = _ := by rw [Nat.mul_assoc, e]
  have hK : 1 ≤ K := by
    apply Nat.pos_of_ne_zero
    rintro rfl
    omega
  obtain ⟨k, rfl⟩ : ∃ k, K = k + 1 := ⟨K - 1, by omega⟩
  have hlow : k * (round n d).den < (round n d).num := by
    apply Nat.lt_of_not_le
    intro hle
    generalize (round n d).num = Z at *
    generalize (round n d).den = E at *
    have a1 : Z * d * 2 ^ 24 ≤ k * E * d * 2 ^ 24 := Nat.mul_le_mul_right _ (Nat.mul_le_mul_right _ hle)
    have a2 : E * (n * (2 ^ 24 - 1)) ≤ E * (k * d * 2 ^ 24) := by
      calc E * (n * (2 ^ 24 - 1)) = n * E * (2 ^ 24 - 1) := by ac_rfl
        _ ≤ _ := z2
        _ ≤ _ := a1
        _ = _ := by ac_rfl
    have a3 := Nat.le_of_mul_le_mul_left a2 hz
    rw [Nat.succ_mul] at h2
    omega
  have hkn : k < n := by
    rw [Nat.succ_mul] at h2
    have : k ≤ k * d := Nat.le_mul_of_pos_right _ hd
    omega
  unfold ceil
  dsimp only
  have ek : ((round n d).num + (round n d).den - 1) / (round n d).den = k + 1 := by
    apply Nat.le_antisymm
    · apply Nat.le_of_lt_succ
      rw [Nat.div_lt_iff_lt_mul hz, Nat.succ_mul]
      omega
    · rw [Nat.le_div_iff_mul_le hz, Nat.succ_mul]
      omega
  rw [ek, if_pos (by omega)]

/-- The significand has 24 bits, or is the next power of two. -/
theorem Rounded.bits {n d l q : Nat} {x : F32} (h : Rounded n d x l q) : 2 ^ 23 ≤ q ∧ q ≤ 2 ^ 24 := by
  constructor
  · apply h.down
    have := h.low
    omega
  · apply h.up
    have := h.high
    have e : d * 2 ^ (l + 1) = d * 2 ^ l * 2 := by rw [Nat.pow_succ, Nat.mul_assoc]
    rw [e] at this
    generalize d * 2 ^ l = b at *
    omega

/-- Rounding is monotone. -/
theorem round_mono {n d n' d' : Nat} (hn : 0 < n) (hd : 0 < d) (hs : d ≤ n * 2 ^ 160) (hd' : 0 < d') (h : n * d' ≤ n' * d) :
    (round n d).num * (round n' d').den ≤ (round n' d').num * (round n d).den := by
  have hn' : 0 < n' := by
    apply Nat.pos_of_ne_zero
    rintro rfl
    have := Nat.mul_pos hn hd'
    omega
  by_cases he : n * d' = n' * d
  · rw [← round_scale (c := d') (n := n) hd', ← round_scale (c := d) (n := n') hd, Nat.mul_comm d' n, he, Nat.mul_comm n' d, Nat.mul_comm d' d]
    exact Nat.le_refl _
  have hlt : n * d' < n' * d := by omega
  have hs' : d' ≤ n' * 2 ^ 160 := by
    apply Nat.le_of_mul_le_mul_left _ hn
    calc n * d' ≤ n' * d := h
      _ ≤ n' * (n * 2 ^ 160) := Nat.mul_le_mul_left _ hs
      _ = _ := by ac_rfl
  obtain ⟨l, q, r⟩ := rounded hn hd hs
  obtain ⟨l', q', r'⟩ := rounded hn' hd' hs'
  rw [r.eq, r'.eq]
  dsimp only
  apply Nat.mul_le_mul_right
  have hll : l ≤ l' := by
    apply Nat.le_of_lt_succ
    apply (Nat.pow_lt_pow_iff_right (a := 2) (by omega)).1
    apply Nat.lt_of_mul_lt_mul_left (a := d * d')
    calc d * d' * 2 ^ l = d' * (d * 2 ^ l) := by ac_rfl
      _ ≤ d' * (n * 2 ^ 160) := Nat.mul_le_mul_left _ r.low
      _ = n * d' * 2 ^ 160 := by ac_rfl
      _ ≤ n' * d * 2 ^ 160 := Nat.mul_le_mul_right _ h
      _ = d * (n' * 2 ^ 160) := by ac_rfl
      _ < d * (d' * 2 ^ (l' + 1)) := Nat.mul_lt_mul_of_pos_left r'.high hd
      _ = _ := by ac_rfl
  rcases Nat.eq_or_lt_of_le hll with rfl | hll
  · apply Nat.mul_le_mul_right
    apply Nat.le_of_lt_succ
    have hb : 0 < d * 2 ^ l := Nat.mul_pos hd (Nat.two_pow_pos l)
    have hb' : 0 < d' * 2 ^ l := Nat.mul_pos hd' (Nat.two_pow_pos l)
    have h1 := r.near.1
    have h2 := r'.near.2
    have h3 : n * 2 ^ 183 * (d' * 2 ^ l) < n' * 2 ^ 183 * (d * 2 ^ l) := by
      calc n * 2 ^ 183 * (d' * 2 ^ l) = n * d' * (2 ^ 183 * 2 ^ l) := by ac_rfl
        _ < n' * d * (2 ^ 183 * 2 ^ l) := Nat.mul_lt_mul_of_pos_right hlt (Nat.mul_pos (Nat.two_pow_pos _) (Nat.two_pow_pos _))
        _ = _ := by ac_rfl
    generalize d * 2 ^ l = b at hb h1 h3
    generalize d' * 2 ^ l = b' at hb' h2 h3
    obtain ⟨a, ha⟩ : ∃ a, n * 2 ^ 183 = a := ⟨_, rfl⟩
    obtain ⟨a', ha'⟩ : ∃ a, n' * 2 ^ 183 = a := ⟨_, rfl⟩
    rw [ha] at h1 h3
    rw [ha'] at h2 h3
    have h4 := Nat.mul_le_mul_right b' h1
    have h5 := Nat.mul_le_mul_right b h2
    rw [Nat.add_mul] at h4 h5
    have e1 : 2 * (q * b) * b' = q * (2 * (b * b')) := by ac_rfl
    have e2 : 2 * (q' * b') * b = q' * (2 * (b * b')) := by ac_rfl
    have e3 : 2 * a * b' = 2 * (a * b') := by ac_rfl
    have e4 : 2 * a' * b = 2 * (a' * b) := by ac_rfl
    have e5 : b' * b = b * b' := by ac_rfl
    rw [e1, e3] at h4
    rw [e2, e4, e5] at h5
    have hbb : 0 < b * b' := Nat.mul_pos hb hb'
    apply Nat.lt_of_mul_lt_mul_right (a := 2 * (b * b'))
    rw [Nat.succ_mul q']
    clear e1 e2 e3 e4 e5 r r' h1 h2 hs hs' h ha ha'
    generalize b * b' = z at *
    generalize a * b' = u at *
    generalize a' * b = v at *
    generalize q * (2 * z) = s at *
    generalize q' * (2 * z) = t at *
    omega
  · calc q * 2 ^ l ≤ 2 ^ 24 * 2 ^ l := Nat.mul_le_mul_right _ r.bits.2
      _ = 2 ^ 23 * 2 ^ (l + 1) := by
        have e : 2 ^ (l + 1) = 2 * 2 ^ l := by rw [Nat.pow_succ, Nat.mul_comm]
        rw [e]; omega
      _ ≤ 2 ^ 23 * 2 ^ l' := Nat.mul_le_mul_left _ (Nat.pow_le_pow_right (by omega) hll)
      _ ≤ q' * 2 ^ l' := Nat.mul_le_mul_right _ r'.bits.1

private theorem ofNat_mono {m n : Nat} (h : m ≤ n) : (ofNat m).num * (ofNat n).den ≤ (ofNat n).num * (ofNat m).den := by
  by_cases hm : m = 0
  · subst hm
    rw [show (ofNat 0).num = 0 from rfl, Nat.zero_mul]
    exact Nat.zero_le _
  · exact round_mono (by omega) (by omega) (by omega) (by omega) (by omega)

private theorem round_one {n : Nat} (hn : 0 < n) : (round n n).num = (round n n).den := by
  have := round_scale (c := n) (n := 1) (d := 1) hn
  rw [Nat.mul_one] at this
  rw [this]
  decide +kernel

/-- Quotients of ordered integers. -/
theorem div_le_one {m n : Nat} (hn : 0 < n) (hn' : n < 2 ^ 64) (h : m ≤ n) : ((ofNat m).div (ofNat n)).num ≤ ((ofNat m).div (ofNat n)).den := by
  by_cases hm : m = 0
  · subst hm
    unfold div
    rw [show (ofNat 0).num = 0 from rfl, Nat.zero_mul]
    unfold round
    rw [if_pos rfl]
    decide
  have hx := ofNat_near m
  have hy := ofNat_near n
  have h1 := Nat.mul_pos (hx.2 (by omega)) hy.1.den
  have h2 := Nat.mul_pos hx.1.den (hy.2 hn)
  have h3 := ofNat_mono h
  unfold div
  have hs : (ofNat m).den * (ofNat n).num ≤ (ofNat m).num * (ofNat n).den * 2 ^ 160 := by
    have a1 := hx.1.lower
    have a2 : 1 * (ofNat m).den ≤ m * (ofNat m).den := Nat.mul_le_mul_right _ (by omega)
    have a3 : (ofNat m).den ≤ 2 * (ofNat m).num := by omega
    have b1 := hy.1.upper
    have b2 : n * (ofNat n).den ≤ 2 ^ 64 * (ofNat n).den := Nat.mul_le_mul_right _ (by omega)
    have b3 : (ofNat n).num ≤ 2 ^ 65 * (ofNat n).den := by omega
    have := Nat.mul_le_mul a3 b3
    have e : 2 * (ofNat m).num * (2 ^ 65 * (ofNat n).den) = (ofNat m).num * (ofNat n).den * (2 * 2 ^ 65) := by ac_rfl
    omega
  rw [Nat.mul_comm (ofNat n).num] at h3
  have := round_mono (n' := 1) (d' := 1) h1 h2 hs (by omega) (by omega)
  have e : (round 1 1).num = (round 1 1).den := round_one (by omega)
  rw [e, Nat.mul_comm] at this
  exact Nat.le_of_mul_le_mul_left this (by decide +kernel)

theorem one_le_div {m n : Nat} (hn : 0 < n) (h : n ≤ m) : ((ofNat m).div (ofNat n)).den ≤ ((ofNat m).div (ofNat n)).num := by
  have hx := ofNat_near m
  have hy := ofNat_near n
  have h1 := Nat.mul_pos (hx.2 (by omega)) hy.1.den
  have h2 := Nat.mul_pos hx.1.den (hy.2 hn)
  have h3 := ofNat_mono h
  unfold div
  rw [Nat.mul_comm (ofNat n).num] at h3
  have := round_mono (n := 1) (d := 1) (n' := (ofNat m).num * (ofNat n).den) (d' := (ofNat m).den * (ofNat n).num) (by omega) (by omega) (by omega) h2 (by omega)
  have e : (round 1 1).num = (round 1 1).den := round_one (by omega)
  rw [e, Nat.mul_comm] at this
  exact Nat.le_of_mul_le_mul_right this (by decide +kernel)

end NuDB.F32
