import Verif.Proof.XorShift
/-
C84: the random numbers and items of the tests.
-/
namespace NuDB.XorShift

/-- C84: seeding fails for 0 only, and different seeds lead to different sequences of states, at every length. -/
theorem _root_.NuDB.C84_seeds (u v : UInt64) : ((seed u = none ↔ u = 0) ∧
    ∀ a b, seed u = some a → seed v = some b → ∀ n, after n a = after n b → u = v) := by
  constructor
  · unfold seed
    by_cases h : u = 0
    · rw [if_pos h]; exact ⟨fun _ => h, fun _ => rfl⟩
    · rw [if_neg h]; exact ⟨(fun h' => by cases h'), fun h' => absurd h' h⟩
  · intro a b ha hb n hn
    have hab := after_inj n hn
    subst hab
    unfold seed at ha hb
    by_cases hu : u = 0
    · rw [if_pos hu] at ha; cases ha
    · by_cases hv : v = 0
      · rw [if_pos hv] at hb; cases hb
      · rw [if_neg hu] at ha
        rw [if_neg hv] at hb
        have := (Option.some.inj ha).trans (Option.some.inj hb).symm
        exact murmur_inj (congrArg Engine.s0 this)

/-- C84: a seeded generator returns to its first state, having passed through different
states only, none of which is the state 0 in which it would stay. -/
theorem _root_.NuDB.C84_period (v : UInt64) (e : Engine) (h : seed v = some e) :
    (∀ n, after n e ≠ ⟨0, 0⟩) ∧
    ∃ n, 0 < n ∧ after n e = e ∧ ∀ i j, i < j → j < n → after i e ≠ after j e := by
  constructor
  · intro n hn
    rw [← after_zero n] at hn
    have he := after_inj n hn
    subst he
    unfold seed at h
    by_cases hv : v = 0
    · rw [if_pos hv] at h; cases h
    · rw [if_neg hv] at h
      have h0 := congrArg Engine.s0 (Option.some.inj h)
      exact hv (murmur_inj (h0.trans murmur_zero.symm))
  · have hex := after_period e
    classical
    refine ⟨Nat.find hex, (Nat.find_spec hex).1, (Nat.find_spec hex).2, fun i j hij hj heq => ?_⟩
    have : j = (j - i) + i := by omega
    rw [this, after_add] at heq
    exact Nat.find_min hex (show j - i < Nat.find hex by omega) ⟨by omega, (after_inj i heq).symm⟩

theorem bytes_length (v : UInt64) : (bytes v).length = 8 := by simp [bytes]

theorem rngfill_length (size : Nat) (g : Engine) : (rngfill size g).1.length = size := by
  induction size using Nat.strongRecOn generalizing g with
  | ind size ih =>
    unfold rngfill
    by_cases h : size ≥ 8
    · rw [if_pos h]
      dsimp only
      rw [List.length_append, bytes_length, ih (size - 8) (by omega)]
      omega
    · rw [if_neg h]
      by_cases h0 : size > 0
      · rw [if_pos h0]
        dsimp only
        rw [List.length_take, bytes_length]
        omega
      · rw [if_neg h0]; simp only [List.length_nil]; omega

/-- C84: every index but the largest has an item, with a key of the size asked for and a
value of the size drawn, made from a state of its own. -/
theorem _root_.NuDB.C84_items (sizef : Engine → Nat × Engine) (keySize : Nat) (i : UInt64) :
    (item sizef keySize i = none ↔ i.toNat = 2 ^ 64 - 1) ∧
    ∀ it, item sizef keySize i = some it →
      ∃ g, seed (i + 1) = some g ∧ it.key.length = keySize ∧ it.data.length = (sizef g).1 ∧
        it.data ++ it.key = (rngfill (keySize + (sizef g).1) (sizef g).2).1 ∧
        ∀ j g', seed (j + 1) = some g' → g' = g → j = i := by
  have hz : i + 1 = 0 ↔ i.toNat = 2 ^ 64 - 1 := by
    rw [← UInt64.toNat_inj, UInt64.toNat_add]
    have := i.toNat_lt
    constructor
    · intro h
      have e : (1 : UInt64).toNat = 1 := rfl
      have e0 : (0 : UInt64).toNat = 0 := rfl
      rw [e, e0] at h
      omega
    · intro h; rw [h]; rfl
  constructor
  · rw [← hz, ← (C84_seeds (i + 1) 1).1]
    unfold item
    cases seed (i + 1) with
    | none => exact ⟨fun _ => rfl, fun _ => rfl⟩
    | some g => exact ⟨(fun h => by cases h), (fun h => by cases h)⟩
  · intro it h
    unfold item at h
    cases hs : seed (i + 1) with
    | none => rw [hs] at h; cases h
    | some g =>
      rw [hs] at h
      have := Option.some.inj h
      subst this
      refine ⟨g, rfl, ?_, ?_, ?_, ?_⟩
      · simp only [List.length_drop, rngfill_length]; omega
      · simp only [List.length_take, rngfill_length]; omega
      · exact List.take_append_drop _ _
      · intro j g' hj hg
        subst hg
        have := (C84_seeds (j + 1) (i + 1)).2 g' g' hj hs 0 rfl
        exact UInt64.add_left_inj 1 |>.mp this

/-- But their keys differ only if they are long enough: among 257 items with keys of one byte, whatever the sizes drawn, two have the same key. -/
theorem _root_.NuDB.C84_collision (sizef : Engine → Nat × Engine) :
    ∃ i j : UInt64, i ≠ j ∧ i < 257 ∧ j < 257 ∧
      ∃ a b, item sizef 1 i = some a ∧ item sizef 1 j = some b ∧ a.key = b.key := by
  have hsome : ∀ i : Fin 257, ∃ a, item sizef 1 (UInt64.ofNat i.val) = some a := by
    intro i
    cases h : item sizef 1 (UInt64.ofNat i.val) with
    | some a => exact ⟨a, rfl⟩
    | none =>
      have := (C84_items sizef 1 _).1.mp h
      rw [UInt64.toNat_ofNat'] at this
      have := i.isLt
      omega
  obtain ⟨x, y, hne, hxy⟩ := Fintype.exists_ne_map_eq_of_card_lt
    (fun i : Fin 257 => (((item sizef 1 (UInt64.ofNat i.val)).map (fun a : Item => a.key.headD 0)).getD 0).toFin)
    (by rw [Fintype.card_fin, Fintype.card_fin]; decide)
  obtain ⟨a, ha⟩ := hsome x
  obtain ⟨b, hb⟩ := hsome y
  have hx := x.isLt
  have hy := y.isLt
  have ex : (UInt64.ofNat x.val).toNat = x.val := by rw [UInt64.toNat_ofNat']; omega
  have ey : (UInt64.ofNat y.val).toNat = y.val := by rw [UInt64.toNat_ofNat']; omega
  refine ⟨UInt64.ofNat x.val, UInt64.ofNat y.val, ?_, ?_, ?_, a, b, ha, hb, ?_⟩
  · intro h
    apply hne
    have := congrArg UInt64.toNat h
    rw [ex, ey] at this
    exact Fin.ext this
  · rw [UInt64.lt_iff_toNat_lt, ex]; exact hx
  · rw [UInt64.lt_iff_toNat_lt, ey]; exact hy
  · rw [ha, hb] at hxy
    simp only [Option.map_some, Option.getD_some] at hxy
    have hk := UInt8.toFin_inj.mp hxy
    obtain ⟨_, _, la, _⟩ := (C84_items sizef 1 _).2 a ha
    obtain ⟨_, _, lb, _⟩ := (C84_items sizef 1 _).2 b hb
    revert hk la lb
    generalize a.key = p
    generalize b.key = q
    intro hk la lb
    match p, q, la, lb with
    | [c], [d], _, _ =>
      have : c = d := hk
      rw [this]

/-- The engine of the item with index 0 and its first number. -/
example : seed 1 = some ⟨12994781566227106604, 9038243705893100514⟩ ∧
    (next ⟨12994781566227106604, 9038243705893100514⟩).1 = 3787875997830008111 := by
  refine ⟨by decide, by decide⟩

/-- That item, with four bytes of value. -/
example : item (fun g => (4, g)) 8 0 = some ⟨[38, 61, 145, 52, 202, 192, 62, 94], [47, 205, 226, 167]⟩ := by
  have e : rngfill 12 ⟨12994781566227106604, 9038243705893100514⟩ =
      ([47, 205, 226, 167, 38, 61, 145, 52, 202, 192, 62, 94],
        (next (next ⟨12994781566227106604, 9038243705893100514⟩).2).2) := by
    rw [rngfill, rngfill]
    decide
  have h : seed (0 + 1) = some ⟨12994781566227106604, 9038243705893100514⟩ := by decide
  unfold item
  rw [h]
  dsimp only
  rw [e]
  rfl

end NuDB.XorShift
