import Verif.Proof.Float
import Verif.Props.Rekey
/-
C81: the number of buckets `rekey` makes.
-/
namespace NuDB

open Spec

variable {N cap num den B : Nat}

/-- The divisor. -/
private theorem cap_near (h1 : 1 ≤ cap) (h2 : cap < 2 ^ 16) (hnum : 0 < num) (hd : num < den) (hlf : den ≤ 65536 * num) :
    Near 24 ((F32.ofNat cap).mul ⟨num, den⟩) (cap * num) den ∧ 0 < ((F32.ofNat cap).mul ⟨num, den⟩).num := by
  have e : (F32.ofNat cap).num = cap * (F32.ofNat cap).den := by
    have := F32.round_exact (n := cap) (k := 0) (by omega) (by omega)
    simpa [F32.ofNat] using this
  have hp := (F32.ofNat_near cap).1.den
  unfold F32.mul
  rw [e]
  dsimp only
  generalize (F32.ofNat cap).den = C at *
  have hcn : 0 < cap * num := Nat.mul_pos h1 hnum
  have hle : num ≤ cap * num := Nat.le_mul_of_pos_left _ h1
  have hs : C * den ≤ cap * C * num * 2 ^ 160 := by
    have a1 : C * den ≤ C * (cap * num * 2 ^ 160) := Nat.mul_le_mul_left _ (by omega)
    have a2 : C * (cap * num * 2 ^ 160) = cap * C * num * 2 ^ 160 := by ac_rfl
    omega
  obtain ⟨⟨g1, g2, g3⟩, g4⟩ := F32.round_err (n := cap * C * num) (d := C * den) (Nat.mul_pos hp (by omega)) (.inr hs)
  refine ⟨⟨g1, ?_, ?_⟩, g4 (Nat.mul_pos (Nat.mul_pos h1 hp) hnum)⟩
  · apply Nat.le_of_mul_le_mul_left _ hp
    calc C * (_ * den * 2 ^ 24) = _ * (C * den) * 2 ^ 24 := by ac_rfl
      _ ≤ _ := g2
      _ = _ := by ac_rfl
  · apply Nat.le_of_mul_le_mul_left _ hp
    calc C * (cap * num * _ * (2 ^ 24 - 1)) = cap * C * num * _ * (2 ^ 24 - 1) := by ac_rfl
      _ ≤ _ := g3
      _ = _ := by ac_rfl

/-- The quotient. -/
private theorem quotient_near (hN : 1 ≤ N) (h1 : 1 ≤ cap) (h2 : cap < 2 ^ 16) (hnum : 0 < num) (hd : num < den) (hlf : den ≤ 65536 * num) :
    ∃ z : F32, rekeyBuckets N cap (.rat num den) = z.ceil ∧ Near 22 z (N * den) (cap * num) ∧ 0 < z.num := by
  obtain ⟨hy, hy0⟩ := cap_near h1 h2 hnum hd hlf
  obtain ⟨hx, _⟩ := F32.ofNat_near N
  have hcn : 0 < cap * num := Nat.mul_pos h1 hnum
  have hsz : 1 * (cap * num) ≤ N * den * 2 ^ 150 := by
    have a1 : cap * num ≤ 2 ^ 16 * den := Nat.mul_le_mul (by omega) (by omega)
    have a2 : 1 * den ≤ N * den := Nat.mul_le_mul_right _ hN
    omega
  obtain ⟨g1, g2⟩ := F32.div_near hx hy (by omega) (by omega) hcn (by omega) hsz
  rw [Nat.one_mul] at g1
  refine ⟨_, ?_, g1, g2⟩
  unfold rekeyBuckets
  dsimp only
  rw [Int.natAbs_natCast, if_neg (by omega), if_neg (by omega)]

private theorem ceil_inv {x : F32} (hd : 0 < x.den) (h : x.ceil = .ok B) : x.num ≤ B * x.den ∧ B * x.den < x.num + x.den := by
  unfold F32.ceil at h
  dsimp only at h
  split at h
  · cases h
    have h1 := Nat.div_add_mod (x.num + x.den - 1) x.den
    have h2 := Nat.mod_lt (x.num + x.den - 1) hd
    rw [Nat.mul_comm] at h1
    omega
  · cases h

/-- C81, in part: up to a relative error of 2^-22, `rekey` makes as many buckets as are needed so that the items fill the share of the capacity given by
the load factor `num / den`, and not more. There is at least one bucket. Without the relative error this does not hold (`C81_violated`). -/
theorem C81_partial (hN : 1 ≤ N) (h1 : 1 ≤ cap) (h2 : cap < 2 ^ 16) (hnum : 0 < num) (hd : num < den) (hlf : den ≤ 65536 * num)
    (h : rekeyBuckets N cap (.rat num den) = .ok B) :
    1 ≤ B ∧ N * den * (2 ^ 22 - 1) ≤ B * (cap * num) * 2 ^ 22 ∧ (B - 1) * (cap * num) * 2 ^ 22 < N * den * (2 ^ 22 + 1) := by
  obtain ⟨z, e, ⟨z1, z2, z3⟩, z4⟩ := quotient_near hN h1 h2 hnum hd hlf
  rw [e] at h
  obtain ⟨c1, c2⟩ := ceil_inv z1 h
  have hB : 1 ≤ B := by
    apply Nat.pos_of_ne_zero
    intro h; subst h
    omega
  refine ⟨hB, ?_, ?_⟩
  · apply Nat.le_of_mul_le_mul_left _ z1
    calc z.den * (N * den * (2 ^ 22 - 1)) = N * den * z.den * (2 ^ 22 - 1) := by ac_rfl
      _ ≤ z.num * (cap * num) * 2 ^ 22 := z3
      _ ≤ B * z.den * (cap * num) * 2 ^ 22 := Nat.mul_le_mul_right _ (Nat.mul_le_mul_right _ c1)
      _ = _ := by ac_rfl
  · have hcn : 0 < cap * num * 2 ^ 22 := Nat.mul_pos (Nat.mul_pos h1 hnum) (by decide)
    have c3 : (B - 1) * z.den < z.num := by
      obtain ⟨b, rfl⟩ : ∃ b, B = b + 1 := ⟨B - 1, by omega⟩
      rw [Nat.succ_mul] at c2
      rw [Nat.add_sub_cancel]
      omega
    apply Nat.lt_of_mul_lt_mul_left (a := z.den)
    calc z.den * ((B - 1) * (cap * num) * 2 ^ 22) = (B - 1) * z.den * (cap * num * 2 ^ 22) := by ac_rfl
      _ < z.num * (cap * num * 2 ^ 22) := Nat.mul_lt_mul_of_pos_right c3 hcn
      _ = z.num * (cap * num) * 2 ^ 22 := by ac_rfl
      _ ≤ _ := z2
      _ = _ := by ac_rfl

/-- The number of buckets is defined for load factors of at least 2^-16 and up to 2^47 items. -/
theorem C81_defined (hN : 1 ≤ N) (hN' : N < 2 ^ 47) (h1 : 1 ≤ cap) (h2 : cap < 2 ^ 16) (hnum : 0 < num) (hd : num < den)
    (hlf : den ≤ 65536 * num) : ∃ B, rekeyBuckets N cap (.rat num den) = .ok B := by
  obtain ⟨z, e, ⟨z1, z2, z3⟩, z4⟩ := quotient_near hN h1 h2 hnum hd hlf
  rw [e]
  unfold F32.ceil
  dsimp only
  refine ⟨_, if_pos ?_⟩
  rw [Nat.div_lt_iff_lt_mul z1]
  have a1 : z.num * num * 2 ^ 22 ≤ z.num * (cap * num) * 2 ^ 22 :=
    Nat.mul_le_mul_right _ (Nat.mul_le_mul_left _ (Nat.le_mul_of_pos_left _ h1))
  have a2 : N * den * z.den * (2 ^ 22 + 1) ≤ N * (65536 * num) * z.den * (2 ^ 22 + 1) :=
    Nat.mul_le_mul_right _ (Nat.mul_le_mul_right _ (Nat.mul_le_mul_left _ hlf))
  have a3 : num * (z.num * 2 ^ 22) ≤ num * (N * z.den * (65536 * (2 ^ 22 + 1))) := by
    calc num * (z.num * 2 ^ 22) = z.num * num * 2 ^ 22 := by ac_rfl
      _ ≤ _ := a1
      _ ≤ _ := z2
      _ ≤ _ := a2
      _ = _ := by ac_rfl
  have a4 := Nat.le_of_mul_le_mul_left a3 hnum
  have a5 : N * z.den ≤ (2 ^ 47 - 1) * z.den := Nat.mul_le_mul_right _ (by omega)
  omega

/-- For fewer items the number is exact: the least one with which the items do not fill more than that share of the capacity. The load factor is an
even smaller number of bits; for the load factor 1/2 the limit is at 2^23 items. -/
theorem C81_exact {k : Nat} (hN : 1 ≤ N) (hN' : N * 2 ^ k < 2 ^ 24) (h1 : 1 ≤ cap) (hcap : cap * num < 2 ^ 24) (hnum : 0 < num) (hd : num < 2 ^ k) :
    ∃ B, rekeyBuckets N cap (.rat num (2 ^ k : Nat)) = .ok B ∧ N * 2 ^ k ≤ B * (cap * num) ∧ ∀ n, N * 2 ^ k ≤ n * (cap * num) → B ≤ n := by
  have hk : 0 < 2 ^ k := Nat.two_pow_pos k
  have hcn : 0 < cap * num := Nat.mul_pos h1 hnum
  have hNk : 2 ^ k ≤ N * 2 ^ k := Nat.le_mul_of_pos_left _ hN
  have hcc : cap ≤ cap * num := Nat.le_mul_of_pos_right _ hnum
  have hNN : N ≤ N * 2 ^ k := Nat.le_mul_of_pos_right _ hk
  have ec : (F32.ofNat cap).num = cap * (F32.ofNat cap).den := by
    have := F32.round_exact (n := cap) (k := 0) (by omega) (by omega)
    simpa [F32.ofNat] using this
  have eN : (F32.ofNat N).num = N * (F32.ofNat N).den := by
    have := F32.round_exact (n := N) (k := 0) (by omega) (by omega)
    simpa [F32.ofNat] using this
  have hcd := (F32.ofNat_near cap).1.den
  have hNd := (F32.ofNat_near N).1.den
  have ey : (F32.ofNat cap).mul ⟨num, 2 ^ k⟩ = F32.round (cap * num) (2 ^ k) := by
    unfold F32.mul
    rw [ec]
    dsimp only
    rw [Nat.mul_comm cap, Nat.mul_assoc, F32.round_scale hcd]
  have ey2 := F32.round_exact (n := cap * num) (k := k) hcap (by omega)
  obtain ⟨⟨hy1, _, _⟩, hy2⟩ := F32.round_err (n := cap * num) (d := 2 ^ k) hk (.inr (by omega))
  have hy2 := hy2 hcn
  have ez : (F32.ofNat N).div (F32.round (cap * num) (2 ^ k)) = F32.round (N * 2 ^ k) (cap * num) := by
    unfold F32.div
    rw [eN]
    generalize F32.round (cap * num) (2 ^ k) = y at *
    rw [Nat.mul_comm N, Nat.mul_assoc, F32.round_scale hNd, ← F32.round_scale (c := 2 ^ k) (n := N * y.den) hk, Nat.mul_comm (2 ^ k) y.num, ey2,
      ← F32.round_scale (c := y.den) (n := N * 2 ^ k) hy1]
    congr 1 <;> ac_rfl
  refine ⟨(N * 2 ^ k + cap * num - 1) / (cap * num), ?_, ?_, ?_⟩
  · unfold rekeyBuckets
    dsimp only
    rw [Int.natAbs_natCast, ey, if_neg (by omega), if_neg (by omega), ez]
    have h1 := Nat.div_add_mod (N * 2 ^ k + cap * num - 1) (cap * num)
    have h2 := Nat.mod_lt (N * 2 ^ k + cap * num - 1) hcn
    rw [Nat.mul_comm] at h1
    exact F32.ceil_round (by omega) hN' hcn (by omega) (by omega) (by omega)
  · have h1 := Nat.div_add_mod (N * 2 ^ k + cap * num - 1) (cap * num)
    have h2 := Nat.mod_lt (N * 2 ^ k + cap * num - 1) hcn
    rw [Nat.mul_comm] at h1
    omega
  · intro n hn
    apply Nat.le_of_lt_succ
    rw [Nat.div_lt_iff_lt_mul hcn, Nat.succ_mul]
    omega

/-- With a block size of 4096 and the load factor 1/2, `rekey` makes one bucket too many for 16777343 items and one too few for 16777230. -/
theorem C81_violated :
    (∃ B, rekeyBuckets 16777343 (bucketCapacity 4096) (.rat 1 2) = .ok B ∧ 16777343 * 2 ≤ (B - 1) * (bucketCapacity 4096 * 1)) ∧
    (∃ B, rekeyBuckets 16777230 (bucketCapacity 4096) (.rat 1 2) = .ok B ∧ B * (bucketCapacity 4096 * 1) < 16777230 * 2) := by
  refine ⟨⟨_, rfl, ?_⟩, _, rfl, ?_⟩ <;> decide +kernel

/-- Unlike `create`, `rekey` does not refuse load factors which are not between zero and one, nor block sizes too small for a bucket. For the load
factor 0, for one that is not a number, and for such block sizes the number of buckets is undefined. -/
theorem C81_undefined (N bs : Nat) (hbs : bs < 104) (l : Load) (hl : l ≠ .inf) :
    rekeyBuckets N cap (.rat 0 1) = .error .ub ∧ rekeyBuckets N cap .nan = .error .ub ∧ rekeyBuckets N (bucketCapacity bs) l = .error .ub := by
  have h0 : ∀ d, (F32.round 0 d).num = 0 := fun d => by unfold F32.round; rw [if_pos rfl]
  refine ⟨?_, rfl, ?_⟩
  · unfold rekeyBuckets
    dsimp only
    rw [if_pos]
    exact h0 _
  · have hc : bucketCapacity bs = 0 := by
      unfold bucketCapacity keyHeaderSize
      rw [if_pos (by simp; omega)]
    rw [hc]
    cases l with
    | nan => rfl
    | inf => exact absurd rfl hl
    | rat num den =>
      unfold rekeyBuckets
      dsimp only
      rw [if_pos]
      unfold F32.mul
      rw [show (F32.ofNat 0).num = 0 from h0 1, Nat.zero_mul]
      exact h0 _

/-- For no items there are no buckets; what follows from that is shown in `C58_rekey_violated`. -/
theorem C81_zero (h1 : 1 ≤ cap) (h2 : cap < 2 ^ 16) (hnum : 0 < num) (hd : num < den) (hlf : den ≤ 65536 * num) :
    rekeyBuckets 0 cap (.rat num den) = .ok 0 := by
  obtain ⟨hy, hy0⟩ := cap_near h1 h2 hnum hd hlf
  unfold rekeyBuckets
  dsimp only
  rw [Int.natAbs_natCast, if_neg (by omega), if_neg (by omega)]
  have e : (F32.ofNat 0).num = 0 := rfl
  unfold F32.div
  rw [e, Nat.zero_mul]
  unfold F32.round
  rw [if_pos rfl]
  rfl

/-- `rekey`, called with the number of items, a load factor between 2^-16 and 1 and a block size of at least 104: if it succeeds the database answers as before,
and the key file has a number of buckets as in `C81_partial`. -/
theorem C81_rekey {c : Cfg} {a : CreateArgs} {lf : Nat} {short : Prop} {t : List Label} {fs : Fs} {m : Map} {σ : Schedule} {w w' : World}
    {rc : RekeyCall} (hc : Creatable a lf) (hr : Reachable c a short t (none, fs)) (hl : fs .log = none) (hm : Answers c a.keySize fs m)
    (hsalt : rc.salt < 2 ^ 64) (hbs : 104 ≤ rc.blockSize ∧ rc.blockSize < 2 ^ 16) (hload : rc.load = .rat num den) (hnum : 0 < num)
    (hd : num < den) (hlf : den ≤ 65536 * num) (hN : 1 ≤ rc.itemCount) (hN' : rc.itemCount < 2 ^ 47)
    (hfew : rc.itemCount * den ≤ 2 ^ 31 * (bucketCapacity rc.blockSize * num))
    (hw : w.fs = fs.set .key none) (hrun : rekeyCall c rc σ w = (.ok (), w')) :
    Answers c a.keySize w'.fs m ∧ ∃ K B, bytesOf w'.fs .key = some K ∧ K.length = (B + 1) * rc.blockSize ∧ 1 ≤ B ∧
      rc.itemCount * den * (2 ^ 22 - 1) ≤ B * (bucketCapacity rc.blockSize * num) * 2 ^ 22 ∧
      (B - 1) * (bucketCapacity rc.blockSize * num) * 2 ^ 22 < rc.itemCount * den * (2 ^ 22 + 1) := by
  have hcap : 1 ≤ bucketCapacity rc.blockSize ∧ bucketCapacity rc.blockSize < 2 ^ 16 := by
    unfold bucketCapacity keyHeaderSize
    rw [if_neg (by simp; omega)]
    omega
  obtain ⟨B, hB⟩ := C81_defined hN hN' hcap.1 hcap.2 hnum hd hlf
  have hb := C81_partial hN hcap.1 hcap.2 hnum hd hlf hB
  have hB32 : B ≤ 2 ^ 32 := by
    have hcn : 0 < bucketCapacity rc.blockSize * num := Nat.mul_pos hcap.1 hnum
    obtain ⟨_, _, h3⟩ := hb
    generalize bucketCapacity rc.blockSize * num = z at *
    have : (B - 1) * z * 2 ^ 22 < 2 ^ 31 * z * (2 ^ 22 + 1) := Nat.lt_of_lt_of_le h3 (Nat.mul_le_mul_right _ hfew)
    have : z * ((B - 1) * 2 ^ 22) < z * (2 ^ 31 * (2 ^ 22 + 1)) := by
      calc z * ((B - 1) * 2 ^ 22) = (B - 1) * z * 2 ^ 22 := by ac_rfl
        _ < _ := this
        _ = _ := by ac_rfl
    have := Nat.lt_of_mul_lt_mul_left this
    omega
  unfold rekeyCall at hrun
  rw [hload, hB] at hrun
  have hra : Rekeyable ⟨rc.blockSize, .rat num den, B, rc.salt, rc.bufferSize⟩ (65536 * num / den) :=
    ⟨hsalt, hbs, ⟨num, den, rfl, by omega, by omega, by simp⟩, (Nat.le_div_iff_mul_le (by omega)).2 (by omega), hb.1, hB32⟩
  obtain ⟨h1, _, _, K, h2, h3, _⟩ := C29_rekey hc hr hl hm hra hw hrun
  exact ⟨h1, K, B, h2, h3, hb⟩

/-- The premises of `C81_partial`, `C81_defined` and `C81_exact`. -/
example : rekeyBuckets 1000 (bucketCapacity 4096) (.rat 1 2) = .ok 9 ∧ 1000 * 2 ^ 1 < 2 ^ 24 ∧ (1 : Nat) < 2 ^ 1 ∧ 2 ≤ 65536 * 1 ∧
    bucketCapacity 4096 * 1 < 2 ^ 24 ∧ 1 ≤ bucketCapacity 4096 ∧ bucketCapacity 4096 < 2 ^ 16 :=
  ⟨rfl, by decide, by decide, by decide, by decide, by decide, by decide⟩

/-- The premises of `C81_rekey`: a database with nine pairs is given a new key file, for ten items. -/
example : ∃ t fs m w w', Creatable demoArgs 32768 ∧ Reachable demoCfg demoArgs False t (none, fs) ∧ fs .log = none ∧
    Answers demoCfg demoArgs.keySize fs m ∧ w.fs = fs.set .key none ∧ 10 * 4 ≤ 2 ^ 31 * (bucketCapacity 120 * 3) ∧
    rekeyCall demoCfg ⟨120, .rat 3 4, 10, 5, 250⟩ calm w = (.ok (), w') := by
  obtain ⟨t, fs, D, h1, h2, h3, h4⟩ := demo_small
  obtain ⟨df, D, K, recs, B, view, hd, sd, hS, _⟩ := before_rekey demo_creatable h1 h2
  obtain ⟨w', h⟩ := C29_succeeds demo_creatable h1 h2 demo_rekeyable (w := ⟨fs.set .key none, 0, []⟩) rfl h3 h4
  refine ⟨t, fs, _, ⟨fs.set .key none, 0, []⟩, w', demo_creatable, h1, h2, hS.map, rfl, by decide, ?_⟩
  unfold rekeyCall
  rw [show rekeyBuckets 10 (bucketCapacity 120) (.rat 3 4) = .ok 3 from rfl]
  exact h

end NuDB
