import Verif.Model.Ratios
import Verif.Proof.Float
import Verif.Props.Report
/-
C82: the quotients reported by `verify`.
-/
namespace NuDB

open Spec

variable {c : Cfg} {a : CreateArgs} {lf : Nat} {short : Prop} {t : List Label} {fs : Fs}

/-- The quotient of two integers. -/
private theorem quot_near {m n : Nat} (hn : 0 < n) (hn' : n < 2 ^ 100) : Near 22 ((F32.ofNat m).div (F32.ofNat n)) m n := by
  by_cases hm : m = 0
  · subst hm
    have e : (F32.ofNat 0).div (F32.ofNat n) = ⟨0, 1⟩ := by
      unfold F32.div
      rw [show (F32.ofNat 0).num = 0 from rfl, Nat.zero_mul]
      unfold F32.round
      rw [if_pos rfl]
    rw [e]
    exact ⟨by decide, by simp, by simp⟩
  · have := (F32.div_near (F32.ofNat_near m).1 (F32.ofNat_near n).1 (by omega) (by omega) hn (by omega) (by omega)).1
    rwa [Nat.mul_one, Nat.one_mul] at this

/-- The values and their headers fit in the data file. -/
private theorem values_fit {ks : Nat} (rs : List Record) (hr : ∀ r ∈ rs, r.Ok ks) :
    ((values rs).map (fun p => p.2.length)).sum + (values rs).length * (ks + 6) ≤ (layout rs).length := by
  induction rs with
  | nil => simp [values]
  | cons r rs ih =>
    have ih := ih (fun r h => hr r (by simp [h]))
    rw [layout_cons, List.length_append]
    cases r with
    | overflow b =>
      have e : values (.overflow b :: rs) = values rs := rfl
      rw [e]; omega
    | value k v =>
      have e : values (.value k v :: rs) = (k, v) :: values rs := rfl
      have hk := hr _ (List.mem_cons_self ..)
      have e' : (Record.value k v).bytes.length = 6 + ks + v.length := by
        have h1 : k.length = ks := hk.1
        simp [Record.bytes, bigEndian]
        omega
      rw [e, List.map_cons, List.sum_cons, List.length_cons, Nat.succ_mul, e']
      dsimp only
      omega

/-- C82, in part: the quotients in a report on a closed database are the ones documented, with a relative error of at most 2^-22 each. All divisors
are positive. `avg_fetch` is the number of fetches (C80) per pair; the sizes of both files are at least the bytes of all pairs with the
sizes of the values, so `overhead`, which is `amplification` less 1, is not negative; `actual_load` is the number of pairs by the number of items for
which the buckets have room; `waste` is between 0 and 1. Missing: `waste` in a report of `verify_fast`, see `C82_violated`. -/
theorem C82_partial {m : Map} {n : Nat} {σ : Schedule} {w w' : World} {info : Info} {D K : Bytes} (hc : Creatable a lf)
    (hr : Reachable c a short t (none, fs)) (hl : fs .log = none) (hm : Answers c a.keySize fs m) (hD : bytesOf fs .dat = some D)
    (hK : bytesOf fs .key = some K) (hw : w.fs = fs) (hv : verify c n σ w = (.ok info, w')) :
    let r := ratios info (getKeyHeader (K.take 104) K.length) D.length K.length
    ∃ ps : List (Bytes × Bytes), (ps.map Prod.fst).Nodup ∧ (∀ k v, (k, v) ∈ ps ↔ k.length = a.keySize ∧ m k = some v) ∧
    (ps ≠ [] → Near 22 r.avgFetch info.fetches ps.length ∧
      ∃ x, r.amplification = some x ∧ x.den ≤ x.num ∧
        Near 22 x (K.length + D.length) (ps.map (fun p => 6 + p.1.length + p.2.length)).sum) ∧
    (ps = [] → r.avgFetch.num = 0 ∧ r.amplification = none) ∧
    Near 22 r.actualLoad ps.length ((a.blockSize - 8) / 18 * bucketsOf K) ∧
    (info.algorithm = 0 → Near 22 r.waste (info.spillBytesTot - info.spillBytes) D.length ∧ r.waste.num ≤ r.waste.den) := by
  obtain ⟨D', K', recs, B, view, hS, _⟩ := settled hc hr hl
  obtain ⟨df, hd, sd⟩ := hS.closed.dat
  obtain ⟨kf, hk, sk⟩ := hS.closed.key
  have e : D' = D := by rw [bytesOf, hd] at hD; simpa [sd.cur] using hD
  have e' : K' = K := by rw [bytesOf, hk] at hK; simpa [sk.cur] using hK
  subst e e'
  obtain ⟨cs, h, hcs, T, rfl, hT, hP⟩ := conforms_of (m := m) hS.db (fun k hk => hS.map.unique hm hk)
  have hkc := keys_counted hS.db hP
  obtain ⟨f, hf, hfs, _⟩ := fetches_counted hS.db hT hP
  have g := wp_elim (verify_counts hS.db (hw ▸ hd) (hw ▸ hk) sd.cur sk.cur hcs (by simp) hkc hf hfs) hv
  have hwaste := used_le_total (a := (a.conf lf).args) hS.db.conf.bs1 h
  have hcf := hS.db.conf
  have hb1 := hS.db.b1
  have hb2 := hS.db.b2
  have hdl := hS.db.dlen
  have hbs : (a.conf lf).blockSize = a.blockSize := rfl
  have hBK : bucketsOf K' = B := by
    unfold bucketsOf
    rw [h.head.blockSize, hS.db.key.len]
    show (B + 1) * a.blockSize / a.blockSize - 1 = B
    rw [Nat.mul_div_cancel _ (by have := hcf.bs1; omega)]
    rfl
  have hkh : getKeyHeader (K'.take 104) K'.length = (a.conf lf).kh c.H B := by
    have := get_kh (v := K') (B := B) (c := c) hcf hS.db.key.head K'.length
    rw [hS.db.key.len, Nat.mul_div_cancel _ (by have := hcf.bs1; omega), take_eq_slice'] at this
    rw [hS.db.key.len]
    exact this
  obtain ⟨hd0, hd1, hd2, hd3⟩ := h.data
  have hfit := values_fit _ hd3
  have hD92 : 92 + (layout (recs.map Rec.toRecord)).length = D'.length := by
    rw [hd2, List.length_append, hd1.length]
  have hcap : (a.conf lf).cap = (a.blockSize - 8) / 18 := by
    unfold Conf.cap bucketCapacity keyHeaderSize
    have := hcf.bs1
    rw [if_neg (by simp; omega)]
    rfl
  intro r
  have er : r = ratios info ((a.conf lf).kh c.H B) D'.length K'.length := by rw [← hkh]
  rw [er]
  clear er r
  have hks : ((a.conf lf).kh c.H B).keySize = a.keySize := rfl
  have hkp : a.keySize < 2 ^ 16 := hcf.key2
  have hvc : info.valueCount ≤ D'.length := by
    rw [g.valueCount]
    have : (values (recs.map Rec.toRecord)).length * 1 ≤ (values (recs.map Rec.toRecord)).length * ((a.conf lf).args.keySize + 6) :=
      Nat.mul_le_mul_left _ (by omega)
    omega
  have hden : info.valueBytes + info.keyCount * (a.keySize + 6) ≤ D'.length := by
    rw [g.valueBytes, g.keyCount]
    have : (a.conf lf).args.keySize = a.keySize := rfl
    rw [this] at hfit
    omega
  have hsum : ∀ ps : List (Bytes × Bytes), (∀ p ∈ ps, p.1.length = a.keySize) →
      (ps.map (fun p => 6 + p.1.length + p.2.length)).sum = (ps.map (fun p => p.2.length)).sum + ps.length * (a.keySize + 6) := by
    intro ps
    induction ps with
    | nil => intro _; simp
    | cons p ps ih =>
      intro hp
      have := ih (fun q hq => hp q (by simp [hq]))
      have := hp p (by simp)
      rw [List.map_cons, List.map_cons, List.sum_cons, List.sum_cons, List.length_cons, Nat.succ_mul]
      omega
  have hsum := hsum _ (fun p hp => ((h.pairs p.1 p.2).1 hp).1)
  refine ⟨values (recs.map Rec.toRecord), h.keys, h.pairs, fun hv0 => ?_, fun hv0 => ?_, ?_, fun ha => ?_⟩
  · rw [hsum, ← g.valueBytes, ← g.keyCount]
    have hv0 : 0 < info.valueCount := by rw [g.valueCount]; exact List.length_pos_iff.2 hv0
    have hkv : info.keyCount = info.valueCount := by rw [g.keyCount, g.valueCount]
    unfold ratios
    rw [if_pos (by omega), if_pos (by omega), hks, hkv]
    have hpos : 0 < info.valueBytes + info.valueCount * (a.keySize + 6) := by
      have : 0 < info.valueCount * (a.keySize + 6) := Nat.mul_pos (by omega) (by omega)
      omega
    rw [hkv] at hden
    exact ⟨quot_near (by omega) (by omega), _, rfl, F32.one_le_div hpos (by omega), quot_near hpos (by omega)⟩
  · have hv0 : info.valueCount = 0 := by rw [g.valueCount, hv0]; rfl
    unfold ratios
    rw [if_neg (by omega), if_neg (by omega)]
    exact ⟨rfl, rfl⟩
  · rw [← g.keyCount]
    unfold ratios
    show Near 22 ((F32.ofNat info.keyCount).div (F32.ofNat ((a.conf lf).cap * B))) _ _
    rw [hcap, hBK]
    have hc1 : 1 ≤ (a.blockSize - 8) / 18 := by have := hcf.bs1; omega
    have hc2 : (a.blockSize - 8) / 18 < 2 ^ 16 := by have := hcf.bs2; omega
    have := Nat.mul_le_mul (Nat.le_of_lt hc2) hb2
    exact quot_near (Nat.mul_pos hc1 hb1) (by omega)
  · have h1 := g.spillBytes
    have h2 := g.spillBytesTot ha
    have e : (info.spillBytesTot + 2 ^ 64 - info.spillBytes) % 2 ^ 64 = info.spillBytesTot - info.spillBytes := by
      rw [h1, h2]; omega
    unfold ratios
    rw [e]
    exact ⟨quot_near (by omega) (by omega), F32.div_le_one (by omega) (by omega) (by rw [h1, h2]; omega)⟩

/-- The report and the size of the data file. -/
private def reportOf (j : UInt8) (n : Nat) (w : World) : Option (Info × Nat) :=
  match verify (reportCfg j) n calm ⟨w.fs, 0, []⟩, bytesOf w.fs .dat with
  | (.ok i, _), some D => some (i, D.length)
  | _, _ => none

private theorem reportOf_some {j : UInt8} {n : Nat} {w : World} {i : Info} {l : Nat} (h : reportOf j n w = some (i, l)) :
    ∃ w' D, verify (reportCfg j) n calm ⟨w.fs, 0, []⟩ = (.ok i, w') ∧ bytesOf w.fs .dat = some D ∧ D.length = l := by
  unfold reportOf at h
  split at h
  · rename_i i w' D e1 e2
    cases h
    exact ⟨w', D, e1, e2, rfl⟩
  · cases h

/-- C82 fails for `waste` in a report of `verify_fast`: here it is more than 10^16, whatever the header of the key file and its size. -/
theorem C82_violated : ∃ t fs i w' D, Reachable (reportCfg 0) reportArgs False t (none, fs) ∧ fs .log = none ∧ bytesOf fs .dat = some D ∧
    verify (reportCfg 0) 240 calm ⟨fs, 0, []⟩ = (.ok i, w') ∧
    ∀ kh ks, let r := ratios i kh D.length ks; r.waste.den * 10 ^ 16 < r.waste.num := by
  have h : demoTestClosed (reportCfg 0) reportArgs (reportOps 19) (fun w => (w.fs .log).isNone &&
      match reportOf 0 240 w with
      | some (i, l) => i.spillBytesTot == 32 && (i.spillBytes == 124 && l == 511)
      | none => false) = true := by
    decide +kernel
  obtain ⟨rets, w, h1, h2⟩ := demo_test_closed (reportOps_sound 19) h
  simp only [Bool.and_eq_true, Option.isNone_iff_eq_none] at h2
  obtain ⟨g1, g2⟩ := h2
  split at g2
  · rename_i i l e
    simp only [Bool.and_eq_true, beq_iff_eq] at g2
    obtain ⟨a1, a2, a3⟩ := g2
    obtain ⟨w', D, b1, b2, b3⟩ := reportOf_some e
    refine ⟨_, w.fs, i, w', D, h1, g1, b2, b1, fun kh ks => ?_⟩
    unfold ratios
    dsimp only
    rw [a1, a2, b3, a3]
    decide +kernel
  · cases g2

/-- The premises of C82: a database with nine pairs and an overflow record that is not in use. -/
example : ∃ t fs m D K i w', Creatable reportArgs 65535 ∧ Reachable (reportCfg 0) reportArgs False t (none, fs) ∧ fs .log = none ∧
    Answers (reportCfg 0) reportArgs.keySize fs m ∧ bytesOf fs .dat = some D ∧ bytesOf fs .key = some K ∧
    verify (reportCfg 0) 100 calm ⟨fs, 0, []⟩ = (.ok i, w') ∧ i.algorithm = 0 ∧ i.valueCount = 9 ∧ i.spillBytesTot = 124 ∧ i.spillBytes = 0 := by
  have h : demoTestClosed (reportCfg 0) reportArgs (reportOps 9) (fun w => (w.fs .log).isNone && ((bytesOf w.fs .key).isSome &&
      match reportOf 0 100 w with
      | some (i, _) => i.algorithm == 0 && (i.valueCount == 9 && (i.spillBytesTot == 124 && i.spillBytes == 0))
      | none => false)) = true := by
    decide +kernel
  obtain ⟨rets, w, h1, h2⟩ := demo_test_closed (reportOps_sound 9) h
  simp only [Bool.and_eq_true, Option.isNone_iff_eq_none, Option.isSome_iff_exists] at h2
  obtain ⟨g1, ⟨K, g2⟩, g3⟩ := h2
  obtain ⟨_, _, recs, B, view, hS, _⟩ := settled report_creatable h1 g1
  split at g3
  · rename_i i l e
    simp only [Bool.and_eq_true, beq_iff_eq] at g3
    obtain ⟨w', D, b1, b2, _⟩ := reportOf_some e
    exact ⟨_, w.fs, _, D, K, i, w', report_creatable, h1, g1, hS.map, b2, g2, b1, g3⟩
  · cases g3

end NuDB
