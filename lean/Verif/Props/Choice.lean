import Verif.Spec.Choice
import Verif.Props.Report
/-
C86: which algorithm `verify` uses.
-/
namespace NuDB

open Spec

variable {c : Cfg} {a : CreateArgs} {lf : Nat} {short : Prop} {t : List Label} {fs : Fs}

theorem chunk_passes {kh : KeyHeader} {n : Nat} (hB : 1 ≤ kh.buckets) (hn : 2 * kh.blockSize + 8 ≤ n) :
    1 ≤ fastChunk kh n ∧ 1 ≤ bucketsAtOnce n kh.blockSize ∧ fastPasses kh (fastChunk kh n) = passesFor kh.buckets n kh.blockSize := by
  have hm : 1 ≤ bucketsAtOnce n kh.blockSize := by
    unfold bucketsAtOnce
    rw [Nat.le_div_iff_mul_le (by omega)]
    omega
  have hc : fastChunk kh n = min kh.buckets (bucketsAtOnce n kh.blockSize) := by
    unfold fastChunk bucketsAtOnce
    rw [if_pos hn]
  unfold fastPasses passesFor
  generalize bucketsAtOnce n kh.blockSize = m at *
  refine ⟨by omega, hm, ?_⟩
  rw [if_pos (by omega), hc]
  by_cases h : kh.buckets ≤ m
  · rw [Nat.min_eq_left h]
    rw [Nat.div_eq_of_lt_le (k := 1) (by omega) (by omega), Nat.div_eq_of_lt_le (k := 1) (by omega) (by omega)]
  · rw [Nat.min_eq_right (by omega)]

theorem verify_algorithm {kf df : FileSt} {w w' : World} {σ : Schedule} {n : Nat} {info : Info} (hf : w.fs .dat = some df) (hk : w.fs .key = some kf)
    (hv : verify c n σ w = (.ok info, w')) : ∃ kh, kh = getKeyHeader (slice kf.cur 0 104) kf.cur.length ∧
      info.algorithm = if chooseNormal kh df.cur.length kf.cur.length n then 0 else 1 := by
  have key : pc σ (verify c n) (fun info _ => ∃ kh, kh = getKeyHeader (slice kf.cur 0 104) kf.cur.length ∧
      info.algorithm = if chooseNormal kh df.cur.length kf.cur.length n then 0 else 1) w := by
    apply pc_verify hf hk
    · intro kh w' _ hh hch
      apply pc_verifyNormal_alg
      intro info _ h
      exact ⟨kh, hh.head, by rw [hch, if_pos rfl]; exact h⟩
    · intro kh w' _ hh hch
      apply pc_verifyFast_alg
      intro info _ h
      exact ⟨kh, hh.head, by rw [hch]; exact h⟩
  exact wp_elim key hv

/-- C86: `verify` is meant to use the algorithm that reads fewer bytes (verify.ipp 599-600). Proved: on a closed database, unless the estimates exceed 64 bits,
it takes the normal one if the buffer is too small for the fast one, otherwise only where the normal one reads less; it takes the fast one if one pass is
enough, which then reads no more than the normal one would; and the fast one never reads more than 65536 times as much.
Missing: that the fast one reads no more wherever it is used, see `C86_violated`. -/
theorem C86_partial {n : Nat} {σ : Schedule} {w w' : World} {info : Info} {D K : Bytes} {B : Nat} (hc : Creatable a lf)
    (hr : Reachable c a short t (none, fs)) (hl : fs .log = none) (hD : bytesOf fs .dat = some D) (hK : bytesOf fs .key = some K) (hw : w.fs = fs)
    (hB : K.length = (B + 1) * a.blockSize)
    (h64 : D.length + B * lf * ((a.blockSize - 8) / 18) * a.blockSize + K.length < 2 ^ 64)
    (h64' : passesFor B n a.blockSize * D.length + K.length < 2 ^ 64)
    (hv : verify c n σ w = (.ok info, w')) :
    (n < 2 * a.blockSize + 8 → info.algorithm = 0) ∧
    (2 * a.blockSize + 8 ≤ n →
      (info.algorithm = 0 ∨ info.algorithm = 1) ∧
      (info.algorithm = 0 → bytesPerKey D.length K.length B lf a.blockSize < bytesPerPass D.length K.length (passesFor B n a.blockSize)) ∧
      (B ≤ bucketsAtOnce n a.blockSize → info.algorithm = 1 ∧ passesFor B n a.blockSize = 1 ∧
        bytesPerPass D.length K.length (passesFor B n a.blockSize) ≤ bytesPerKey D.length K.length B lf a.blockSize) ∧
      (info.algorithm = 1 →
        bytesPerPass D.length K.length (passesFor B n a.blockSize) ≤ 65536 * bytesPerKey D.length K.length B lf a.blockSize)) ∧
    (2 * a.blockSize + 8 ≤ n → D.length ≤ lf * ((a.blockSize - 8) / 18) * a.blockSize → info.algorithm = 1) := by
  obtain ⟨D', K', recs, B', view, hS, _⟩ := settled hc hr hl
  obtain ⟨df, hd, sd⟩ := hS.closed.dat
  obtain ⟨kf, hk, sk⟩ := hS.closed.key
  have e : D' = D := by rw [bytesOf, hd] at hD; simpa [sd.cur] using hD
  have e' : K' = K := by rw [bytesOf, hk] at hK; simpa [sk.cur] using hK
  subst e e'
  have hcf := hS.db.conf
  have hbs : 104 ≤ a.blockSize := hcf.bs1
  have hKlen : K'.length = (B' + 1) * a.blockSize := hS.db.key.len
  have hb1 := hS.db.b1
  have eB : B' = B := by
    have := Nat.eq_of_mul_eq_mul_right (by omega) (hKlen.symm.trans hB)
    omega
  subst eB
  obtain ⟨kh, hkh, halg⟩ := verify_algorithm (hw ▸ hd) (hw ▸ hk) hv
  rw [sk.cur] at hkh
  have hkh' : kh = (a.conf lf).kh c.H B' := by
    have := get_kh (v := K') (B := B') (c := c) hcf hS.db.key.head K'.length
    rw [hKlen] at this
    rw [hkh, hKlen, this]
    congr 1
    show (B' + 1) * a.blockSize / a.blockSize - 1 = B'
    rw [Nat.mul_div_cancel _ (by omega)]
    rfl
  have kb : kh.blockSize = a.blockSize := by rw [hkh']; rfl
  have kB : kh.buckets = B' := by rw [hkh']; rfl
  have kl : kh.loadFactor = lf := by rw [hkh']; rfl
  have kc : kh.capacity = (a.blockSize - 8) / 18 := by
    rw [hkh']
    show bucketCapacity a.blockSize = _
    unfold bucketCapacity keyHeaderSize
    rw [if_neg (by simp; omega)]
  rw [sd.cur, sk.cur] at halg
  clear hkh hkh'
  generalize hcap : (a.blockSize - 8) / 18 = cap at *
  unfold bytesPerKey bytesPerPass
  rw [hcap]
  have hsmall : n < 2 * a.blockSize + 8 → info.algorithm = 0 := by
    intro hn
    have : fastChunk kh n = 0 := by unfold fastChunk; rw [kb, if_neg (by omega)]
    rw [halg, if_pos]
    unfold chooseNormal
    simp [this]
  have hlarge : 2 * a.blockSize + 8 ≤ n → (info.algorithm = 0 ∧ D'.length + B' * lf * cap * a.blockSize < passesFor B' n a.blockSize * D'.length) ∨
      (info.algorithm = 1 ∧ passesFor B' n a.blockSize * D'.length ≤ D'.length + B' * lf * cap * a.blockSize) := by
    intro hn
    obtain ⟨h1, _, h3⟩ := chunk_passes (kh := kh) (n := n) (by omega) (by rw [kb]; exact hn)
    rw [kB, kb] at h3
    have e : chooseNormal kh D'.length K'.length n = decide (D'.length + B' * lf * cap * a.blockSize < passesFor B' n a.blockSize * D'.length) := by
      unfold chooseNormal
      dsimp only
      rw [h3, kB, kl, kc, kb, Nat.mod_eq_of_lt h64, Nat.mod_eq_of_lt h64', decide_eq_false (by omega), Bool.false_or]
      apply decide_eq_decide.mpr
      omega
    rw [e] at halg
    by_cases h : D'.length + B' * lf * cap * a.blockSize < passesFor B' n a.blockSize * D'.length
    · rw [if_pos (by simpa using h)] at halg
      exact .inl ⟨halg, h⟩
    · rw [if_neg (by simpa using h)] at halg
      exact .inr ⟨halg, by omega⟩
  have hpass : 2 * a.blockSize + 8 ≤ n → B' ≤ bucketsAtOnce n a.blockSize → passesFor B' n a.blockSize = 1 := by
    intro hn hm
    unfold passesFor
    apply Nat.div_eq_of_lt_le <;> omega
  have hpB : 2 * a.blockSize + 8 ≤ n → passesFor B' n a.blockSize ≤ B' := by
    intro hn
    have hm := (chunk_passes (kh := kh) (n := n) (by omega) (by rw [kb]; exact hn)).2.1
    rw [kb] at hm
    unfold passesFor
    generalize bucketsAtOnce n a.blockSize = m at *
    rw [Nat.div_le_iff_le_mul_add_pred (by omega)]
    have : B' ≤ m * B' := Nat.le_mul_of_pos_left _ hm
    omega
  refine ⟨hsmall, fun hn => ?_, fun hn hD => ?_⟩
  · have hl' := hlarge hn
    generalize B' * lf * cap * a.blockSize = X at *
    refine ⟨by omega, fun h => by omega, fun h => ?_, fun h => by omega⟩
    have := hpass hn h
    rw [this] at hl' ⊢
    omega
  · rcases hlarge hn with ⟨_, h⟩ | ⟨h, _⟩
    · exfalso
      have h1 : passesFor B' n a.blockSize * D'.length ≤ B' * (lf * cap * a.blockSize) := Nat.mul_le_mul (hpB hn) hD
      have h2 : B' * (lf * cap * a.blockSize) = B' * lf * cap * a.blockSize := by ac_rfl
      omega
    · exact h

/-- Nine pairs with values of 200 bytes. -/
def choiceOps : List Op :=
  [.open] ++ ([0, 2, 0, 2, 0, 2, 0, 2, 0] : List UInt8).zipIdx.map
    (fun p => .insert [UInt8.ofNat (p.2 + 1), p.1] (List.replicate 200 7)) ++ [.flush, .close]

theorem choiceOps_sound : ∀ op ∈ choiceOps, op.Sound reportArgs.keySize := by
  intro op h
  simp only [choiceOps, List.mem_append, List.mem_singleton, List.mem_map, List.mem_cons, List.not_mem_nil, or_false] at h
  rcases h with (rfl | ⟨p, _, rfl⟩) | (rfl | rfl)
  · trivial
  · simp only [Op.Sound, List.length_replicate]
    exact ⟨rfl, by decide, by decide⟩
  · trivial
  · trivial

private theorem choice_both {c : Cfg} {a : CreateArgs} {ops : List Op} {P Q : World → Bool} (h1 : demoTestClosed c a ops P = true)
    (h2 : demoTestClosed c a ops Q = true) : demoTestClosed c a ops (fun w => P w && Q w) = true := by
  unfold demoTestClosed at *
  split at h1
  · rename_i e
    rw [e] at h2
    simp only [Bool.and_eq_true]
    exact ⟨h1, h2⟩
  · cases h1

private theorem choice_sizes : demoTestClosed (reportCfg 0) reportArgs choiceOps (fun w => (w.fs .log).isNone &&
    ((bytesOf w.fs .dat).map List.length == some 2088 && (bytesOf w.fs .key).map List.length == some 464)) = true := by
  decide +kernel

private theorem choice_verified : demoTestClosed (reportCfg 0) reportArgs choiceOps (fun w =>
    match verify (reportCfg 0) 240 calm ⟨w.fs, 0, []⟩ with
    | (.ok i, _) => i.algorithm == 1
    | _ => false) = true := by
  decide +kernel

/-- C86 fails. `load_factor` in the key file header is a number of 65536ths, so the bytes read by the normal algorithm are estimated 65536 times too high. For this
database with three buckets and a buffer of 240 bytes `verify` reads the data file three times, 6728 bytes in all, instead of 4640. -/
theorem C86_violated : ∃ t fs D K info w', Creatable reportArgs 65535 ∧ Reachable (reportCfg 0) reportArgs False t (none, fs) ∧ fs .log = none ∧
    bytesOf fs .dat = some D ∧ bytesOf fs .key = some K ∧ K.length = (3 + 1) * reportArgs.blockSize ∧
    2 * reportArgs.blockSize + 8 ≤ 240 ∧ passesFor 3 240 reportArgs.blockSize = 3 ∧
    verify (reportCfg 0) 240 calm ⟨fs, 0, []⟩ = (.ok info, w') ∧ info.algorithm = 1 ∧
    bytesPerKey D.length K.length 3 65535 reportArgs.blockSize < 65536 * 4640 ∧ bytesPerPass D.length K.length 3 = 65536 * 6728 := by
  obtain ⟨rets, w, h1, h2⟩ := demo_test_closed choiceOps_sound (choice_both choice_sizes choice_verified)
  simp only [Bool.and_eq_true, Option.isNone_iff_eq_none, beq_iff_eq] at h2
  obtain ⟨⟨g1, g2, g3⟩, g4⟩ := h2
  cases e : bytesOf w.fs .dat with
  | none => rw [e] at g2; cases g2
  | some D =>
    cases e' : bytesOf w.fs .key with
    | none => rw [e'] at g3; cases g3
    | some K =>
      rw [e] at g2
      rw [e'] at g3
      have g2 : D.length = 2088 := by simpa using g2
      have g3 : K.length = 464 := by simpa using g3
      split at g4
      · rename_i i w' hv
        refine ⟨_, w.fs, D, K, i, w', report_creatable, h1, g1, e, e', by rw [g3]; rfl, by decide, by decide, hv, by simpa using g4, ?_, ?_⟩
        · rw [g2, g3]; decide +kernel
        · rw [g2, g3]; decide +kernel
      · cases g4

/-- What it means for a large database: a million buckets, half full, of 4096 bytes, a data file of 13 GB. With a buffer for one bucket at a time the data file is read a
million times, more than 26000 times as many bytes as the normal algorithm reads. -/
theorem C86_large (kh : KeyHeader) (h1 : kh.buckets = 1000000) (h2 : kh.loadFactor = 32768) (h3 : kh.capacity = 227) (h4 : kh.blockSize = 4096) :
    chooseNormal kh 13000000000 4096004096 8200 = false ∧ passesFor 1000000 8200 4096 = 1000000 ∧
    26000 * bytesPerKey 13000000000 4096004096 1000000 32768 4096 < bytesPerPass 13000000000 4096004096 1000000 := by
  refine ⟨?_, by decide +kernel, by decide +kernel⟩
  unfold chooseNormal fastPasses fastChunk
  rw [h1, h2, h3, h4]
  decide +kernel

/-- The premises of `C86_partial`, for this database. -/
example : ∃ t fs D K info w', Creatable reportArgs 65535 ∧ Reachable (reportCfg 0) reportArgs False t (none, fs) ∧ fs .log = none ∧
    bytesOf fs .dat = some D ∧ bytesOf fs .key = some K ∧ K.length = (3 + 1) * reportArgs.blockSize ∧
    D.length + 3 * 65535 * ((reportArgs.blockSize - 8) / 18) * reportArgs.blockSize + K.length < 2 ^ 64 ∧
    passesFor 3 240 reportArgs.blockSize * D.length + K.length < 2 ^ 64 ∧ verify (reportCfg 0) 240 calm ⟨fs, 0, []⟩ = (.ok info, w') := by
  obtain ⟨t, fs, D, K, info, w', h1, h2, h3, h4, h5, h6, _, h7, h8, _, _, h9⟩ := C86_violated
  have h6' : K.length = 464 := h6
  have h9' : 3 * D.length + K.length = 6728 := Nat.eq_of_mul_eq_mul_left (by decide) h9
  have hD : D.length = 2088 := by omega
  refine ⟨t, fs, D, K, info, w', h1, h2, h3, h4, h5, h6, ?_, ?_, h8⟩
  · rw [hD, h6']; decide +kernel
  · rw [h7, hD, h6']; decide +kernel

end NuDB
