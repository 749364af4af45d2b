import Verif.Proof.LogHeaders
import Verif.Props.Torn
/- Replaying the records of a commit, whatever follows them. -/
namespace NuDB

open Spec

section
variable {bs d B : Nat}

theorem Spec.Replay.det {l K K₁ K₂ : Bytes} {r₁ r₂ : Res Unit} (h₁ : Replay bs d B l K K₁ r₁)
    (h₂ : Replay bs d B l K K₂ r₂) : K₁ = K₂ ∧ r₁ = r₂ := by
  induction h₁ generalizing K₂ r₂ with
  | stop h hn =>
    cases h₂ with
    | stop => exact ⟨rfl, rfl⟩
    | number h8 hn' => exact absurd (hn h8) (by omega)
    | overrun h' => rw [h] at h'; cases h'
    | link h' => rw [h] at h'; cases h'
    | index h' => rw [h] at h'; cases h'
    | record h' => rw [h] at h'; cases h'
  | number h8 hn =>
    cases h₂ with
    | stop _ hn' => exact absurd (hn' h8) (by omega)
    | number => exact ⟨rfl, rfl⟩
    | overrun h' hn' => rw [(frontRecord_some h').2.2.1] at hn'; omega
    | link h' hn' => rw [(frontRecord_some h').2.2.1] at hn'; omega
    | index h' hn' => rw [(frontRecord_some h').2.2.1] at hn'; omega
    | record h' hn' => rw [(frontRecord_some h').2.2.1] at hn'; omega
  | overrun h hn hb =>
    cases h₂ with
    | stop h' => rw [h] at h'; cases h'
    | number _ hn' => rw [(frontRecord_some h).2.2.1] at hn; omega
    | overrun => exact ⟨rfl, rfl⟩
    | link h' _ hb' => rw [h] at h'; cases h'; omega
    | index h' _ hb' => rw [h] at h'; cases h'; omega
    | record h' _ hb' => rw [h] at h'; cases h'; omega
  | link h hn hb hl =>
    cases h₂ with
    | stop h' => rw [h] at h'; cases h'
    | number _ hn' => rw [(frontRecord_some h).2.2.1] at hn; omega
    | overrun h' _ hb' => rw [h] at h'; cases h'; omega
    | link => exact ⟨rfl, rfl⟩
    | index h' _ _ hl' => rw [h] at h'; cases h'; exact absurd hl' hl
    | record h' _ _ hl' => rw [h] at h'; cases h'; exact absurd hl' hl
  | index h hn hb hl hi =>
    cases h₂ with
    | stop h' => rw [h] at h'; cases h'
    | number _ hn' => rw [(frontRecord_some h).2.2.1] at hn; omega
    | overrun h' _ hb' => rw [h] at h'; cases h'; omega
    | link h' _ _ hl' => rw [h] at h'; cases h'; exact absurd hl hl'
    | index => exact ⟨rfl, rfl⟩
    | record h' _ _ _ hi' => rw [h] at h'; cases h'; omega
  | record h hn hb hl hi _ ih =>
    cases h₂ with
    | stop h' => rw [h] at h'; cases h'
    | number _ hn' => rw [(frontRecord_some h).2.2.1] at hn; omega
    | overrun h' _ hb' => rw [h] at h'; cases h'; omega
    | link h' _ _ hl' => rw [h] at h'; cases h'; exact absurd hl hl'
    | index h' _ _ _ hi' => rw [h] at h'; cases h'; omega
    | record h' _ _ _ _ ht' => rw [h] at h'; cases h'; exact ih ht'

end

section
variable {c : Cfg} {cf : Conf} {D K : Bytes} {recs : List Rec} {B : Nat} {view : View}

theorem frontRecord_logRec (hdb : Db c cf D K recs B view) {n : Nat} (hn : n < B) (t : Bytes) :
    frontRecord (logRec view n ++ t) = some (n, encBkt (view n).1 (view n).2, t) := by
  have hok := hdb.filed n hn
  have hes : (view n).1.length < 2 ^ 16 := by
    have h1 := hok.len
    have h2 := hdb.conf.cap_le
    have h3 := hdb.conf.bs2
    simp only [bucketSize] at h2; omega
  have hn64 : n < 2 ^ 64 := by have := hdb.b2; omega
  have hl := logRec_length view n
  simp only [bucketSize] at hl
  have hd8 : (logRec view n ++ t).drop 8 = encBkt (view n).1 (view n).2 ++ t := by
    rw [List.drop_append_of_le_length (by omega)]; rfl
  have hb : (encBkt (view n).1 (view n).2).length = 8 + 18 * (view n).1.length := by
    simp [bucketSize]; omega
  have hc : countIn ((logRec view n ++ t).drop 8) = (view n).1.length := by
    rw [hd8]
    show value (((encBkt (view n).1 (view n).2 ++ t).drop 0).take 2) = _
    have : ((encBkt (view n).1 (view n).2 ++ t).drop 0).take 2 = putU16 (view n).1.length := by
      rw [List.drop_zero, encBkt, List.append_assoc, List.append_assoc, List.take_append_of_le_length (by simp),
        List.take_of_length_le (by simp)]
    rw [this, ← C18_u16.reads _ (by simp), getU16_putU16 hes]
  unfold frontRecord
  rw [if_neg (by rw [List.length_append]; omega), hc, if_neg (by rw [List.length_append]; omega)]
  have e1 : value (bytesAt (logRec view n ++ t) 0 8) = n := by
    show value (((logRec view n ++ t).drop 0).take 8) = n
    have : ((logRec view n ++ t).drop 0).take 8 = putU64 n := by
      rw [List.drop_zero, logRec, List.append_assoc, List.take_append_of_le_length (by simp),
        List.take_of_length_le (by simp)]
    rw [this, ← C18_u64.reads _ (by simp), getU64_putU64 hn64]
  have e2 : bytesAt (logRec view n ++ t) 8 (8 + 18 * (view n).1.length) = encBkt (view n).1 (view n).2 := by
    show ((logRec view n ++ t).drop 8).take _ = _
    rw [hd8, List.take_append_of_le_length (by omega), List.take_of_length_le (by omega)]
  have e3 : (logRec view n ++ t).drop (16 + 18 * (view n).1.length) = t := by
    rw [List.drop_append, List.drop_of_length_le (by omega), show 16 + 18 * (view n).1.length - (logRec view n).length = 0 by omega]
    rfl
  rw [e1, e2, e3]

theorem linkIn_encBkt {n : Nat} (hdb : Db c cf D K recs B view) (hn : n < B) :
    linkIn (encBkt (view n).1 (view n).2) = (view n).2 := by
  show value (((encBkt (view n).1 (view n).2).drop 2).take 6) = _
  have : ((encBkt (view n).1 (view n).2).drop 2).take 6 = putU48 (view n).2 := by
    rw [encBkt, List.append_assoc, List.drop_append_of_le_length (by simp), List.drop_of_length_le (by simp), List.nil_append,
      List.take_append_of_le_length (by simp), List.take_of_length_le (by simp)]
  rw [this, ← C18_u48.reads _ (by simp), getU48_putU48 (hdb.filed n hn).lt48]

theorem replay_records (hdb : Db c cf D K recs B view) {d Bk : Nat} (hBk : B ≤ Bk) (hd : D.length ≤ d) :
    ∀ (ns : List Nat) (K₁ rest : Bytes), (∀ n ∈ ns, n < B) → Agree cf.blockSize K ns K₁ →
    ∃ K₂, K <+: K₂ ∧ ∀ K' r, Replay cf.blockSize d Bk rest K₂ K' r →
      Replay cf.blockSize d Bk (ns.flatMap (logRec view) ++ rest) K₁ K' r := by
  intro ns
  induction ns with
  | nil => intro K₁ rest _ hag; exact ⟨K₁, agree_nil hag, fun _ _ h => h⟩
  | cons n ns ih =>
    intro K₁ rest hns hag
    have hn := hns n (by simp)
    have hok := hdb.filed n hn
    have hblk := hdb.block hn
    have h104 := hdb.conf.bs1
    have hlen : (encBkt (view n).1 (view n).2).length ≤ cf.blockSize := by
      have := hok.len; have := hdb.conf.cap_le
      simp only [encBkt_length, bucketSize] at *; omega
    have hw : writeAt K₁ ((n + 1) * cf.blockSize) (encBlock cf.blockSize (view n).1 (view n).2) =
        withBlock cf.blockSize K₁ n (encBkt (view n).1 (view n).2) := by
      rw [← writeAt_block hlen (by omega), encBkt_length]
      rfl
    have hag' := hag.restore hblk.1 hblk.2
    rw [hw] at hag'
    obtain ⟨K₂, h1, h2⟩ := ih _ rest (fun m hm => hns m (by simp [hm])) hag'
    refine ⟨K₂, h1, fun K' r hr => ?_⟩
    simp only [List.flatMap_cons, List.append_assoc]
    refine .record (frontRecord_logRec hdb hn _) (by have := hdb.b2; omega) hlen ?_ (by omega) (h2 K' r hr)
    unfold LinkOk
    rw [linkIn_encBkt hdb hn]
    by_cases h0 : (view n).2 = 0
    · exact .inl h0
    · right
      obtain ⟨Lc, hch, _⟩ := hok.chain
      have := hch.le_length h0
      have hcap : bucketBytes cf.blockSize = bucketSize cf.cap := by
        show 8 + 18 * ((cf.blockSize - 8) / 18) = bucketSize (bucketCapacity cf.blockSize)
        unfold bucketSize bucketCapacity keyHeaderSize
        rw [if_neg (by simp; omega)]
        omega
      omega

end

end NuDB
