import Verif.Proof.Damage4
import Verif.Spec.Damage
/- `open` on files with arbitrary content. -/
namespace NuDB

open Spec

section
variable {σ : Schedule} {c : Cfg} {w : World}

/-- Exceptional endings without undefined behaviour, whatever the files. -/
def Mannered (σ : Schedule) : Exc → World → Prop := fun x _ => x ≠ .ub ∧ x ≠ .throw ∧ (x = .crash → Faulty σ)

theorem Mannered.fault {x : Exc} (hx : IsFault x) (hf : Faulty σ) : Mannered σ x w := by
  rcases hx with rfl | rfl
  · exact ⟨(fun h => by cases h), (fun h => by cases h), fun _ => hf⟩
  · exact ⟨(fun h => by cases h), (fun h => by cases h), (fun h => by cases h)⟩

theorem Mannered.err (e : Err) : Mannered σ (.err e) w :=
  ⟨(fun h => by cases h), (fun h => by cases h), (fun h => by cases h)⟩

/-- Records that fit cause no harm. -/
theorem Spec.LogFits.replay {bs d B : Nat} {l K K' : Bytes} {r : Res Unit} (h : LogFits bs l) (hr : Replay bs d B l K K' r) :
    r = .ok () ∨ r = .error .abort ∨ ∃ e, r = .error (.err e) := by
  induction hr with
  | stop => exact .inl rfl
  | number => exact .inr (.inl rfl)
  | overrun h1 h2 h3 =>
    cases h with
    | stop h => rw [h1] at h; cases h
    | number _ h => have := (frontRecord_some h1).2.2.1; omega
    | record h hb => rw [h1] at h; cases h; omega
  | link => exact .inr (.inr ⟨_, rfl⟩)
  | index => exact .inr (.inr ⟨_, rfl⟩)
  | record h1 h2 _ _ _ _ ih =>
    cases h with
    | stop h => rw [h1] at h; cases h
    | number _ h => have := (frontRecord_some h1).2.2.1; omega
    | record h hb ht => rw [h1] at h; cases h; exact ih ht

/-- What `recover` leaves for `open`. -/
theorem Success.left {fs fs' : Fs} (h : Success c fs fs') (h64 : ∀ f, fs .key = some f → f.cur.length < 2 ^ 64) :
    fs' .log = none ∧ ∀ f, fs' .key = some f → f.cur.length < 2 ^ 64 := by
  obtain ⟨df, kf, hd, hk, ⟨h1, rfl⟩ | ⟨lf, hl, ⟨_, _, h2, h3⟩ | ⟨_, _, _, h2, h3⟩ | ⟨hv, K', _, _, h2, h3⟩⟩⟩ := h
  · exact ⟨h1, h64⟩
  · exact ⟨h3, fun f hf => h64 f (by rw [← h2]; exact hf)⟩
  · exact ⟨h3, fun f hf => by rw [h2] at hf; cases hf⟩
  · refine ⟨h3, fun f hf => ?_⟩
    rw [h2] at hf
    cases hf
    rw [cur_clean]
    unfold resized
    simp only [List.length_append, List.length_take, List.length_replicate]
    have : (getLogHeader (slice lf.cur 0 62)).keyFileSize < 2 ^ 64 := by
      have := hv.llen
      refine getU64_lt ?_
      rw [slice_length_of_le]
      rw [slice_length_of_le (by omega)]
      omega
    omega

theorem dopen (ho : Openable w.fs) : wp σ (openStore c) (fun s w' => Kept' s w'.fs) (Mannered σ) w := by
  have h64 : ∀ f, w.fs .key = some f → f.cur.length < 2 ^ 64 := fun f hf => ho.size _ (by unfold bytesOf; rw [hf]; rfl)
  unfold openStore
  apply wp_bind
  refine wp_conseq wp_recover_any ?_ ?_
  · rintro _ w1 hsucc
    obtain ⟨hl1, hk64⟩ := Success.left hsucc h64
    have hF : ∀ x (w' : World), IsFault x → Faulty σ → Mannered σ x w' := fun x w' hx hf => Mannered.fault hx hf
    apply wp_bind
    cases hd1 : w1.fs .dat with
    | none => exact wp_fOpen_none hd1 (Mannered.err _) (fun x hx h => hF x _ hx h)
    | some df =>
    refine wp_fOpen hd1 ?_ (fun x hx h => hF x _ hx h)
    apply wp_bind
    cases hk1 : w1.fs .key with
    | none => exact wp_fOpen_none (by exact hk1) (Mannered.err _) (fun x hx h => hF x _ hx h)
    | some kf =>
    refine wp_fOpen (f := kf) (by exact hk1) ?_ (fun x hx h => hF x _ hx h)
    apply wp_bind
    refine wp_fCreate (by exact hl1) ?_ (fun x hx h => ⟨hF x _ hx h, hF x _ hx h⟩)
    have hd2 : (w1.fs.set .log (some (FileSt.clean []))) .dat = some df := by simpa using hd1
    have hk2 : (w1.fs.set .log (some (FileSt.clean []))) .key = some kf := by simpa using hk1
    have hl2 : (w1.fs.set .log (some (FileSt.clean []))) .log = some (FileSt.clean []) := by simp
    apply wp_bind
    unfold readDatHeader
    apply wp_bind
    refine wp_fRead_any (f := df) (by exact hd2) (by decide) ?_ (fun _ => Mannered.err _) (fun x hx h => hF x _ hx h)
    intro _
    apply wp_ret
    apply wp_bind
    refine wp_check_free (fun _ => ?_) (fun e => Mannered.err _)
    apply wp_bind
    unfold readKeyHeader
    apply wp_bind
    refine wp_fRead_any (f := kf) (by exact hk2) (by decide) ?_ (fun _ => Mannered.err _) (fun x hx h => hF x _ hx h)
    intro _
    apply wp_bind
    refine wp_fSize (f := kf) (by exact hk2) ?_ (fun x hx h => hF x _ hx h)
    apply wp_ret
    apply wp_bind
    refine wp_check_free (fun hv => ?_) (fun e => Mannered.err _)
    apply wp_bind
    refine wp_check_free (fun _ => ?_) (fun e => Mannered.err _)
    dsimp only
    generalize hkh : getKeyHeader (slice kf.cur 0 keyHeaderSize) kf.cur.length = kh at hv
    split
    · exact wp_fail (Mannered.err _)
    rename_i hb
    have hcap : kh.capacity = bucketCapacity kh.blockSize := by rw [← hkh]; rfl
    have hbk : kh.buckets < 2 ^ 64 := by
      rw [← hkh]
      have := hk64 kf hk1
      show bucketsOfSize _ _ < _
      unfold bucketsOfSize
      split
      · split
        · exact Nat.lt_of_le_of_lt (Nat.div_le_self _ _) (by omega)
        · decide
      · decide
    have hc1 : 1 ≤ kh.capacity := by
      unfold verifyKey at hv
      repeat (split at hv; · cases hv)
      omega
    refine wp_ret ⟨by show 1 ≤ bucketCapacity kh.blockSize; omega, by show 1 ≤ kh.buckets; omega,
      ceilPow2_isModulus (x := kh.buckets) (by omega) hbk, ?_, fun _ => ⟨rfl, _, hl2, rfl⟩⟩
    intro p hp
    simp only [List.mem_cons, List.not_mem_nil, or_false] at hp
    rcases hp with rfl | rfl | rfl
    · exact ⟨_, hd2⟩
    · exact ⟨_, hk2⟩
    · exact ⟨_, hl2⟩
  · rintro x w' (⟨hf, rfl | ⟨e, rfl⟩⟩ | ⟨df, kf, lf, K', _, hk, hl, _, hr, _⟩ | ⟨⟨e, rfl⟩, _⟩)
    · exact Mannered.fault (.inl rfl) hf
    · exact Mannered.err _
    · have hfit := ho.log kf.cur lf.cur (by unfold bytesOf; rw [hk]; rfl) (by unfold bytesOf; rw [hl]; rfl)
      rcases Spec.LogFits.replay hfit hr with h | h | ⟨e, h⟩
      · cases h
      · cases h; exact ⟨(fun h => by cases h), (fun h => by cases h), (fun h => by cases h)⟩
      · cases h; exact Mannered.err _
    · exact Mannered.err _

end

end NuDB
