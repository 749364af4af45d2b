import Verif.Proof.Progress
import Verif.Props.VerifyWeak
/-
C46 (third part): the progress reports of `verify`.
-/
namespace NuDB

open Spec

section
variable {σ : Schedule} {c : Cfg} {w : World}

theorem wp_check_any {α : Type} {r : Except Err α} {Q : α → World → Prop} {X : Exc → World → Prop} (hQ : ∀ a, r = .ok a → Q a w)
    (hX : ∀ x, X x w) : wp σ (M.check r) Q X w := by
  cases r with
  | ok a => exact hQ a rfl
  | error e => exact hX _

theorem wp_verify_any {n : Nat} {Q : Info → World → Prop} {X : Exc → World → Prop} (hX : ∀ x w', w'.out = w.out → X x w')
    (hn : ∀ df kf kh w', w.fs .dat = some df → w.fs .key = some kf → w'.fs = w.fs → w'.out = w.out → Heads c df.cur kf.cur kh →
      chooseNormal kh df.cur.length kf.cur.length n = true → wp σ (verifyNormal c kh df.cur.length kf.cur.length) Q X w')
    (hs : ∀ df kf kh w', w.fs .dat = some df → w.fs .key = some kf → w'.fs = w.fs → w'.out = w.out → Heads c df.cur kf.cur kh →
      chooseNormal kh df.cur.length kf.cur.length n = false → wp σ (verifyFast c kh df.cur.length kf.cur.length n) Q X w') :
    wp σ (verify c n) Q X w := by
  unfold verify
  apply wp_bind
  cases hf : w.fs .dat with
  | none => exact wp_fOpen_none hf (hX _ _ rfl) (by exact fun x _ _ => hX _ _ rfl)
  | some df =>
  apply wp_fOpen hf _ (by exact fun x _ _ => hX _ _ rfl)
  apply wp_bind
  cases hk : w.fs .key with
  | none => exact wp_fOpen_none (by exact hk) (hX _ _ rfl) (by exact fun x _ _ => hX _ _ rfl)
  | some kf =>
  apply wp_fOpen (by exact hk) _ (by exact fun x _ _ => hX _ _ rfl)
  apply wp_bind
  unfold readDatHeader
  apply wp_bind
  by_cases h92 : df.cur.length < 92
  · exact wp_fRead_short (f := df) (by exact hf) (by decide) (by simp only [datHeaderSize]; omega) (hX _ _ rfl) (by exact fun x _ _ => hX _ _ rfl)
  apply wp_fRead (f := df) (by exact hf) (by simp only [datHeaderSize]; omega) _ (by exact fun x _ _ => hX _ _ rfl)
  apply wp_ret
  apply wp_bind
  refine wp_check_any (fun u hv1 => ?_) (fun x => hX _ _ rfl)
  apply wp_bind
  unfold readKeyHeader
  apply wp_bind
  by_cases h104 : kf.cur.length < 104
  · exact wp_fRead_short (f := kf) (by exact hk) (by decide) (by simp only [keyHeaderSize]; omega) (hX _ _ rfl) (by exact fun x _ _ => hX _ _ rfl)
  apply wp_fRead (f := kf) (by exact hk) (by simp only [keyHeaderSize]; omega) _ (by exact fun x _ _ => hX _ _ rfl)
  apply wp_bind
  apply wp_fSize (by exact hk) _ (by exact fun x _ _ => hX _ _ rfl)
  apply wp_ret
  apply wp_bind
  refine wp_check_any (fun u hv2 => ?_) (fun x => hX _ _ rfl)
  apply wp_bind
  refine wp_check_any (fun u hv3 => ?_) (fun x => hX _ _ rfl)
  apply wp_bind
  apply wp_fSize (by exact hk) _ (by exact fun x _ _ => hX _ _ rfl)
  apply wp_bind
  apply wp_fSize (by exact hf) _ (by exact fun x _ _ => hX _ _ rfl)
  have hh : Heads c df.cur kf.cur (getKeyHeader (slice kf.cur 0 104) kf.cur.length) := ⟨by omega, by omega, rfl, hv1, hv2, hv3⟩
  split
  · rename_i hc
    exact hn _ _ _ _ hf hk rfl rfl hh hc
  · rename_i hc
    exact hs _ _ _ _ hf hk rfl rfl hh (by simpa using hc)

theorem Heads.loadFactor {D K : Bytes} {kh : KeyHeader} (h : Heads c D K kh) : kh.loadFactor = loadFactorOf K := by
  have hl := h.klen
  rw [h.head]
  simp only [getKeyHeader, loadFactorOf]
  rw [head_slice (by omega), C18_u16.reads _ (bytesAt_len (by omega))]

theorem Heads.bound {D K : Bytes} {kh : KeyHeader} (h : Heads c D K kh) : kh.buckets * kh.blockSize ≤ K.length := by
  have := h.klen'
  rw [Nat.add_mul] at this
  omega

theorem Steps.rising {t lo hi : Nat} {x : List Event} (h : Steps t lo hi x) : Rising x :=
  ⟨t, fun p hp => (h.total p hp).1, h.order⟩

theorem Spec.Steady.rising {x : List Event} (h : Steady x) : Rising x := by
  obtain ⟨t, h1, h2⟩ := h
  exact ⟨t, fun p hp => (h1 p hp).1, h2⟩

/-- The bound of `verify_normal` on its own total. -/
theorem normal_bound {kh : KeyHeader} {dat key hi vc kc : Nat} (hk : kh.buckets * kh.blockSize ≤ key) (h1 : vc ≤ normalKeys kh)
    (h2 : kc ≤ normalKeys kh) (h : hi ≤ dat + kh.blockSize * vc + adjusted kh.blockSize * (kh.buckets + kc)) :
    hi ≤ normalWork kh dat key := by
  unfold normalWork
  dsimp only
  have e1 : kh.blockSize * vc ≤ normalKeys kh * kh.blockSize := by rw [Nat.mul_comm]; exact Nat.mul_le_mul_right _ h1
  have e2 : kh.blockSize * kc ≤ normalKeys kh * kh.blockSize := by rw [Nat.mul_comm]; exact Nat.mul_le_mul_right _ h2
  have e3 : adjusted kh.blockSize * (kh.buckets + kc) ≤ adjusted (key + normalKeys kh * kh.blockSize) := by
    unfold adjusted
    rw [Nat.le_div_iff_mul_le (by decide)]
    have e4 : 7 * kh.blockSize / 4 * (kh.buckets + kc) * 4 ≤ 7 * kh.blockSize * (kh.buckets + kc) := by
      rw [Nat.mul_right_comm]
      exact Nat.mul_le_mul_right _ (Nat.div_mul_le_self _ _)
    have e5 : 7 * kh.blockSize * (kh.buckets + kc) = 7 * (kh.buckets * kh.blockSize + kh.blockSize * kc) := by
      rw [Nat.mul_assoc, Nat.mul_add, Nat.mul_comm kh.blockSize kh.buckets]
    omega
  omega

end

section
variable {c : Cfg}

/-- C46 for `verify`, on arbitrary files, with arbitrary buffer sizes and faults: the reports never decrease and have the same total. They
are bounded by it when `verify_fast` is used. When `verify_normal` succeeds they are, too, provided that the numbers of values and items are not
larger than the load factor in the header suggests. `C46_exceeds` shows that they are not in general. -/
theorem C46_verify_partial (n : Nat) (σ : Schedule) (w : World) :
    ∃ evs, (verify c n σ w).2.out = w.out ++ evs ∧ Rising evs ∧
      (∀ D K, bytesOf w.fs .dat = some D → bytesOf w.fs .key = some K →
        chooseNormal (getKeyHeader (K.take 104) K.length) D.length K.length n = false → Steady evs) ∧
      (∀ K info, bytesOf w.fs .key = some K → (verify c n σ w).1 = .ok info →
        info.valueCount ≤ loadFactorOf K * bucketsOf K * ((blockSizeOf K - 8) / 18) / 65536 →
        info.keyCount ≤ loadFactorOf K * bucketsOf K * ((blockSizeOf K - 8) / 18) / 65536 → Steady evs) := by
  have h : wp σ (verify c n) (fun info w' => ∃ evs, w'.out = w.out ++ evs ∧ Rising evs ∧
      (∀ D K, bytesOf w.fs .dat = some D → bytesOf w.fs .key = some K →
        chooseNormal (getKeyHeader (K.take 104) K.length) D.length K.length n = false → Steady evs) ∧
      (∀ K, bytesOf w.fs .key = some K →
        info.valueCount ≤ loadFactorOf K * bucketsOf K * ((blockSizeOf K - 8) / 18) / 65536 →
        info.keyCount ≤ loadFactorOf K * bucketsOf K * ((blockSizeOf K - 8) / 18) / 65536 → Steady evs))
      (fun _ w' => ∃ evs, w'.out = w.out ++ evs ∧ Rising evs ∧
      (∀ D K, bytesOf w.fs .dat = some D → bytesOf w.fs .key = some K →
        chooseNormal (getKeyHeader (K.take 104) K.length) D.length K.length n = false → Steady evs)) w := by
    have h0 : Steady [] := (Steps.nil 0 0 0).steady (Nat.le_refl _)
    apply wp_verify_any
    · intro x w' h
      exact ⟨[], by rw [h, List.append_nil], h0.rising, fun _ _ _ _ _ => h0⟩
    · intro df kf kh w' hf hk hw ho hh hc
      have no : ∀ D K, bytesOf w.fs .dat = some D → bytesOf w.fs .key = some K →
          chooseNormal (getKeyHeader (K.take 104) K.length) D.length K.length n ≠ false := by
        intro D K hD hK
        have e1 : D = df.cur := by simpa [bytesOf, hf] using hD.symm
        have e2 : K = kf.cur := by simpa [bytesOf, hk] using hK.symm
        have e3 : kh = getKeyHeader (K.take 104) K.length := by rw [hh.head, e2]; simp [slice]
        rw [e1, ← e3, e2, hc]
        simp
      refine wp_conseq (wp_verifyNormal_any hh.dlen) ?_ ?_
      · rintro info w2 ⟨hi, ⟨evs, h1, h2⟩, h3⟩
        refine ⟨evs, by rw [h1, ho], h2.rising, fun D K a b e => absurd e (no D K a b), ?_⟩
        intro K hK hv hkc
        have e2 : K = kf.cur := by simpa [bytesOf, hk] using hK.symm
        have e4 : loadFactorOf K * bucketsOf K * ((blockSizeOf K - 8) / 18) / 65536 = normalKeys kh := by
          unfold normalKeys
          have hcap := hh.capacity
          have h104 := hh.h104
          rw [hh.loadFactor, hh.buckets, hcap, hh.blockSize, e2]
          rw [hh.blockSize] at h104
          unfold bucketCapacity keyHeaderSize
          rw [if_neg (by simp; omega)]
        rw [e4] at hv hkc
        exact h2.steady (normal_bound hh.bound hv hkc h3)
      · rintro x w2 ⟨hi, evs, h1, h2⟩
        exact ⟨evs, by rw [h1, ho], h2.rising, fun D K a b e => absurd e (no D K a b)⟩
    · intro df kf kh w' hf hk hw ho hh hc
      have hn : fastChunk kh n ≠ 0 := by
        intro h
        rw [chooseNormal, h] at hc
        simp at hc
      have fin : ∀ w2 : World, (∃ evs, w2.out = w'.out ++ evs ∧ Steady evs) → ∃ evs, w2.out = w.out ++ evs ∧ Steady evs := by
        rw [ho]; exact fun _ h => h
      refine wp_conseq (wp_verifyFast_any hh.dlen hh.bound hn) ?_ ?_
      · intro info w2 h
        obtain ⟨evs, h1, h2⟩ := fin w2 h
        exact ⟨evs, h1, h2.rising, fun _ _ _ _ _ => h2, fun _ _ _ _ => h2⟩
      · intro x w2 h
        obtain ⟨evs, h1, h2⟩ := fin w2 h
        exact ⟨evs, h1, h2.rising, fun _ _ _ _ _ => h2⟩
  unfold wp at h
  split at h
  · rename_i info w' e
    obtain ⟨evs, h1, h2, h3, h4⟩ := h
    rw [e]
    refine ⟨evs, h1, h2, h3, ?_⟩
    intro K info' hK he hv hk
    cases he
    exact h4 K hK hv hk
  · rename_i x w' e
    obtain ⟨evs, h1, h2, h3⟩ := h
    rw [e]
    exact ⟨evs, h1, h2, h3, fun K info _ he => by cases he⟩

/-- Three sessions with one insertion each. The number of buckets does not grow. -/
def slowOps : List Op :=
  [.open, .insert [1, 1] [10], .close, .open, .insert [1, 2] [20], .close, .open, .insert [1, 3] [30], .close]

theorem slowOps_sound : ∀ op ∈ slowOps, op.Sound demoArgs.keySize := by
  intro op h
  simp only [slowOps, List.mem_cons, List.not_mem_nil, or_false] at h
  rcases h with h | h | h | h | h | h | h | h | h <;> subst h <;> simp [Op.Sound, demoArgs]

def slowRecords : List Record := [.value [1, 1] [10], .value [1, 2] [20], .value [1, 3] [30]]

theorem slow_db : ∃ t fs D K, Reachable demoCfg demoArgs False t (none, fs) ∧ fs .log = none ∧ bytesOf fs .dat = some D ∧
    bytesOf fs .key = some K ∧ D = D.take 92 ++ layout slowRecords ∧ D.length = 119 ∧ K.length = 208 ∧
    linkIn (bytesAt K 104 98) = 0 ∧ countIn (bytesAt K 104 98) = 3 := by
  have h : demoTestClosed demoCfg demoArgs slowOps (fun w => (w.fs .log).isNone &&
      match bytesOf w.fs .dat, bytesOf w.fs .key with
      | some D, some K => decide (D = D.take 92 ++ layout slowRecords) && D.length == 119 && K.length == 208 &&
        linkIn (bytesAt K 104 98) == 0 && countIn (bytesAt K 104 98) == 3
      | _, _ => false) = true := by decide +kernel
  obtain ⟨rets, w, h1, h2⟩ := demo_test_closed slowOps_sound h
  simp only [Bool.and_eq_true, Option.isNone_iff_eq_none] at h2
  obtain ⟨h2, h3⟩ := h2
  split at h3
  · rename_i D K e1 e2
    simp only [Bool.and_eq_true, decide_eq_true_eq, beq_iff_eq] at h3
    obtain ⟨⟨⟨⟨g1, g2⟩, g3⟩, g4⟩, g5⟩ := h3
    exact ⟨_, w.fs, D, K, h1, h2, e1, e2, g1, g2, g3, g4, g5⟩
  · cases h3

/-- After these three sessions the last report of `verify_normal` exceeds the total. -/
theorem slow_exceeds : ∃ (t : List Label) (fs : Fs), Reachable demoCfg demoArgs False t (none, fs) ∧ fs .log = none ∧
    ∃ info w' l, verify demoCfg 0 calm ⟨fs, 0, []⟩ = (.ok info, w') ∧ w'.out = l ++ [.progress 1159 1055] := by
  obtain ⟨t, fs, D, K, hr, hl, hD, hK, hp, hdl, hkl, hlink, hcount⟩ := slow_db
  refine ⟨t, fs, hr, hl, ?_⟩
  obtain ⟨recs, B, view, df, kf, hS, hd, hk, rfl, rfl⟩ := closed_db demo_creatable hr hl hD hK
  have hdb := hS.db
  have hB : B = 1 := by
    have := hdb.key.len
    rw [hkl] at this
    change 208 = (B + 1) * 104 at this
    omega
  subst hB
  have hok : ∀ x ∈ slowRecords, x.Ok 2 := by
    intro r hr
    simp only [slowRecords, List.mem_cons, List.not_mem_nil, or_false] at hr
    rcases hr with rfl | rfl | rfl <;> exact ⟨rfl, by decide, by decide⟩
  have hcomp : ∀ x ∈ slowRecords, Compact x := by
    intro r hr
    simp only [slowRecords, List.mem_cons, List.not_mem_nil, or_false] at hr
    rcases hr with rfl | rfl | rfl <;> trivial
  have hrec : slowRecords = recs.map Rec.toRecord := by
    apply layout_inj (ks := 2) _ hok hdb.recOk
    exact List.append_cancel_left (hp.symm.trans hdb.parse.1)
  have key := verify_accepts (σ := calm) (w := ⟨fs, 0, []⟩) (n := 0) hdb rfl hd hk rfl rfl (.inr (.inr (by omega)))
  replace key : wp calm _ _ _ _ := key
  unfold wp at key
  cases hv : verify demoCfg 0 calm ⟨fs, 0, []⟩ with
  | mk r w' =>
    rw [hv] at key
    cases r with
    | error x => obtain ⟨_, i, hi⟩ := key; exact absurd rfl hi
    | ok info =>
      have key : pc calm (verify demoCfg 0) (fun _ w' => ∃ l, w'.out = l ++ [.progress 1159 1055]) ⟨fs, 0, []⟩ := by
        apply pc_verify hd hk
        · intro kh w1 hw hh' _
          obtain rfl : kh = (demoArgs.conf 32768).kh demoCfg.H 1 := by rw [hh'.head, hdb.heads.head]
          refine pc_verifyNormal (rs := slowRecords) (rest := []) hdb.heads (by rw [hw]; exact hd) (by rw [hw]; exact hk)
            (by rw [List.append_nil]; exact hp) (fun x hx => ⟨hok x hx, hcomp x hx⟩) ?_
          intro info w2 cs hN _ _ hr
          obtain ⟨_, l, hl⟩ := hr rfl
          refine ⟨l, ?_⟩
          have hcs : cs = [[bytesAt kf.cur 104 98]] := hN.chains.unique (.cons (.last hlink) (.nil _)) hN.len
          rw [hl, hcs]
          show l ++ [Event.progress (104 * 3 + df.cur.length + (adjusted 104 * (1 + countIn (bytesAt kf.cur 104 98)) + 0))
            (normalWork ((demoArgs.conf 32768).kh demoCfg.H 1) df.cur.length kf.cur.length)] = _
          rw [hcount, hdl, hkl]
          rfl
        · intro kh w1 hw hh' hc
          simp [chooseNormal, fastChunk] at hc
      obtain ⟨l, hl⟩ := wp_elim key hv
      exact ⟨info, w', l, rfl, hl⟩

/-- C46 fails for `verify_normal`: after these three sessions it reports more than the total. -/
theorem C46_exceeds : ∃ (c : Cfg) (a : CreateArgs) (lf : Nat) (t : List Label) (fs : Fs), Creatable a lf ∧
    Reachable c a False t (none, fs) ∧ fs .log = none ∧
    ∃ info w', verify c 0 calm ⟨fs, 0, []⟩ = (.ok info, w') ∧ ¬ Steady w'.out := by
  obtain ⟨t, fs, hr, hl, info, w', l, h1, h2⟩ := slow_exceeds
  refine ⟨_, _, _, t, fs, demo_creatable, hr, hl, info, w', h1, ?_⟩
  rintro ⟨t, ht, _⟩
  have := ht (1159, 1055) (by rw [h2, progressed_append]; simp [progressed])
  simp only at this
  omega

end

end NuDB
