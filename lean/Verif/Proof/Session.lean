import Verif.Proof.Commit
import Verif.Proof.Recover
/- `open`, `insert`, `fetch`, `flush`, `close` on an undamaged database. -/
namespace NuDB

open Spec

section
variable {c : Cfg} {cf : Conf} {σ : Schedule}

theorem Closed.safe {L : Nat} {G : Bytes → Bytes → Prop} {D K : Bytes} (hG : G D K) {fs : Fs}
    (h : Closed D K fs) : Safe c cf L G fs := by
  obtain ⟨df, hd, sd⟩ := h.dat
  obtain ⟨kf, hk, sk⟩ := h.key
  exact .clear df kf D K hd hk h.log hG sd sk

/-- `open` -/
theorem wp_open {L : Nat} {G : Bytes → Bytes → Prop} {w : World}
    (hGdb : ∀ D K, G D K → ∃ recs B view, Db c cf D K recs B view)
    (hσ : (∀ i k, σ i ≠ .fail k) ∨ L ≤ 62 + 1024 * cf.blockSize)
    (hs : Safe c cf L G w.fs)
    {Q : Store → World → Prop}
    (hQ : ∀ s w' D K recs B view, G D K → Db c cf D K recs B view →
      (∀ (recs' : List Rec) B' view', Db c cf D K recs' B' view' → Sess c cf s w'.fs D K recs' B' view') →
      s.p1 = [] → s.frac = s.thresh / 2 → s.kh = cf.kh c.H B → w'.out = w.out → Q s w') :
    wp σ (openStore c) Q (XP σ (Safe c cf L G) True True) w := by
  unfold openStore
  apply wp_bind
  apply wp_recover hGdb hσ hs
  intro w1 D K hC hG ho
  obtain ⟨recs, B, view, hdb⟩ := hGdb D K hG
  obtain ⟨df, hd, sd⟩ := hC.dat
  obtain ⟨kf, hk, sk⟩ := hC.key
  have hsafe := hC.safe (c := c) (cf := cf) (L := L) hG
  have hcf := hdb.conf
  apply wp_bind
  apply wp_fOpen hd _ (by exact XP.fault hsafe)
  apply wp_bind
  apply wp_fOpen (by exact hk) _ (by exact XP.fault hsafe)
  apply wp_bind
  have hI : Idle D K (w1.fs.set .log (some (FileSt.clean []))) :=
    ⟨⟨df, by simpa using hd, sd⟩, ⟨kf, by simpa using hk, sk⟩, by simp⟩
  have hsafe' := hI.safe (c := c) (cf := cf) (L := L) hG
  apply wp_fCreate (by exact hC.log)
  rotate_left
  · intro x hx hf
    exact ⟨⟨hsafe, .inl ⟨hx, hf⟩⟩, ⟨hsafe', .inl ⟨hx, hf⟩⟩⟩
  generalize hfs0 : Fs.set _ .log (some (FileSt.clean [])) = fs2
  have hfs : w1.fs.set .log (some (FileSt.clean [])) = fs2 := hfs0
  rw [hfs] at hI hsafe'
  have hd2 : fs2 .dat = some df := by rw [← hfs]; simpa using hd
  have hk2 : fs2 .key = some kf := by rw [← hfs]; simpa using hk
  have hdl : 92 ≤ df.cur.length := by
    rw [sd.cur, hdb.dat.eq]; simp
  have hkn := hdb.klen
  have hX : ∀ (w : World) (x : Exc), w.fs = fs2 → IsFault x → Faulty σ →
      XP σ (Safe c cf L G) True True x (w.tick w.fs) := by
    intro w x hw hx hf
    exact ⟨by simp only [tick_fs]; rw [hw]; exact hsafe', .inl ⟨hx, hf⟩⟩
  apply wp_bind
  unfold readDatHeader
  apply wp_bind
  apply wp_fRead (by exact hd2) (by simpa [datHeaderSize] using hdl) _
    (by exact fun x => hX _ x (by rfl))
  apply wp_ret
  simp only [datHeaderSize, get_dh hdb.dat hcf (v := df.cur) (by rw [sd.cur]; exact List.prefix_refl _)]
  apply wp_bind
  apply wp_check_ok (verifyDat_ok hcf)
  apply wp_bind
  unfold readKeyHeader
  apply wp_bind
  apply wp_fRead (by exact hk2) (by simp only [keyHeaderSize]; rw [sk.cur]; omega) _
    (by exact fun x => hX _ x (by rfl))
  apply wp_bind
  apply wp_fSize (by exact hk2) _ (by exact fun x => hX _ x (by rfl))
  apply wp_ret
  have hkh : getKeyHeader (slice kf.cur 0 keyHeaderSize) kf.cur.length = cf.kh c.H B := by
    show getKeyHeader (slice kf.cur 0 104) _ = _
    rw [sk.cur, get_kh (c := c) (v := K) hcf hdb.key.head, hkn.2.2]
  simp only [hkh]
  apply wp_bind
  apply wp_check_ok (verifyKey_ok hcf hdb.b1)
  apply wp_bind
  apply wp_check_ok (verifyDatKey_ok hcf hdb.b1)
  have h1B := hdb.b1
  rw [if_neg (by simp only [Conf.kh]; omega)]
  apply wp_ret
  refine hQ _ _ D K recs B view hG hdb ?_ rfl rfl rfl (by exact ho)
  intro recs' B' view' hdb'
  have hB : B' = B := by rw [← hkn.2.2, ← hdb'.klen.2.2]
  subst hB
  refine ⟨hdb', hI, rfl, rfl, rfl, ⟨B', rfl⟩, rfl, rfl, ⟨?_, ?_⟩, rfl⟩
  · intro it h; exact absurd h List.not_mem_nil
  · simpa [poolPairs] using hdb'.dat.nodup

/-- Lookups work on an open store. -/
theorem Sess.ready {s : Store} {fs : Fs} {D K : Bytes} {recs : List Rec} {B : Nat} {view : View}
    (h : Sess c cf s fs D K recs B view) : Ready c cf s fs D recs view := by
  have hdb := h.db
  have hB2 := hdb.b2
  have hm := ceilPow2_isModulus hdb.b1 (by omega)
  obtain ⟨df, hd, sd⟩ := h.idle.dat
  obtain ⟨kf, hk, sk⟩ := h.idle.key
  refine ⟨hdb.conf, h.kh, by rw [h.buckets]; exact hdb.b1, by rw [h.buckets, h.modulus]; exact hm,
    by rw [h.modulus]; exact modulus_le hm hB2, hdb.dat, ⟨df, hd, by rw [sd.cur]; exact List.prefix_refl _⟩,
    by rw [h.buckets, h.modulus]; exact hdb.filed, kf, hk, ?_⟩
  intro n hn
  rw [h.buckets] at hn
  right
  rw [h.c1, sk.cur]
  refine ⟨rfl, ?_, hdb.key.blocks n hn⟩
  rw [hdb.key.len]
  have : (n + 2) * cf.blockSize ≤ (B + 1) * cf.blockSize := Nat.mul_le_mul_right _ (by omega)
  have e := mul_succ_add n cf.blockSize
  omega

theorem find_kvOf (p : Pool) (k : Bytes) : (p.find k).map (·.data) = kvOf (poolPairs p) k := by
  induction p with
  | nil => rfl
  | cons it p ih =>
    by_cases h : it.key = k
    · simp [Pool.find, kvOf, poolPairs, h]
    · simp only [Pool.find, kvOf, poolPairs, List.map_cons, List.find?_cons, beq_eq_false_iff_ne.mpr h] at *
      exact ih

theorem kvOf_append (a b : List (Bytes × Bytes)) (k : Bytes) : kvOf (a ++ b) k = (kvOf a k).or (kvOf b k) := by
  simp only [kvOf, List.find?_append]
  cases List.find? (fun p => p.1 == k) a <;> simp

/-- what a lookup answers -/
theorem Sess.answer {s : Store} {fs : Fs} {D K : Bytes} {recs : List Rec} {B : Nat} {view : View}
    (h : Sess c cf s fs D K recs B view) (k : Bytes) :
    answer s recs k = kvOf (pairsOf recs ++ poolPairs s.p1) k := by
  have h1 := find_kvOf s.p1 k
  rw [kvOf_append]
  unfold NuDB.answer
  rw [h.p0]
  cases hf : s.p1.find k with
  | none => rw [hf] at h1; simp only [← h1]; simp [Pool.find]
  | some it =>
    rw [hf] at h1
    simp only [← h1]
    cases hr : kvOf (pairsOf recs) k with
    | none => rfl
    | some v =>
      exfalso
      have hnd := h.pool.nodup
      rw [List.map_append, List.nodup_append] at hnd
      have a1 : k ∈ (pairsOf recs).map (·.1) := by
        apply Classical.byContradiction
        intro hh; rw [kvOf_none.mpr hh] at hr; cases hr
      have a2 : k ∈ (poolPairs s.p1).map (·.1) := by
        apply Classical.byContradiction
        intro hh; rw [kvOf_none.mpr hh] at h1; cases h1
      exact hnd.2.2 k a1 k a2 rfl

theorem Sess.quiet {s : Store} {w w' : World} {D K : Bytes} {recs : List Rec} {B : Nat} {view : View}
    (h : Sess c cf s w.fs D K recs B view) (hq : Quiet w w') : Sess c cf s w'.fs D K recs B view := by
  rw [hq.fs]; exact h

theorem place_perm (it : Item) (p : Pool) : (p.place it).Perm (it :: p) := by
  induction p with
  | nil => exact List.Perm.refl _
  | cons x p ih =>
    unfold Pool.place
    split
    · exact List.Perm.refl _
    · exact (ih.cons x).trans (List.Perm.swap it x p)

theorem poolPairs_perm {p q : Pool} (h : List.Perm p q) : (poolPairs p).Perm (poolPairs q) := h.map _

theorem kvOf_perm {a b : List (Bytes × Bytes)} (h : a.Perm b) (hn : (a.map (·.1)).Nodup) (k : Bytes) :
    kvOf a k = kvOf b k := by
  have hn' : (b.map (·.1)).Nodup := (h.map _).nodup_iff.mp hn
  cases hb : kvOf b k with
  | none => rw [kvOf_none] at *; exact fun hh => hb ((h.map _).mem_iff.mp hh)
  | some v => rw [kvOf_some hn'] at hb; rw [kvOf_some hn]; exact h.mem_iff.mpr hb

/-- `insert` -/
theorem wp_insert {s : Store} {w : World} {D K : Bytes} {recs : List Rec} {B : Nat} {view : View}
    (hS : Sess c cf s w.fs D K recs B view) {key data : Bytes} (hk : key.length = cf.keySize)
    (h1 : 1 ≤ data.length) (h2 : data.length < 2 ^ 32)
    {Q : Store → World → Prop} {X : Exc → World → Prop}
    (hQ : ∀ s' w', Quiet w w' → kvOf (pairsOf recs ++ poolPairs s.p1) key = none →
      Sess c cf s' w'.fs D K recs B view →
      s' = { s with p1 := s.p1.place ⟨cf.hash c.H key, key, data⟩ } →
      Q s' w')
    (hN : ∀ w', Quiet w w' → (kvOf (pairsOf recs ++ poolPairs s.p1) key).isSome →
      X (.err .key_exists) w')
    (hX : ∀ x w', IsFault x → Faulty σ → Quiet w w' → X x w') :
    wp σ (insert c s key data) Q X w := by
  unfold insert
  simp only [hS.ec]
  apply wp_bind
  apply wp_lift_ok (assert_ok (by simp; omega))
  apply wp_bind
  apply wp_lift_ok (assert_ok (by simp; omega))
  apply wp_bind
  apply wp_insertCheck hS.ready hk
  · intro w' hq hn
    rw [hS.answer] at hn
    have hpn : s.p1.find key = none := by
      have h3 := find_kvOf s.p1 key
      rw [kvOf_append, Option.or_eq_none_iff] at hn
      rw [hn.2] at h3
      simpa using h3
    obtain ⟨Bk, hkh⟩ := hS.kh
    have hins : s.p1.insert ⟨hashKey c.H s.kh.salt key, key, data⟩ =
        .ok (s.p1.place ⟨cf.hash c.H key, key, data⟩) := by
      unfold Pool.insert
      rw [hkh]
      simp only [hpn, Option.isNone_none, assert_ok, bind, Except.bind, pure, Except.pure]
      rfl
    apply wp_bind
    apply wp_lift_ok hins
    apply wp_ret
    refine hQ _ w' hq hn ?_ (by rw [hS.ec])
    have hS' := hS.quiet hq
    have hpp := place_perm ⟨cf.hash c.H key, key, data⟩ s.p1
    refine ⟨hS'.db, hS'.idle, rfl, hS'.p0, hS'.c1, hS'.kh, hS'.buckets, hS'.modulus, ⟨?_, ?_⟩, hS'.thresh⟩
    · intro it hit
      rcases List.mem_cons.mp (hpp.mem_iff.mp hit) with rfl | hit
      · exact ⟨rfl, hk, h1, h2⟩
      · exact hS.pool.each it hit
    · have e : (pairsOf recs ++ poolPairs (s.p1.place ⟨cf.hash c.H key, key, data⟩)).Perm
          ((key, data) :: (pairsOf recs ++ poolPairs s.p1)) := by
        refine (List.Perm.append_left _ (poolPairs_perm hpp)).trans ?_
        exact List.perm_middle
      refine (e.map (·.1)).nodup_iff.mpr ?_
      rw [List.map_cons, List.nodup_cons]
      exact ⟨kvOf_none.mp hn, hS.pool.nodup⟩
  · intro w' hq hn
    rw [hS.answer] at hn
    exact hN w' hq hn
  · exact hX

/-- `flush` -/
theorem wp_flush {s : Store} {w : World} {L : Nat} {D0 K0 : Bytes} {recs : List Rec} {B0 : Nat}
    {view0 : View} {G : Bytes → Bytes → Prop}
    (hS : Sess c cf s w.fs D0 K0 recs B0 view0)
    (hL : s.p1 ≠ [] → logMax cf s.p1.length ≤ L) (hG : G D0 K0)
    (hG1 : ∀ D K recs' B' view', D0 <+: D → Db c cf D K recs' B' view' →
      pairsOf recs' = pairsOf recs ++ poolPairs s.p1 →
      D.length ≤ D0.length + (encRecs (recsOf s.p1)).length +
        s.p1.length * (((pairsOf recs).length + s.p1.length + 1) * cf.recLen) →
      B' = (growSteps s.thresh s.p1.length (s.frac, B0)).2 → G D K)
    {Q : Store → World → Prop}
    (hQ : ∀ s' w' D1 K1 rs B1 view, Sess c cf s' w'.fs D1 K1 (recs ++ recsOf s.p1 ++ rs) B1 view →
      Spills cf rs → D0 <+: D1 → s'.p1 = [] → w'.out = w.out → s'.kh = s.kh →
      (s'.frac, B1) = growSteps s.thresh s.p1.length (s.frac, B0) →
      D1.length ≤ D0.length + (encRecs (recsOf s.p1)).length +
        s.p1.length * (((pairsOf recs).length + s.p1.length + 1) * cf.recLen) →
      Q s' w')
    (hE : ∀ s' w', Faulty σ → s'.p1 = [] → s'.ec = some .io → Safe c cf L G w'.fs → Q s' w') :
    wp σ (flush c s) Q (fun x w' => Safe c cf L G w'.fs ∧
      ((x = .crash ∧ Faulty σ) ∨ (x = .abort ∧ ¬ Room cf D0 B0 recs s.p1 ∧ (B0 + s.p1.length ≤ 2 ^ 32 → Big w'.fs)))) w := by
  unfold flush
  by_cases hne : s.p1 = []
  · rw [if_pos (by simp [hne])]
    apply wp_ret
    refine hQ s w D0 K0 [] B0 view0 ?_ (Spills.nil cf) (List.prefix_refl _) hne rfl rfl ?_ ?_
    · simpa [hne, recsOf] using hS
    · simp [hne, growSteps]
    · simp [hne, recsOf]
  · rw [if_neg (by simp [hne])]
    apply wp_bind
    apply wp_commit hS hne (hL hne) hG hG1
    · intro s' w' D1 K1 rs B1 view a1 a2 a3 a4 a5 a6 a7 a8
      apply wp_ret
      refine hQ _ w' D1 K1 rs B1 view ?_ a2 a3 a4 a5 a6 a7 a8
      simp only [Option.isSome_none, Bool.false_eq_true, if_false]
      exact a1
    · intro s' w' hf hp hs
      apply wp_ret
      exact hE _ w' hf hp rfl hs

/-- `close` -/
theorem wp_close {s : Store} {w : World} {L : Nat} {D0 K0 : Bytes} {recs : List Rec} {B0 : Nat}
    {view0 : View} {G : Bytes → Bytes → Prop}
    (hS : Sess c cf s w.fs D0 K0 recs B0 view0)
    (hL : s.p1 ≠ [] → logMax cf s.p1.length ≤ L) (hG : G D0 K0)
    (hG1 : ∀ D K recs' B' view', D0 <+: D → Db c cf D K recs' B' view' →
      pairsOf recs' = pairsOf recs ++ poolPairs s.p1 →
      D.length ≤ D0.length + (encRecs (recsOf s.p1)).length +
        s.p1.length * (((pairsOf recs).length + s.p1.length + 1) * cf.recLen) →
      B' = (growSteps s.thresh s.p1.length (s.frac, B0)).2 → G D K)
    {Q : Option Err → World → Prop}
    (hQ : ∀ w' D1 K1 rs B1 view, Closed D1 K1 w'.fs → Db c cf D1 K1 (recs ++ recsOf s.p1 ++ rs) B1 view →
      Spills cf rs → D0 <+: D1 → w'.out = w.out →
      B1 = (growSteps s.thresh s.p1.length (s.frac, B0)).2 →
      D1.length ≤ D0.length + (encRecs (recsOf s.p1)).length +
        s.p1.length * (((pairsOf recs).length + s.p1.length + 1) * cf.recLen) → Q none w')
    (hE : ∀ w', Faulty σ → Safe c cf L G w'.fs → Q (some .io) w') :
    wp σ (close c s) Q (fun x w' => Safe c cf L G w'.fs ∧
      ((x = .crash ∧ Faulty σ) ∨ (x = .abort ∧ ¬ Room cf D0 B0 recs s.p1 ∧ (B0 + s.p1.length ≤ 2 ^ 32 → Big w'.fs)))) w := by
  unfold close
  apply wp_bind
  apply wp_flush hS hL hG hG1
  · intro s' w' D1 K1 rs B1 view a1 a2 a3 a4 a5 a6 a7 a8
    simp only [a1.ec]
    have hpairs : pairsOf (recs ++ recsOf s.p1 ++ rs) = pairsOf recs ++ poolPairs s.p1 := by
      rw [pairsOf_append, pairsOf_append, pairsOf_spills a2, pairsOf_recsOf, List.append_nil]
    apply wp_bind
    apply wp_attempt
    have hsafe := a1.idle.safe (c := c) (cf := cf) (L := L) (hG1 _ _ _ _ _ a3 a1.db hpairs a8 (by rw [← a7]))
    apply wp_fErase a1.idle.log
    · simp only
      apply wp_ret
      obtain ⟨df, hd, sd⟩ := a1.idle.dat
      obtain ⟨kf, hk, sk⟩ := a1.idle.key
      exact hQ _ D1 K1 rs B1 view ⟨⟨df, by simpa using hd, sd⟩, ⟨kf, by simpa using hk, sk⟩, by simp⟩ a1.db a2 a3
        (by exact a5) (by rw [← a7]) a8
    · intro x hx hf
      rcases hx with rfl | rfl
      · exact ⟨hsafe, .inl ⟨rfl, hf⟩⟩
      · simp only
        apply wp_ret
        exact hE _ hf hsafe
  · intro s' w' hf hp he hs
    simp only [he]
    apply wp_ret
    exact hE _ hf hs

end

end NuDB
