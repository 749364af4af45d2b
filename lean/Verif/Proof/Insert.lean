import Verif.Proof.Cache
/- The insert loop of `commit`. -/
namespace NuDB

/-- How `frac_` and the number of buckets change per inserted item. -/
def growStep (thresh : Nat) (x : Nat × Nat) : Nat × Nat :=
  if x.1 + 65536 ≥ thresh then (x.1 + 65536 - thresh, x.2 + 1) else (x.1 + 65536, x.2)

def growSteps (thresh : Nat) : Nat → Nat × Nat → Nat × Nat
  | 0, x => x
  | k + 1, x => growSteps thresh k (growStep thresh x)

section
variable {c : Cfg} {cf : Conf} {σ : Schedule} {P : Fs → Prop} {lim nb : Prop}

/-- State of the insert loop: `rs` overflow records were written, the entries `done` are
filed in the buckets `view`. -/
structure WorkInv (c : Cfg) (cf : Conf) (B0 : Nat) (view0 : View) (w0 : World) (V0 : Bytes)
    (P : Fs → Prop) (n : Nat) (x : Work) (w : World) (rs : List Rec) (view : View)
    (done : List Entry) : Prop where
  grown : Grown cf V0 rs n x.w w0 w P
  caches : Caches cf B0 x.buckets view0 view x.c0 x.c1
  b1 : 1 ≤ x.buckets
  mod : IsModulus x.buckets x.modulus
  filed : Filed (V0 ++ encRecs rs) cf.cap x.buckets x.modulus view done
  tb : x.tmp.bs = cf.blockSize
  tl : x.tmp.p.length = cf.blockSize

theorem nextModulus_half {B m : Nat} (h0 : 1 ≤ B) (hm : IsModulus B m) :
    B - nextModulus B m / 2 < B := by
  have h := (hm.next h0).2.2
  omega

theorem modulus_le {B m : Nat} (hm : IsModulus B m) (hB : B ≤ 2 ^ 32) : m ≤ 2 ^ 32 := by
  obtain ⟨⟨k, rfl⟩, h1, _⟩ := hm
  have h2 : 2 ^ k < 2 ^ 33 := Nat.lt_of_lt_of_le h1 (by omega)
  have h3 : k < 33 := (Nat.pow_lt_pow_iff_right (by decide)).mp h2
  exact Nat.pow_le_pow_right (by decide) (by omega)

theorem Filed.grow {V V' : Bytes} {cap B m : Nat} {view : View} {T : List Entry} (h0 : 1 ≤ B)
    (hm : IsModulus B m) (h : Filed V cap B m view T) (hV : V <+: V')
    {x1 x2 : List Entry × Nat}
    (h1 : BucketOk V' cap x1.1 x1.2 ((T.filter (inBucket B m (B - nextModulus B m / 2))).filter
      (inBucket (B + 1) (nextModulus B m) (B - nextModulus B m / 2))))
    (h2 : BucketOk V' cap x2.1 x2.2 ((T.filter (inBucket B m (B - nextModulus B m / 2))).filter
      (inBucket (B + 1) (nextModulus B m) B))) :
    Filed V' cap (B + 1) (nextModulus B m) ((view.set (B - nextModulus B m / 2) x1).set B x2) T := by
  have hlt := nextModulus_half h0 hm
  intro n hn
  by_cases hnB : n = B
  · subst hnB
    rw [View.set_same]
    refine h2.perm (List.Perm.of_eq ?_)
    rw [List.filter_filter]
    apply List.filter_congr
    intro e _
    have hg := bucketIndex_grow h0 hm e.hash
    simp only [inBucket] at *
    rw [Bool.eq_iff_iff]
    simp only [Bool.and_eq_true, beq_iff_eq]
    omega
  · rw [View.set_other _ hnB]
    by_cases hn1 : n = B - nextModulus B m / 2
    · rw [hn1, View.set_same]
      refine h1.perm (List.Perm.of_eq ?_)
      rw [List.filter_filter]
      apply List.filter_congr
      intro e _
      have hg := bucketIndex_grow h0 hm e.hash
      simp only [inBucket] at *
      rw [Bool.eq_iff_iff]
      simp only [Bool.and_eq_true, beq_iff_eq]
      omega
    · rw [View.set_other _ hn1]
      refine ((h n (by omega)).mono hV).perm (List.Perm.of_eq ?_)
      apply List.filter_congr
      intro e _
      have hg := bucketIndex_grow h0 hm e.hash
      simp only [inBucket] at *
      rw [Bool.eq_iff_iff]
      simp only [beq_iff_eq]
      omega

theorem cache_create_ok {c1 : Cache} {n bs : Nat} (h : n ∉ c1.idx) :
    c1.create c bs n = .ok (c1 ++ [(n, zeros bs)], ⟨bs, 0, 0, zeros bs⟩) := by
  unfold Cache.create
  rw [ofEmpty_ok (by simp)]
  simp only [bind, Except.bind]
  rw [if_neg (by rw [Cache.find_none.mpr h]; simp)]; rfl

/-- The split at the beginning of a round. -/
theorem wp_commitSplit {kh : KeyHeader} {thresh B0 Bk n : Nat} {view0 view : View} {w0 w : World} {V0 : Bytes}
    {x : Work} {rs : List Rec} {done : List Entry} {f : FileSt} {D0 : Bytes} {T0 : List Entry} {m0 : Nat}
    (hcf : cf.Ok) (hkh : kh = cf.kh c.H Bk) (hA : DatFree P) (hV : Whole cf V0)
    (hf : w.fs .key = some f) (hK : KeyFile c cf f.cur B0 view0)
    (hF0 : Filed D0 cf.cap B0 m0 view0 T0)
    (hx : WorkInv c cf B0 view0 w0 V0 P n x w rs view done)
    (hlim : lim → (V0 ++ encRecs rs).length + done.length * cf.recLen + 8 < 2 ^ 48)
    (hlB : lim → x.buckets + 1 ≤ 2 ^ 32) (hnB : nb → x.buckets + 1 ≤ 2 ^ 32)
    {Q : Work → World → Prop}
    (hQ : ∀ x' w' rs' view', WorkInv c cf B0 view0 w0 V0 P (n + done.length) x' w' (rs ++ rs') view' done →
      (encRecs rs').length ≤ done.length * cf.recLen →
      (x'.frac, x'.buckets) = growStep thresh (x.frac, x.buckets) → w'.fs .key = some f →
      x'.c0.length ≤ x.c0.length + 1 → Q x' w') :
    wp σ (commitSplit c kh thresh x) Q (XP σ P lim nb) w := by
  subst hkh
  unfold commitSplit
  by_cases hfr : x.frac + 65536 ≥ thresh
  · rw [if_pos hfr]
    simp only [show (cf.kh c.H Bk).blockSize = cf.blockSize from rfl,
      show (cf.kh c.H Bk).capacity = cf.cap from rfl]
    show wp σ (do
      let (b1, c1, c0) ← load c cf.blockSize (x.buckets - nextModulus x.buckets x.modulus / 2) x.c1 x.c0
      let (c1, b2) ← M.lift (c1.create c cf.blockSize x.buckets)
      let (b1, b2, tmp, w) ← split cf.cap (x.buckets - nextModulus x.buckets x.modulus / 2) x.buckets
        (x.buckets + 1) (nextModulus x.buckets x.modulus) b1 b2 x.tmp x.w
      M.ret (Work.mk c0
        ((c1.store (x.buckets - nextModulus x.buckets x.modulus / 2) b1.p).store x.buckets b2.p)
        (x.frac + 65536 - thresh) (x.buckets + 1) (nextModulus x.buckets x.modulus) tmp w))
      Q (XP σ P lim nb) w
    have hn1 := nextModulus_half hx.b1 hx.mod
    have hm' := hx.mod.next hx.b1
    generalize hmdef : nextModulus x.buckets x.modulus = m' at *
    generalize hn1def : x.buckets - m' / 2 = n1 at *
    have hv := hx.filed n1 hn1
    apply wp_bind
    apply wp_load hcf hf hK hF0 hx.caches hn1 hv.fit hv.lt48
    · intro b1 c1' c0' w1 r1 r2 hC hin hmono hback hc0 hq
      simp only
      have hBnot : x.buckets ∉ c1'.idx := by
        intro h
        rcases hback _ h with h | h
        · have := hx.caches.lt h; omega
        · omega
      apply wp_bind
      apply wp_lift_ok (cache_create_ok hBnot)
      simp only
      have hC2 := hC.grow (p := zeros cf.blockSize) (x := ([], 0))
        ⟨by simp, (rep_empty (by have := hcf.bs1; omega) hcf.bs2).blob⟩ hBnot
      apply wp_bind
      have hgw : Grown cf V0 rs n x.w w0 w1 P := by
        have := hx.grown
        exact ⟨by rw [hq.fs]; exact this.winv, by rw [hq.fs]; exact this.inv,
          by rw [hq.fs]; exact this.same, by rw [hq.out]; exact this.out, this.spills, this.len, this.small⟩
      have hTl : (done.filter (inBucket x.buckets x.modulus n1)).length ≤ done.length :=
        List.length_filter_le _ _
      have hTl2 := Nat.mul_le_mul_right cf.recLen hTl
      have hidx : ∀ e ∈ done.filter (inBucket x.buckets x.modulus n1),
          bucketIndex e.hash (x.buckets + 1) m' = n1 ∨ bucketIndex e.hash (x.buckets + 1) m' = x.buckets := by
        intro e he
        simp only [List.mem_filter, inBucket, beq_iff_eq] at he
        have hg := bucketIndex_grow hx.b1 hx.mod e.hash
        simp only [hmdef, hn1def] at hg
        omega
      apply wp_split (T := done.filter (inBucket x.buckets x.modulus n1)) (V := V0 ++ encRecs rs)
        (hmlim := fun hl => modulus_le hm' (hlB hl)) (hmnb := fun hl => modulus_le hm' (hnB hl)) (hne := by omega) (hcf := hcf) (hA := hA)
        (hV := hV.grow hx.grown.spills) (h1 := ⟨r2, _, _, r1, hv⟩) (h2 := rep_empty (by have := hcf.bs1; omega) hcf.bs2) (h2b := rfl)
        (hidx := hidx) (htb := hx.tb) (htl := hx.tl) (hw := hgw.winv) (hP := hgw.inv)
        (hlim := fun hl => by have := hlim hl; omega)
      · intro b1' b2' tmp' wr' w2 rs' q1 q2 q3 q4 q5
        obtain ⟨es1, s1, t1, t2⟩ := q1.rep
        obtain ⟨es2, s2, t3, t4⟩ := q2.rep
        apply wp_ret
        refine hQ _ w2 rs' ((view.set n1 (es1, s1)).set x.buckets (es2, s2)) ?_ ?_ ?_ ?_ hc0
        · refine ⟨(hgw.trans q5).weaken (by omega), ?_, by simp, ?_, ?_, q3, q4⟩
          · have g1 := hC2.store (n := n1) (p := b1'.p) (x := (es1, s1))
              (by rw [Cache.idx_append]; exact List.mem_append_left _ hin) (t1.toBlob q1.bs)
            have g2 := g1.store (n := x.buckets) (p := b2'.p) (x := (es2, s2))
              (by rw [Cache.idx_store, Cache.idx_append]; simp) (t3.toBlob q2.bs)
            refine g2.view_congr ?_
            intro k hk
            by_cases e1 : k = x.buckets
            · rw [e1, View.set_same, View.set_same]
            · rw [View.set_other _ e1, View.set_other _ e1]
              by_cases e2 : k = n1
              · rw [e2, View.set_same, View.set_same]
              · rw [View.set_other _ e2, View.set_other _ e2, View.set_other _ e1]
          · exact hm'
          · simp only
            have hfg := Filed.grow (V' := V0 ++ encRecs (rs ++ rs')) (x1 := (es1, s1)) (x2 := (es2, s2)) hx.b1 hx.mod hx.filed
              ⟨encRecs rs', by rw [encRecs_append, List.append_assoc]⟩
            rw [hmdef, hn1def] at hfg
            refine hfg ?_ ?_
            · rw [encRecs_append, ← List.append_assoc]; exact t2
            · rw [encRecs_append, ← List.append_assoc]; exact t4
        · exact Nat.le_trans q5.len (Nat.mul_le_mul_right _ hTl)
        · simp [growStep, hfr]
        · rw [q5.same .key (by decide), hq.fs]; exact hf
    · exact XP.fault hx.grown.inv
  · rw [if_neg hfr]
    apply wp_ret
    refine hQ _ w [] view ?_ (by simp) (by simp [growStep, hfr]) hf (Nat.le_succ _)
    rw [List.append_nil]
    exact ⟨hx.grown.weaken (by omega), hx.caches, hx.b1, hx.mod, hx.filed, hx.tb, hx.tl⟩

/-- One round of the insert loop. -/
theorem wp_commitInsert {kh : KeyHeader} {thresh B0 Bk n : Nat} {view0 view : View} {w0 w : World} {V0 : Bytes}
    {x : Work} {rs : List Rec} {done : List Entry} {f : FileSt} {D0 : Bytes} {T0 : List Entry} {m0 : Nat}
    {it : Item} {off : Nat}
    (hcf : cf.Ok) (hkh : kh = cf.kh c.H Bk) (hA : DatFree P) (hV : Whole cf V0)
    (hf : w.fs .key = some f) (hK : KeyFile c cf f.cur B0 view0)
    (hF0 : Filed D0 cf.cap B0 m0 view0 T0)
    (hx : WorkInv c cf B0 view0 w0 V0 P n x w rs view done)
    (hsz : it.data.length < 2 ^ 32) (hh : it.hash < 2 ^ 48) (ho : lim → off < 2 ^ 48) (hov : off ≤ V0.length)
    (hlim : lim → (V0 ++ encRecs rs).length + (done.length + 1) * cf.recLen + 8 < 2 ^ 48)
    (hlB : lim → x.buckets + 1 ≤ 2 ^ 32) (hnB : nb → x.buckets + 1 ≤ 2 ^ 32)
    {Q : Work → World → Prop}
    (hQ : ∀ x' w' rs' view', WorkInv c cf B0 view0 w0 V0 P (n + (done.length + 1)) x' w' (rs ++ rs') view'
        (⟨off, it.data.length, it.hash⟩ :: done) →
      (encRecs rs').length ≤ (done.length + 1) * cf.recLen → off < 2 ^ 48 → x'.modulus ≤ 2 ^ 32 →
      (x'.frac, x'.buckets) = growStep thresh (x.frac, x.buckets) → w'.fs .key = some f →
      x'.c0.length ≤ x.c0.length + 2 → Q x' w') :
    wp σ (commitInsert c kh thresh it off x) Q (XP σ P lim nb) w := by
  unfold commitInsert
  have hmul : (done.length + 1) * cf.recLen = done.length * cf.recLen + cf.recLen := by
    rw [Nat.add_mul, Nat.one_mul]
  apply wp_bind
  apply wp_commitSplit hcf hkh hA hV hf hK hF0 hx (fun hl => by have := hlim hl; omega) hlB hnB
  intro x1 w1 rs1 view1 hx1 hlen1 hgrow hf1 hcl1
  apply wp_bind
  by_cases hm : x1.modulus ≤ 2 ^ 32
  · apply wp_lift_ok (bucketIndexA_ok hm)
    have hn := bucketIndex_lt hx1.b1 hx1.mod it.hash
    generalize hndef : bucketIndex it.hash x1.buckets x1.modulus = k at *
    have hv := hx1.filed k hn
    apply wp_bind
    rw [hkh]
    apply wp_load hcf hf1 hK hF0 hx1.caches hn hv.fit hv.lt48
    · intro b c1' c0' w2 r1 r2 hC hin _ _ hc0 hq
      simp only
      have hg1 : Grown cf V0 (rs ++ rs1) (n + done.length) x1.w w0 w2 P := by
        have := hx1.grown
        exact ⟨by rw [hq.fs]; exact this.winv, by rw [hq.fs]; exact this.inv,
          by rw [hq.fs]; exact this.same, by rw [hq.out]; exact this.out, this.spills, this.len, this.small⟩
      have hlen2 : (V0 ++ encRecs (rs ++ rs1)).length = (V0 ++ encRecs rs).length + (encRecs rs1).length := by
        rw [encRecs_append]; simp; omega
      show wp σ (do
        let (b, wr) ← maybeSpill b x1.w
        let b ← M.lift (b.insert off it.data.length it.hash)
        M.ret (Work.mk c0' (c1'.store k b.p) x1.frac x1.buckets x1.modulus x1.tmp wr)) Q (XP σ P lim nb) w2
      apply wp_put' (e := ⟨off, it.data.length, it.hash⟩)
        (k := fun b wr => M.ret (Work.mk c0' (c1'.store k b.p) x1.frac x1.buckets x1.modulus x1.tmp wr)) (V := V0 ++ encRecs (rs ++ rs1)) hcf (hV.grow hg1.spills)
        ⟨r2, _, _, r1, hv⟩ hg1.winv hg1.inv hA ?_ hsz hh ho
        (fun _ => by simp only [List.length_append]; omega)
      · intro b' wr' w3 rs2 hb' ho48 hg2
        obtain ⟨es', s', t1, t2⟩ := hb'.rep
        apply wp_ret
        refine hQ _ w3 (rs1 ++ rs2) (view1.set k (es', s')) ?_ ?_ ho48 hm ?_ ?_ (by simp only; omega)
        · rw [← List.append_assoc]
          refine ⟨(hg1.trans hg2).weaken (by omega), hC.store hin (t1.toBlob hb'.bs), hx1.b1, hx1.mod,
            ?_, hx1.tb, hx1.tl⟩
          simp only
          intro j hj
          rw [encRecs_append (rs ++ rs1), ← List.append_assoc]
          by_cases hjk : j = k
          · subst hjk
            rw [View.set_same, List.filter_cons_of_pos (by simp [inBucket, hndef])]
            exact t2
          · rw [View.set_other _ hjk, List.filter_cons_of_neg (by
              simp only [inBucket, hndef, beq_iff_eq]; exact fun h => hjk h.symm)]
            exact (hx1.filed j hj).mono ⟨_, rfl⟩
        · have := hg2.len
          rw [encRecs_append, List.length_append]; omega
        · exact hgrow
        · rw [hg2.same .key (by decide), hq.fs]; exact hf1
      · intro hl
        have := hlim hl
        rw [hlen2]; omega
    · exact XP.fault hx1.grown.inv
  · have : bucketIndexA it.hash x1.buckets x1.modulus = .error .abort := by
      have : assert (decide (x1.modulus ≤ 0x100000000)) = .error .abort := by
        rw [decide_eq_false (by omega)]; rfl
      simp only [bucketIndexA, this, bind, Except.bind]
    apply wp_lift_error this
    have hle : x.buckets + 1 ≤ 2 ^ 32 → x1.modulus ≤ 2 ^ 32 := by
      intro h1
      apply modulus_le hx1.mod
      have h2 := congrArg Prod.snd hgrow
      simp only [growStep] at h2
      split at h2 <;> simp at h2 <;> omega
    exact ⟨hx1.grown.inv, .inr ⟨rfl, fun hl => hm (hle (hlB hl)), fun hl => absurd (hle (hnB hl)) hm⟩⟩

/-- entries of the items of a commit -/
def newEntries (l : List (Item × Nat)) : List Entry :=
  l.map (fun p => ⟨p.2, p.1.data.length, p.1.hash⟩)

/-- The insert loop. -/
theorem wp_commitInserts {kh : KeyHeader} {thresh B0 Bk N : Nat} {view0 : View} {w0 : World} {V0 : Bytes}
    {f : FileSt} {D0 : Bytes} {T0 : List Entry} {m0 : Nat}
    (hcf : cf.Ok) (hkh : kh = cf.kh c.H Bk) (hA : DatFree P) (hV : Whole cf V0)
    (hK : KeyFile c cf f.cur B0 view0)
    (hF0 : Filed D0 cf.cap B0 m0 view0 T0)
    {Q : Work → World → Prop} :
    ∀ (l : List (Item × Nat)) (x : Work) (w : World) (rs : List Rec) (view : View) (done : List Entry) (n : Nat),
    w.fs .key = some f →
    WorkInv c cf B0 view0 w0 V0 P n x w rs view done →
    (∀ p ∈ l, p.1.data.length < 2 ^ 32 ∧ p.1.hash < 2 ^ 48 ∧ (lim → p.2 < 2 ^ 48) ∧ p.2 ≤ V0.length) →
    x.modulus ≤ 2 ^ 32 →
    done.length + l.length ≤ N →
    (lim → (V0 ++ encRecs rs).length + l.length * ((N + 1) * cf.recLen) + 8 < 2 ^ 48) →
    (lim → x.buckets + l.length ≤ 2 ^ 32) → (nb → x.buckets + l.length ≤ 2 ^ 32) →
    (∀ x' w' rs' view' n', WorkInv c cf B0 view0 w0 V0 P n' x' w' rs' view' (done ++ newEntries l) →
      (∀ p ∈ l, p.2 < 2 ^ 48) → x'.modulus ≤ 2 ^ 32 →
      (x'.frac, x'.buckets) = growSteps thresh l.length (x.frac, x.buckets) →
      w'.fs .key = some f → x'.c0.length ≤ x.c0.length + 2 * l.length →
      (V0 ++ encRecs rs').length ≤ (V0 ++ encRecs rs).length + l.length * ((N + 1) * cf.recLen) → Q x' w') →
    wp σ (commitInserts c kh thresh l x) Q (XP σ P lim nb) w := by
  intro l
  induction l with
  | nil =>
    intro x w rs view done n hf hx _ hm _ _ _ _ hQ
    apply wp_ret
    exact hQ x w rs view n (by simpa [newEntries] using hx) (by simp) hm rfl hf (by simp) (by simp)
  | cons p l ih =>
    intro x w rs view done n hf hx hp hm hN hlim hlB hnB hQ
    obtain ⟨it, off⟩ := p
    unfold commitInserts
    have hp0 := hp (it, off) (by simp)
    simp only [List.length_cons] at hN hlim hlB hnB
    have hmul : (l.length + 1) * ((N + 1) * cf.recLen) = l.length * ((N + 1) * cf.recLen) + (N + 1) * cf.recLen := by
      rw [Nat.add_mul, Nat.one_mul]
    have hle : (done.length + 1) * cf.recLen ≤ (N + 1) * cf.recLen := Nat.mul_le_mul_right _ (by omega)
    apply wp_bind
    apply wp_commitInsert hcf hkh hA hV hf hK hF0 hx hp0.1 hp0.2.1 hp0.2.2.1 hp0.2.2.2
    · intro hl; have := hlim hl; rw [hmul] at this; omega
    · intro hl; have := hlB hl; omega
    · intro hl; have := hnB hl; omega
    · intro x1 w1 rs1 view1 hx1 hlen hoff hm1 hgrow hf1 hcl1
      apply ih x1 w1 (rs ++ rs1) view1 _ _ hf1 hx1 (fun q hq => hp q (by simp [hq])) hm1
      · simp only [List.length_cons]; omega
      · intro hl
        have := hlim hl
        rw [hmul] at this
        rw [encRecs_append]
        simp only [List.length_append] at this ⊢
        omega
      · intro hl
        have := hlB hl
        have h2 := congrArg Prod.snd hgrow
        simp only [growStep] at h2
        split at h2 <;> simp at h2 <;> omega
      · intro hl
        have := hnB hl
        have h2 := congrArg Prod.snd hgrow
        simp only [growStep] at h2
        split at h2 <;> simp at h2 <;> omega
      · intro x' w' rs' view' n' hx' ho' hm' hg' hf' hcl hll
        refine hQ x' w' rs' view' n' ?_ ?_ hm' ?_ hf' (by simp only [List.length_cons]; omega) ?_
        · refine { hx' with filed := ?_ }
          intro j hj
          refine (hx'.filed j hj).perm (List.Perm.filter _ ?_)
          simp only [newEntries, List.map_cons]
          exact List.perm_middle.symm
        · intro q hq
          rcases List.mem_cons.mp hq with rfl | hq
          · exact hoff
          · exact ho' q hq
        · rw [hg', hgrow]; rfl
        · simp only [List.length_cons]
          rw [hmul]
          rw [encRecs_append, List.length_append, List.length_append] at hll
          simp only [List.length_append] at hll ⊢
          omega

end

end NuDB
