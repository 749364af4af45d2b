import Verif.Proof.VerifyAccept
/- `verify` accepts well formed databases: the fast algorithm and the whole function. -/
namespace NuDB

open Spec

section
variable {σ : Schedule} {c : Cfg} {kh : KeyHeader} {df kf : FileSt} {nwork : Nat} {T : Nat → List Bytes}

/-- The overflow buckets behind a link, with their table entries in order. -/
theorem tot_fastCount {Q : Bkt × Nat × Nat × Info → World → Prop} (h104 : 104 ≤ kh.blockSize) (fuel : Nat) :
    ∀ {spill : Nat} {ts : List Bytes} {tmp : Bkt} {nkeys nspill : Nat} {info : Info} {w : World}, w.fs .dat = some df → TmpOk kh tmp →
    Behind df.cur (bucketBytes kh.blockSize) spill ts → GoodChain kh.blockSize ts → ts.length < fuel →
    (∀ tmp' nspill' info' w', Quiet w w' → TmpOk kh tmp' → Q (tmp', nkeys + chainKeys ts, nspill', info') w') →
    tot σ (fastCount fuel spill tmp nkeys nspill info) Q w := by
  induction fuel with
  | zero => intro spill ts tmp nkeys nspill info w _ _ _ _ h; omega
  | succ fuel ih =>
    intro spill ts tmp nkeys nspill info w hf ht hb hg hfu hQ
    unfold fastCount
    rcases hb with ⟨h0, rfl⟩ | ⟨h0, hr, hch⟩
    · rw [if_neg (by simpa using h0)]
      apply wp_ret
      have := hQ tmp nspill info w (Quiet.refl w) ht
      simpa [chainKeys] using this
    · rw [if_pos h0]
      obtain ⟨t, rfl⟩ := hch.head
      have hgb := hg _ (List.mem_cons_self ..)
      apply wp_bind
      apply tot_shortAs
      apply tot_readFile (f := df) hf (by rw [ht.bs]; exact h104) (by rw [ht.bs, ht.plen]; exact Nat.le_refl _)
        (by rw [ht.bs]; exact hr) (by rw [ht.bs]; exact hgb.room)
      intro b1 w1 q1 hld hbs hpl
      rw [ht.bs] at hld hbs
      have hbh : Behind df.cur (bucketBytes kh.blockSize) b1.spill t := by
        rw [hld.spill]
        cases hch with
        | last h => exact .inl ⟨h, rfl⟩
        | more h1 h2 h3 => exact .inr ⟨h1, h2, h3⟩
      apply ih (by rw [q1.fs]; exact hf) ⟨hbs, hpl.trans ht.plen⟩ hbh (fun x hx => hg x (by simp [hx])) (by simp at hfu; omega)
      intro tmp' nspill' info' w' q' ht'
      have e : nkeys + b1.size + chainKeys t = nkeys + chainKeys (bytesAt df.cur spill (bucketBytes kh.blockSize) :: t) := by
        rw [hld.size]; simp [chainKeys]; omega
      rw [e]
      exact hQ _ _ _ _ (q1.trans q') ht'

theorem tot_fastCounts {mem : Bytes} {b0 bn : Nat} {Q : Bkt × List Nat × Info → World → Prop} (hT : GoodTable kh df.cur kf.cur T)
    (hb : b0 + bn ≤ kh.buckets) (hmem : Buffered kh kf.cur mem b0 bn) (k : Nat) :
    ∀ {i : Nat} {tmp : Bkt} {info : Info} {w : World}, i + k ≤ bn → w.fs .dat = some df → TmpOk kh tmp →
    (∀ l tmp' info' w', Quiet w w' → l.length = k → (∀ j, j < k → l.getD j 0 = chainKeys (T (b0 + i + j))) → TmpOk kh tmp' →
      Q (tmp', l, info') w') →
    tot σ (fastCounts kh.blockSize mem k i tmp info) Q w := by
  induction k generalizing Q with
  | zero =>
    intro i tmp info w hi hf ht hQ
    unfold fastCounts
    exact wp_ret (hQ [] tmp _ w (Quiet.refl w) rfl (by intro j hj; omega) ht)
  | succ k ih =>
    intro i tmp info w hi hf ht hQ
    have h104 := hT.h104
    have hlt : b0 + i < kh.buckets := by omega
    have hpf := hmem.2 i (by omega)
    obtain ⟨b1, b2⟩ := hT.block hlt
    have hbl : (bytesAt kf.cur ((b0 + i + 1) * kh.blockSize) (bucketBytes kh.blockSize)).length = bucketBytes kh.blockSize := bytesAt_len b1
    have h8 : 8 ≤ bucketBytes kh.blockSize := by unfold bucketBytes; omega
    have hsl : 8 ≤ (slice mem (i * kh.blockSize) kh.blockSize).length := by
      have := hpf.length_le
      omega
    unfold fastCounts
    obtain ⟨b, hb1, hb2, hb3⟩ := ofMem_any (bs := kh.blockSize) (p := slice mem (i * kh.blockSize) kh.blockSize) hsl
    obtain ⟨_, _, hsz, hsp⟩ := ofMem_loaded hb1 hpf (by omega)
    apply wp_bind
    apply wp_lift_ok hb1
    apply wp_bind
    apply tot_lookupFuel (f := df) hf
    apply wp_bind
    have hch := hT.chain _ hlt
    have hfu := hT.fuel _ hlt
    have hgd := hT.good _ hlt
    obtain ⟨ts, hts⟩ := hch.head
    have hbh : Behind df.cur (bucketBytes kh.blockSize) b.spill ts := by
      rw [hsp]
      rw [hts] at hch
      cases hch with
      | last h => exact .inl ⟨h, rfl⟩
      | more h1 h2 h3 => exact .inr ⟨h1, h2, h3⟩
    apply tot_fastCount h104 _ hf ht hbh (fun x hx => hgd x (by rw [hts]; simp [hx])) (by rw [hts] at hfu; simp at hfu; omega)
    intro tmp1 nsp info1 w1 q1 ht1
    dsimp only
    apply wp_bind
    apply ih (i := i + 1) (by omega) (by rw [q1.fs]; exact hf) ht1
    intro l tmp2 info2 w2 q2 hl hlj ht2
    apply wp_ret
    refine hQ _ tmp2 info2 w2 (q1.trans q2) (by simp [hl]) ?_ ht2
    intro j hj
    cases j with
    | zero =>
      rw [Nat.add_zero, hts, hsz]
      simp [chainKeys]
    | succ j =>
      have := hlj j (by omega)
      rw [show b0 + i + (j + 1) = b0 + (i + 1) + j by omega]
      simpa using this


theorem tot_fastStep {b0 b1 work : Nat} {mem : Bytes} {tmp : Bkt} {nkeys : List Nat} {r : Reader} {info : Info} {pre post : Bytes} {x : Record} {w : World}
    {Q : Bkt × List Nat × Reader × Info → World → Prop} (hT : GoodTable kh df.cur kf.cur T)
    (hmem : Buffered kh kf.cur mem b0 (b1 - b0)) (hf : w.fs .dat = some df) (ht : TmpOk kh tmp)
    (hs : FastAt df r pre.length) (hD : df.cur = pre ++ (x.bytes ++ post)) (hok : x.Ok kh.keySize) (hz : SpillSizes [x])
    (hi : Indexed c kh T ((located pre.length [x]).map (fun y => (y.1, y.2.1))))
    (hn : ∀ j, j < b1 - b0 → homeCount c kh (b0 + j) [x] ≤ nkeys.getD j 0) (hnl : nkeys.length = b1 - b0)
    (hQ : ∀ tmp' nkeys' r' info' w', w'.fs = w.fs → TmpOk kh tmp' → FastAt df r' (pre ++ x.bytes).length → nkeys'.length = b1 - b0 →
      (∀ j, j < b1 - b0 → nkeys'.getD j 0 + homeCount c kh (b0 + j) [x] = nkeys.getD j 0) → Q (tmp', nkeys', r', info') w') :
    tot σ (fastStep c kh b0 b1 work nwork mem tmp nkeys r info) Q w := by
  have h104 := hT.h104
  have a3 := hs.pos
  have a0 := hs.last
  have hlen := congrArg List.length hD
  unfold fastStep
  dsimp only
  cases x with
  | value k v =>
    obtain ⟨hkl, hv1, hv2⟩ := hok
    rw [value_record] at hlen
    simp only [List.length_append, putU48_length] at hlen
    have hblen : (Record.value k v).bytes.length = 6 + (kh.keySize + v.length) := by
      rw [value_record]; simp [hkl]
    apply wp_bind
    apply tot_shortAs
    apply tot_prepare (f := df) (by rw [hs.path]; exact hf) hs.inv (by omega)
    intro r1 w1 n1 q1
    have a1 := n1.pos
    have a1' := n1.last
    apply wp_bind
    rw [hs.pos]
    have e1 : slice df.cur pre.length 6 = putU48 v.length := by
      rw [hD, value_record, List.append_assoc]
      exact slice_mid' rfl (by simp)
    rw [e1]
    apply wp_lift_ok (getSize48_ok hv2)
    dsimp only
    rw [if_pos (by omega)]
    apply wp_bind
    apply tot_shortAs
    apply tot_prepare (f := df) (by rw [n1.path, hs.path, q1.fs]; exact hf) n1.inv (by omega)
    intro r2 w2 n2 q2
    have a2 := n2.pos
    have hat : FastAt df r2 (pre ++ (Record.value k v).bytes).length :=
      ⟨n2.inv, n2.path.trans (n1.path.trans hs.path), n2.last.trans (n1.last.trans hs.last), by
        rw [List.length_append, hblen]; omega⟩
    have e2 : (slice df.cur r1.pos (kh.keySize + v.length)).take kh.keySize = k := by
      rw [n1.pos, hs.pos, hD, value_record]
      rw [show pre ++ (putU48 v.length ++ (k ++ v) ++ post) = (pre ++ putU48 v.length) ++ ((k ++ v) ++ post) by simp,
        slice_mid' (by simp) (by simp [hkl]), ← hkl]
      simp
    dsimp only
    rw [e2]
    apply wp_bind
    apply wp_lift_ok (bucketIndexA_ok hT.mod)
    show tot σ _ Q w2
    have hhome : bucketIndex (hashKey c.H kh.salt k) kh.buckets kh.modulus = homeOf c kh k := rfl
    rw [hhome]
    by_cases hin : homeOf c kh k < b0 ∨ homeOf c kh k ≥ b1
    · rw [if_pos hin]
      apply wp_ret
      refine hQ tmp nkeys r2 _ _ (by rw [q2.fs, q1.fs]) ht hat hnl ?_
      intro j hj
      have : homeCount c kh (b0 + j) [.value k v] = 0 := by
        simp only [homeCount, values, List.filterMap_cons, List.filterMap_nil, List.filter_cons, List.filter_nil]
        rw [if_neg (by simp; omega)]
        rfl
      omega
    · rw [if_neg hin]
      have hii : homeOf c kh k - b0 < b1 - b0 := by omega
      have hni : b0 + (homeOf c kh k - b0) = homeOf c kh k := by omega
      obtain ⟨hlt, hit⟩ := hi (pre.length, k) (by simp [located])
      dsimp only at hlt hit
      have hpf := hmem.2 _ hii
      obtain ⟨b1, b2⟩ := hT.block hlt
      have hbl := bytesAt_len b1
      rw [hni] at hpf
      have hpf2 := prefix_append_left (t := tmp.p) hpf
      have h8 : 8 ≤ bucketBytes kh.blockSize := by unfold bucketBytes; omega
      obtain ⟨b, hb1, hb2, hb3⟩ := ofMem_any (bs := kh.blockSize) (p := mem.drop ((homeOf c kh k - b0) * kh.blockSize) ++ tmp.p)
        (by have := hpf2.length_le; omega)
      obtain ⟨_, _, hsz, hsp⟩ := ofMem_loaded hb1 hpf2 (by omega)
      have hld : Loaded b (bytesAt kf.cur ((homeOf c kh k + 1) * kh.blockSize) (bucketBytes kh.blockSize)) :=
        ⟨by rw [hb3]; exact hpf2, hsz, hsp, by
          rw [hbl, hsz]
          have := b2.room
          have : bucketBytes kh.blockSize = 8 + 18 * ((kh.blockSize - 8) / 18) := rfl
          omega⟩
      apply wp_bind
      apply wp_lift_ok hb1
      apply wp_bind
      apply tot_lookupFuel (f := df) (by rw [q2.fs, q1.fs]; exact hf)
      apply wp_bind
      apply tot_seekValueFast (df := df) (cs := T (homeOf c kh k)) _ (by rw [q2.fs, q1.fs]; exact hf) hld (by rw [ht.bs]; exact h104)
        (by rw [ht.bs, ht.plen]; exact Nat.le_refl _) (by rw [ht.bs]; exact hT.chain _ hlt) (by rw [ht.bs]; exact hT.good _ hlt) (hT.fuel _ hlt) hit
      intro f p w3 q3 hp
      dsimp only
      have hk1 := hn _ hii
      rw [hni] at hk1
      have hc1 : homeCount c kh (homeOf c kh k) [.value k v] = 1 := by
        simp [homeCount, values]
      rw [if_neg (by omega)]
      apply wp_bind
      apply wp_emit
      apply wp_ret
      refine hQ _ _ r2 _ _ (by show w3.fs = _; rw [q3.fs, q2.fs, q1.fs]) ⟨ht.bs, hp.trans ht.plen⟩ hat (by simp [hnl]) ?_
      intro j hj
      simp only [homeCount, values, List.filterMap_cons, List.filterMap_nil, List.filter_cons, List.filter_nil]
      by_cases hjn : j = homeOf c kh k - b0
      · subst hjn
        rw [if_pos (by simp; omega)]
        simp only [List.getD_eq_getElem?_getD, List.getElem?_set_self (by omega : homeOf c kh k - b0 < nkeys.length), List.length_singleton, Option.getD_some] at hk1 ⊢
        omega
      · rw [if_neg (by simp; omega)]
        simp only [List.getD_eq_getElem?_getD, List.getElem?_set_ne (Ne.symm hjn), List.length_nil, Nat.add_zero]
  | overflow body =>
    have hb16 : body.length < 2 ^ 16 := hok
    rw [overflow_record] at hlen
    simp only [List.length_append, putU48_length, putU16_length] at hlen
    have hblen : (Record.overflow body).bytes.length = 6 + (2 + body.length) := by
      rw [overflow_record]; simp
    apply wp_bind
    apply tot_shortAs
    apply tot_prepare (f := df) (by rw [hs.path]; exact hf) hs.inv (by omega)
    intro r1 w1 n1 q1
    have a1 := n1.pos
    have a1' := n1.last
    apply wp_bind
    rw [hs.pos]
    have e1 : slice df.cur pre.length 6 = putU48 0 := by
      rw [hD, overflow_record, List.append_assoc]
      exact slice_mid' rfl (by simp)
    rw [e1]
    apply wp_lift_ok (getSize48_ok (by omega))
    dsimp only
    rw [if_neg (by omega)]
    apply wp_bind
    apply tot_shortAs
    apply tot_prepare (f := df) (by rw [n1.path, hs.path, q1.fs]; exact hf) n1.inv (by omega)
    intro r2 w2 n2 q2
    have a2 := n2.pos
    have a2' := n2.last
    have e2 : slice df.cur r1.pos 2 = putU16 body.length := by
      rw [a1, a3, hD, overflow_record]
      rw [show pre ++ (putU48 0 ++ (putU16 body.length ++ body) ++ post) =
        (pre ++ putU48 0) ++ (putU16 body.length ++ (body ++ post)) by simp]
      exact slice_mid' (by simp) (by simp)
    dsimp only
    rw [e2, getU16_putU16 hb16]
    rw [if_neg (by simpa using hz body (by simp [overflows]))]
    apply wp_bind
    apply tot_shortAs
    apply tot_prepare (f := df) (by rw [n2.path, n1.path, hs.path, q2.fs, q1.fs]; exact hf) n2.inv (by omega)
    intro r3 w3 n3 q3
    have a4 := n3.pos
    dsimp only
    apply wp_bind
    apply wp_emit
    apply wp_ret
    refine hQ tmp nkeys r3 _ _ (by show w3.fs = _; rw [q3.fs, q2.fs, q1.fs]) ht
      ⟨n3.inv, n3.path.trans (n2.path.trans (n1.path.trans hs.path)), n3.last.trans (n2.last.trans (n1.last.trans hs.last)), by
        rw [List.length_append, hblen]; omega⟩ hnl ?_
    intro j hj
    simp [homeCount, values]

theorem tot_fastScan {b0 b1 work : Nat} {mem : Bytes} {Q : Bkt × List Nat × Info → World → Prop} (hT : GoodTable kh df.cur kf.cur T)
    (hmem : Buffered kh kf.cur mem b0 (b1 - b0)) (rs : List Record) :
    ∀ {fuel : Nat} {tmp : Bkt} {nkeys : List Nat} {r : Reader} {info : Info} {pre : Bytes} {w : World}, w.fs .dat = some df →
    TmpOk kh tmp → FastAt df r pre.length → df.cur = pre ++ layout rs → (∀ x ∈ rs, x.Ok kh.keySize) → SpillSizes rs →
    Indexed c kh T ((located pre.length rs).map (fun y => (y.1, y.2.1))) → rs.length < fuel →
    (∀ j, j < b1 - b0 → nkeys.getD j 0 = homeCount c kh (b0 + j) rs) → nkeys.length = b1 - b0 →
    (∀ tmp' nkeys' info' w', w'.fs = w.fs → TmpOk kh tmp' → nkeys'.any (· ≠ 0) = false → Q (tmp', nkeys', info') w') →
    tot σ (fastScan c kh b0 b1 work nwork mem fuel tmp nkeys r info) Q w := by
  induction rs with
  | nil =>
    intro fuel tmp nkeys r info pre w hf ht hs hD hok hz hi hfu hn hnl hQ
    cases fuel with
    | zero => simp at hfu
    | succ fuel =>
      unfold fastScan
      rw [if_pos]
      · refine wp_ret (hQ _ _ _ _ rfl ht ?_)
        rw [List.any_eq_false]
        intro y hy
        obtain ⟨j, hj, rfl⟩ := List.getElem_of_mem hy
        have := hn j (by omega)
        rw [List.getD_eq_getElem?_getD, List.getElem?_eq_getElem hj] at this
        simpa [homeCount, values] using this
      · unfold Reader.eof
        rw [hs.pos, hs.last, hD]
        simp [layout]
  | cons x rs ih =>
    intro fuel tmp nkeys r info pre w hf ht hs hD hok hz hi hfu hn hnl hQ
    cases fuel with
    | zero => simp at hfu
    | succ fuel =>
      have hD1 : df.cur = pre ++ (x.bytes ++ layout rs) := by rw [hD, layout_cons]
      have hD2 : df.cur = (pre ++ x.bytes) ++ layout rs := by rw [hD1, List.append_assoc]
      have hp := record_pos x
      have hov : overflows (x :: rs) = overflows [x] ++ overflows rs := by
        rw [show x :: rs = [x] ++ rs from rfl]; simp only [overflows, List.filterMap_append]
      have hz1 : SpillSizes [x] := fun b hb => hz b (by rw [hov]; exact List.mem_append_left _ hb)
      have hz2 : SpillSizes rs := fun b hb => hz b (by rw [hov]; exact List.mem_append_right _ hb)
      rw [located_cons, List.map_append] at hi
      unfold fastScan
      rw [if_neg]
      · apply wp_bind
        apply tot_fastStep hT hmem hf ht hs hD1 (hok x (by simp)) hz1 (fun y hy => hi y (List.mem_append_left _ hy)) _ hnl
        · intro tmp' nkeys' r' info' w' hfs ht' hat hnl' hn'
          apply ih (by rw [hfs]; exact hf) ht' hat hD2 (fun y hy => hok y (by simp [hy])) hz2
            (by rw [List.length_append]; exact fun y hy => hi y (List.mem_append_right _ hy)) (by simp at hfu; omega) _ hnl'
          · intro tmp2 nkeys2 info2 w2 h1 h2 h3
            exact hQ _ _ _ _ (h1.trans hfs) h2 h3
          · intro j hj
            have h1 := hn' j hj
            have h2 := hn j hj
            rw [homeCount_cons] at h2
            omega
        · intro j hj
          have h2 := hn j hj
          rw [homeCount_cons] at h2
          omega
      · unfold Reader.eof
        rw [hs.pos, hs.last, hD1]
        simp only [List.length_append, decide_eq_true_eq]
        omega

theorem layout_len (rs : List Record) : rs.length ≤ (layout rs).length := by
  induction rs with
  | nil => simp
  | cons x ls ih =>
    have := record_pos x
    rw [layout_cons, List.length_append, List.length_cons]
    omega

theorem tot_fastChunks {chunk : Nat} {Q : Info → World → Prop} {rs : List Record} (h92 : 92 ≤ df.cur.length) (hch : 1 ≤ chunk)
    (hT : GoodTable kh df.cur kf.cur T) (hD : df.cur = df.cur.take 92 ++ layout rs) (hok : ∀ x ∈ rs, x.Ok kh.keySize) (hz : SpillSizes rs)
    (hi : Indexed c kh T ((located 92 rs).map (fun y => (y.1, y.2.1))))
    (hc : ∀ n, n < kh.buckets → homeCount c kh n rs = chainKeys (T n))
    (fuel : Nat) : ∀ {b0 work : Nat} {mem : Bytes} {tmp : Bkt} {info : Info} {w : World}, w.fs .dat = some df → w.fs .key = some kf →
    TmpOk kh tmp → mem.length = chunk * kh.blockSize → kh.buckets - b0 < fuel →
    (∀ info' w', w'.fs = w.fs → Q info' w') →
    tot σ (fastChunks c kh df.cur.length chunk nwork fuel b0 work mem tmp info) Q w := by
  induction fuel generalizing Q with
  | zero => intro b0 work mem tmp info w _ _ _ _ h; omega
  | succ fuel ih =>
    intro b0 work mem tmp info w hf hk ht hm hfu hQ
    have h104 := hT.h104
    unfold fastChunks
    split
    · rename_i hb
      dsimp only
      generalize hb1 : min (b0 + chunk) kh.buckets = b1
      have hlt : b0 < b1 := by omega
      have hle : b1 ≤ kh.buckets := by omega
      have hrd : (b0 + 1) * kh.blockSize + (b1 - b0) * kh.blockSize ≤ kf.cur.length := by
        have h1 := hT.len
        rw [← Nat.add_mul, show b0 + 1 + (b1 - b0) = b1 + 1 by omega]
        have : (b1 + 1) * kh.blockSize ≤ (kh.buckets + 1) * kh.blockSize := Nat.mul_le_mul_right _ (by omega)
        omega
      have hdl : (slice kf.cur ((b0 + 1) * kh.blockSize) ((b1 - b0) * kh.blockSize)).length = (b1 - b0) * kh.blockSize :=
        slice_length_of_le hrd
      have hml : (b1 - b0) * kh.blockSize ≤ mem.length := by
        rw [hm]; exact Nat.mul_le_mul_right _ (by omega)
      apply wp_bind
      apply tot_fRead hk hrd
      apply wp_bind
      apply wp_lift_ok (poke_ok (by omega))
      have hm1 : (put mem 0 (slice kf.cur ((b0 + 1) * kh.blockSize) ((b1 - b0) * kh.blockSize))).length = mem.length := put_length (by omega)
      have hbl : bucketBytes kh.blockSize ≤ kh.blockSize := by unfold bucketBytes; omega
      have hbuf : Buffered kh kf.cur (put mem 0 (slice kf.cur ((b0 + 1) * kh.blockSize) ((b1 - b0) * kh.blockSize))) b0 (b1 - b0) := by
        refine ⟨by omega, ?_⟩
        intro i hi
        have h1 : (i + 1) * kh.blockSize ≤ (b1 - b0) * kh.blockSize := Nat.mul_le_mul_right _ hi
        have h3 : (i + 1) * kh.blockSize = i * kh.blockSize + kh.blockSize := Nat.succ_mul _ _
        have e : slice (put mem 0 (slice kf.cur ((b0 + 1) * kh.blockSize) ((b1 - b0) * kh.blockSize))) (i * kh.blockSize) kh.blockSize =
            slice kf.cur ((b0 + i + 1) * kh.blockSize) kh.blockSize := by
          unfold put
          simp only [List.take_zero, List.nil_append]
          rw [slice_append_left (by omega), slice_slice (by omega)]
          congr 1
          rw [← Nat.add_mul]; congr 1; omega
        rw [e, bytesAt_eq, ← take_slice hbl]
        exact List.take_prefix _ _
      apply wp_bind
      apply wp_emit
      apply wp_bind
      apply tot_fastCounts (i := 0) hT (by omega) hbuf (b1 - b0) (by omega) (by exact hf) ht
      intro l tmp1 info1 w1 q1 hll hlj ht1
      dsimp only
      apply wp_bind
      have hp92 : (df.cur.take 92).length = 92 := by simp; omega
      have hfs1 : w1.fs = w.fs := by rw [q1.fs]; rfl
      have hlay := layout_len rs
      have hlen2 := congrArg List.length hD
      rw [List.length_append, hp92] at hlen2
      apply tot_fastScan (df := df) (kf := kf) (pre := df.cur.take 92) hT hbuf rs (by rw [hfs1]; exact hf) ht1
        ⟨rinv_new c _ (Nat.le_refl _) h92, rfl, rfl, by rw [hp92]; rfl⟩ hD hok hz (by rw [hp92]; exact hi) (by omega) _ hll
      · intro tmp2 nkeys2 info2 w2 hfs2 ht2 hany
        dsimp only
        rw [if_neg (by rw [hany]; simp)]
        apply ih (by rw [hfs2, hfs1]; exact hf) (by rw [hfs2, hfs1]; exact hk) ht2 (hm1.trans hm) (by omega)
        intro info' w' hfs'
        exact hQ _ _ (by rw [hfs', hfs2, hfs1])
      · intro j hj
        rw [hlj j hj, hc _ (by omega)]
        simp
    · exact wp_ret (hQ _ _ rfl)

theorem tot_verifyFast {n : Nat} {Q : Info → World → Prop} {rs : List Record} {w : World} (h92 : 92 ≤ df.cur.length) (hB : 1 ≤ kh.buckets)
    (hn : fastChunk kh n ≠ 0) (hT : GoodTable kh df.cur kf.cur T) (hD : df.cur = df.cur.take 92 ++ layout rs) (hok : ∀ x ∈ rs, x.Ok kh.keySize)
    (hz : SpillSizes rs) (hi : Indexed c kh T ((located 92 rs).map (fun y => (y.1, y.2.1))))
    (hc : ∀ n, n < kh.buckets → homeCount c kh n rs = chainKeys (T n))
    (hf : w.fs .dat = some df) (hk : w.fs .key = some kf) (hQ : ∀ info' w', w'.fs = w.fs → Q info' w') :
    tot σ (verifyFast c kh df.cur.length kf.cur.length n) Q w := by
  have h104 := hT.h104
  have hnn : ¬ n < 2 * kh.blockSize + 8 := by
    intro h
    apply hn
    unfold fastChunk
    rw [if_neg (by omega)]
  unfold verifyFast
  rw [if_neg hnn]
  dsimp only
  apply wp_bind
  apply wp_emit
  have hl : ((c.fresh ((fastChunk kh n + 1) * kh.blockSize)).drop (fastChunk kh n * kh.blockSize)).length = kh.blockSize := by
    simp only [Cfg.fresh, List.length_drop, List.length_map, List.length_range, Nat.succ_mul]
    omega
  have hm : ((c.fresh ((fastChunk kh n + 1) * kh.blockSize)).take (fastChunk kh n * kh.blockSize)).length = fastChunk kh n * kh.blockSize := by
    simp only [Cfg.fresh, List.length_take, List.length_map, List.length_range, Nat.succ_mul]
    omega
  obtain ⟨b, hb1, hb2, hb3⟩ := ofMem_any (bs := kh.blockSize) (by rw [hl]; omega)
  apply wp_bind
  apply wp_lift_ok hb1
  apply tot_fastChunks (df := df) (kf := kf) h92 (by omega) hT hD hok hz hi hc _ (by exact hf) (by exact hk)
    ⟨hb2, by rw [hb3]; exact hl⟩ hm (by omega)
  intro info' w' hfs
  exact hQ _ _ hfs

theorem tot_verify {n : Nat} {Q : Info → World → Prop} {w : World} (hh : Heads c df.cur kf.cur kh) (hf : w.fs .dat = some df) (hk : w.fs .key = some kf)
    (hn : ∀ w', w'.fs = w.fs → chooseNormal kh df.cur.length kf.cur.length n = true →
      tot σ (verifyNormal c kh df.cur.length kf.cur.length) Q w')
    (hs : ∀ w', w'.fs = w.fs → chooseNormal kh df.cur.length kf.cur.length n = false →
      tot σ (verifyFast c kh df.cur.length kf.cur.length n) Q w') : tot σ (verify c n) Q w := by
  have h92 := hh.dlen
  have h104 := hh.klen
  obtain rfl := hh.head
  unfold verify
  apply wp_bind
  apply wp_fOpen hf _ (by exact fun x hx hy => ⟨hx, hy⟩)
  apply wp_bind
  apply wp_fOpen (by exact hk) _ (by exact fun x hx hy => ⟨hx, hy⟩)
  apply wp_bind
  unfold readDatHeader
  apply wp_bind
  apply tot_fRead (f := df) (by exact hf) (by simp only [datHeaderSize]; omega)
  apply wp_ret
  apply wp_bind
  apply wp_check_ok (by exact hh.dat)
  apply wp_bind
  unfold readKeyHeader
  apply wp_bind
  apply tot_fRead (f := kf) (by exact hk) (by simp only [keyHeaderSize]; omega)
  apply wp_bind
  apply wp_fSize (by exact hk) _ (by exact fun x hx hy => ⟨hx, hy⟩)
  apply wp_ret
  apply wp_bind
  apply wp_check_ok (by exact hh.key)
  apply wp_bind
  apply wp_check_ok (by exact hh.both)
  apply wp_bind
  apply wp_fSize (by exact hk) _ (by exact fun x hx hy => ⟨hx, hy⟩)
  apply wp_bind
  apply wp_fSize (by exact hf) _ (by exact fun x hx hy => ⟨hx, hy⟩)
  split
  · rename_i hc
    exact hn _ rfl hc
  · rename_i hc
    exact hs _ rfl (Bool.not_eq_true _ ▸ hc)

end

end NuDB
