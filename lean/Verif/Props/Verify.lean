import Verif.Proof.VerifyAccept2
import Verif.Props.Conform
import Verif.Props.Rekey
/-
C33, C34, C35, C46 (third part): `verify`.
-/
namespace NuDB

open Spec

variable {c : Cfg} {a : CreateArgs} {lf : Nat} {short : Prop} {t : List Label} {fs : Fs}

/-! ### The counters -/

theorem tabled_counts (cs : List (List Bytes)) : ∀ i : Info,
    (i.tabled cs).keyCount = i.keyCount + (cs.map chainKeys).sum ∧
    (i.tabled cs).spillCount = i.spillCount + (cs.map (fun bs => bs.length - 1)).sum ∧
    (i.tabled cs).spillBytes = i.spillBytes + (cs.map chainBytes).sum ∧
    (i.tabled cs).valueCount = i.valueCount ∧ (i.tabled cs).valueBytes = i.valueBytes ∧
    (i.tabled cs).spillCountTot = i.spillCountTot ∧ (i.tabled cs).spillBytesTot = i.spillBytesTot ∧
    (i.tabled cs).algorithm = i.algorithm := by
  induction cs with
  | nil => intro i; simp [Info.tabled]
  | cons bs cs ih =>
    intro i
    unfold Info.tabled
    obtain ⟨h1, h2, h3, h4⟩ := ih { i.chained bs with hist := bumpHist i.hist (bs.length - 1) }
    refine ⟨?_, ?_, ?_, h4⟩
    · rw [h1]; simp [Info.chained]; omega
    · rw [h2]; simp [Info.chained]; omega
    · rw [h3]; simp [Info.chained]; omega

theorem tabled_hist (cs : List (List Bytes)) : ∀ i : Info, i.hist.length = 10 →
    (i.tabled cs).hist = (List.range 10).map (fun j => i.hist.getD j 0 + (cs.filter (fun bs => min (bs.length - 1) 9 == j)).length) := by
  induction cs with
  | nil =>
    intro i hi
    apply List.ext_getElem (by simp [Info.tabled, hi])
    intro j h1 h2
    simp only [Info.tabled] at h1 ⊢
    simp [h1]
  | cons bs cs ih =>
    intro i hi
    unfold Info.tabled
    have hb : (bumpHist i.hist (bs.length - 1)).length = 10 := by simp [bumpHist, hi]
    rw [ih _ hb]
    apply List.map_congr_left
    intro j hj
    have hj : j < 10 := List.mem_range.1 hj
    have e : (if bs.length - 1 ≥ 10 then 10 - 1 else bs.length - 1) = min (bs.length - 1) 9 := by split <;> omega
    show (bumpHist i.hist (bs.length - 1)).getD j 0 + _ = _
    unfold bumpHist
    simp only [hi, e]
    rw [List.filter_cons, List.getD_eq_getElem?_getD, List.getElem?_set]
    by_cases hm : min (bs.length - 1) 9 = j
    · rw [if_pos hm, if_pos (by omega), if_pos (by simpa using hm), List.length_cons, hm]
      simp only [Option.getD_some]; omega
    · rw [if_neg hm, if_neg (by simpa using hm), List.getD_eq_getElem?_getD]

theorem Chains.unique {D K : Bytes} {bs n : Nat} {cs ds : List (List Bytes)} (h : Chains D K bs n cs) (h' : Chains D K bs n ds)
    (hl : cs.length = ds.length) : cs = ds := by
  induction h generalizing ds with
  | nil => exact (List.length_eq_zero_iff.1 hl.symm).symm
  | cons h _ ih =>
    cases h' with
    | nil => simp at hl
    | cons h' ht' => rw [h.unique h', ih ht' (by simpa using hl)]

theorem within_all {kh : KeyHeader} {rs : List Record} (h : ∀ k, homeOf c kh k < kh.buckets) : within c kh 0 kh.buckets rs = values rs := by
  unfold within
  rw [List.filter_eq_self]
  intro p _
  simpa using h p.1

theorem sum_homes {kh : KeyHeader} {rs : List Record} (h : ∀ k, homeOf c kh k < kh.buckets) :
    ((List.range kh.buckets).map (fun n => homeCount c kh n rs)).sum = (values rs).length := by
  unfold homeCount
  have key : ∀ (l : List (Bytes × Bytes)) (B : Nat),
      ((List.range B).map (fun n => (l.filter (fun p => homeOf c kh p.1 == n)).length)).sum =
        (l.filter (fun p => homeOf c kh p.1 < B)).length := by
    intro l B
    induction B with
    | zero => simp [List.filter_eq_nil_iff.2]
    | succ B ih =>
      rw [List.range_succ, List.map_append, List.sum_append, ih]
      simp only [List.map_cons, List.map_nil, List.sum_cons, List.sum_nil, Nat.add_zero]
      clear ih
      induction l with
      | nil => rfl
      | cons p l ih =>
        simp only [List.filter_cons]
        by_cases h1 : homeOf c kh p.1 < B
        · have h2 : ¬ homeOf c kh p.1 = B := by omega
          have h3 : homeOf c kh p.1 < B + 1 := by omega
          simp only [h1, h2, h3, decide_true, decide_false, if_true, beq_iff_eq, if_false, List.length_cons]
          omega
        · by_cases h2 : homeOf c kh p.1 = B
          · have h3 : homeOf c kh p.1 < B + 1 := by omega
            simp only [h1, h2, h3, decide_true, decide_false, if_true, beq_iff_eq, List.length_cons, Bool.false_eq_true, if_false]
            simp only [Nat.lt_irrefl, Nat.lt_succ_self, decide_true, decide_false, if_true, Bool.false_eq_true, if_false, List.length_cons]
            omega
          · have h3 : ¬ homeOf c kh p.1 < B + 1 := by omega
            simp only [h1, h2, h3, decide_false, beq_iff_eq, Bool.false_eq_true, if_false]
            exact ih
  rw [key, List.filter_eq_self.2]
  intro p _
  simpa using h p.1

/-- `verify` on a well formed database. -/
theorem verify_counts {cf : Conf} {D K : Bytes} {recs : List Rec} {B : Nat} {view : View} {df kf : FileSt} {cs : List (List Bytes)}
    {σ : Schedule} {w : World} {n : Nat}
    (h : Db c cf D K recs B view) (hf : w.fs .dat = some df) (hk : w.fs .key = some kf) (hd : df.cur = D) (hkk : kf.cur = K)
    (hcs : Chains D K cf.blockSize 0 cs) (hl : cs.length = B) (hkeys : (cs.map chainKeys).sum = (values (recs.map Rec.toRecord)).length)
    {g : Nat → Bytes → Nat} (hg : Costing c (cf.kh c.H B) D K g)
    (hcost : costSum g (located 92 (recs.map Rec.toRecord)) = (cs.map chainCost).sum) :
    pc σ (verify c n) (fun info _ => Counted (recs.map Rec.toRecord) cs info) w := by
  subst hd hkk
  have hh := h.heads
  obtain ⟨hp, _⟩ := h.parse
  have hhome : ∀ k, homeOf c (cf.kh c.H B) k < (cf.kh c.H B).buckets := by
    intro k
    have h1 := h.b1
    have h2 := h.b2
    exact (C21_in_range h1 (by omega) _).2.1
  apply pc_verify hf hk
  · intro kh w' hw hh' _
    obtain rfl : kh = cf.kh c.H B := by rw [hh'.head, hh.head]
    apply pc_verifyNormal hh (hw ▸ hf) (hw ▸ hk) (rs := recs.map Rec.toRecord) (rest := []) (by rw [List.append_nil]; exact hp)
      (fun x hx => ⟨h.recOk x hx, h.compact x hx⟩)
    intro info w'' ds hN _ _ hinfo
    obtain ⟨⟨f, rfl, hfe⟩, _⟩ := hinfo rfl
    obtain rfl := hN.chains.unique hcs (hN.len.trans hl.symm)
    obtain ⟨h1, h2, h3, h4, h5, h6, h7, h8⟩ := tabled_counts ds (Info.scanned { algorithm := 0 } (recs.map Rec.toRecord) f)
    refine ⟨?_, ?_, ?_, ?_, ?_, ?_, ?_, ?_, fun _ => ?_⟩
    rotate_left 7
    · rw [(tabled_rest _ _).2.2.2.2, ← hcost, ← hfe g hg]; rfl
    rotate_left 1
    · rw [h4]; simp [Info.scanned]
    · rw [h5]; simp [Info.scanned, valueSum]
    · rw [h1]; simp [Info.scanned, hkeys]
    · rw [h2]; simp [Info.scanned]
    · rw [h3]; simp [Info.scanned]
    · rw [h6]; simp [Info.scanned]
    · rw [tabled_hist _ _ rfl]
      apply List.map_congr_left
      intro j hj
      have hj : j < 10 := List.mem_range.1 hj
      have : (Info.scanned { algorithm := 0 } (recs.map Rec.toRecord) f).hist = List.replicate 10 0 := rfl
      rw [this, List.getD_eq_getElem?_getD, List.getElem?_replicate, if_pos hj]
      simp
    · rw [h7]; simp [Info.scanned, overflowSum]
  · intro kh w' hw hh' _
    obtain rfl : kh = cf.kh c.H B := by rw [hh'.head, hh.head]
    apply pc_verifyFast hh (hw ▸ hf) (hw ▸ hk)
    · intro n hn
      obtain ⟨ts, _, hg, _⟩ := h.bucket (n := n) hn
      exact (hg _ List.mem_cons_self).room
    · intro info w'' ds rs hdl hds hF hI
      obtain rfl : rs = recs.map Rec.toRecord :=
        layout_inj (ks := cf.keySize) _ hF.ok h.recOk (List.append_cancel_left (hF.parse.symm.trans hp))
      obtain rfl := hds.unique hcs (hdl.trans hl.symm)
      obtain ⟨h1, h2, h3, h4, h5, h6, h7, h8⟩ := tabled_counts ds ({ algorithm := 1 } : Info)
      refine ⟨?_, ?_, ?_, ?_, ?_, ?_, ?_, ?_, ?_⟩
      rotate_left 7
      · rw [hI.fetches g hg, ← hcost]
        have : withinAt c (cf.kh c.H B) 0 (cf.kh c.H B).buckets (located 92 (recs.map Rec.toRecord)) = located 92 (recs.map Rec.toRecord) := by
          rw [withinAt, List.filter_eq_self.2]
          intro y _
          simpa using hhome y.2.1
        rw [this]
        exact Nat.zero_add _
      rotate_left 1
      · rw [hI.valueCount, within_all hhome]; simp
      · rw [hI.valueBytes, within_all hhome]; simp
      · rw [hI.keyCount, h1]; simp [hkeys]
      · rw [hI.spillCount, h2]; simp
      · rw [hI.spillBytes, h3]; simp
      · rw [hI.spillCountTot]; simp
      · rw [hI.hist, tabled_hist _ _ rfl]
        apply List.map_congr_left
        intro j hj
        have hj : j < 10 := List.mem_range.1 hj
        have : ({ algorithm := 1 } : Info).hist = List.replicate 10 0 := rfl
        rw [this, List.getD_eq_getElem?_getD, List.getElem?_replicate, if_pos hj]
        simp
      · intro h0
        rw [hI.algorithm] at h0
        simp at h0

theorem keys_counted {cf : Conf} {D K : Bytes} {recs : List Rec} {B : Nat} {view : View} {T : Nat → List Bytes} (h : Db c cf D K recs B view)
    (hT : ∀ n, n < B → ((T n).flatMap itemsIn).Perm (((items c cf recs).map (·.1)).filter (inBucket B (ceilPow2 B) n))) :
    (((List.range B).map T).map chainKeys).sum = (values (recs.map Rec.toRecord)).length := by
  have hhome : ∀ k, homeOf c (cf.kh c.H B) k < (cf.kh c.H B).buckets := by
    intro k
    have h1 := h.b1
    have h2 := h.b2
    exact (C21_in_range h1 (by omega) _).2.1
  rw [← sum_homes hhome, List.map_map]
  congr 1
  apply List.map_congr_left
  intro n hn
  exact (h.counts hT n (List.mem_range.1 hn)).symm

/-- The fetches counted for the records. -/
theorem fetches_counted {cf : Conf} {D K : Bytes} {recs : List Rec} {B : Nat} {view : View} {T : Nat → List Bytes} (h : Db c cf D K recs B view)
    (hT : GoodTable (cf.kh c.H B) D K T)
    (hP : ∀ n, n < B → ((T n).flatMap itemsIn).Perm (((items c cf recs).map (·.1)).filter (inBucket B (ceilPow2 B) n))) :
    ∃ g, Costing c (cf.kh c.H B) D K g ∧
      costSum g (located 92 (recs.map Rec.toRecord)) = (((List.range B).map T).map chainCost).sum ∧
      ∀ o k, g o k = searchCost o (hashKey c.H cf.salt k) (T (homeOf c (cf.kh c.H B) k)) := by
  have hhome : ∀ k, homeOf c (cf.kh c.H B) k < B := by
    intro k
    have h1 := h.b1
    have h2 := h.b2
    exact (C21_in_range h1 (by omega) _).2.1
  refine ⟨fun o k => searchCost o (hashKey c.H cf.salt k) (T (homeOf c (cf.kh c.H B) k)), ?_, ?_, fun _ _ => rfl⟩
  · intro o k n hC
    refine hC.search (hT.chain _ (hhome k)) (fun b hb => ?_)
    have hg := (hT.good _ (hhome k) b hb).sorted
    rw [SortedBlk, List.pairwise_iff_getElem]
    intro i j hi hj hij
    simp only [itemsIn, List.length_map, List.length_range] at hi hj
    simpa [itemsIn] using hg i j (by omega) hj
  · have hn : ∀ n, n < B → chainCost (T n) = costSum (fun o k => searchCost o (hashKey c.H cf.salt k) (T (homeOf c (cf.kh c.H B) k)))
        ((located 92 (recs.map Rec.toRecord)).filter (fun y => homeOf c (cf.kh c.H B) y.2.1 == n)) := by
      intro n hn
      unfold chainCost costSum
      rw [((hP n hn).map _).sum_nat, h.listed, List.map_map]
      congr 1
      apply List.map_congr_left
      intro y hy
      have := (List.mem_filter.1 hy).2
      simp only [beq_iff_eq] at this
      simp only [Function.comp, this]
    rw [List.map_map]
    have e : (List.range B).map (chainCost ∘ T) = (List.range B).map (fun n => costSum (fun o k => searchCost o (hashKey c.H cf.salt k) (T (homeOf c (cf.kh c.H B) k)))
        ((located 92 (recs.map Rec.toRecord)).filter (fun y => homeOf c (cf.kh c.H B) y.2.1 == n))) := by
      apply List.map_congr_left
      intro n hnB
      exact hn n (List.mem_range.1 hnB)
    rw [e]
    generalize (fun o k => searchCost o (hashKey c.H cf.salt k) (T (homeOf c (cf.kh c.H B) k))) = g
    have key : ∀ (l : List (Nat × Bytes × Bytes)) (N : Nat), ((List.range N).map (fun n => costSum g (l.filter (fun y => homeOf c (cf.kh c.H B) y.2.1 == n)))).sum =
        costSum g (l.filter (fun y => homeOf c (cf.kh c.H B) y.2.1 < N)) := by
      intro l N
      induction N with
      | zero => simp [List.filter_eq_nil_iff.2, costSum]
      | succ N ih =>
        rw [List.range_succ, List.map_append, List.sum_append, ih]
        simp only [List.map_cons, List.map_nil, List.sum_cons, List.sum_nil, Nat.add_zero]
        clear ih
        induction l with
        | nil => rfl
        | cons p l ih =>
          simp only [costSum] at ih
          simp only [List.filter_cons, costSum]
          by_cases h1 : homeOf c (cf.kh c.H B) p.2.1 < N
          · have h2 : ¬ homeOf c (cf.kh c.H B) p.2.1 = N := by omega
            have h3 : homeOf c (cf.kh c.H B) p.2.1 < N + 1 := by omega
            simp only [h1, h2, h3, decide_true, if_true, beq_iff_eq, if_false, List.map_cons, List.sum_cons]
            omega
          · by_cases h2 : homeOf c (cf.kh c.H B) p.2.1 = N
            · simp only [h2, Nat.lt_irrefl, Nat.lt_succ_self, decide_true, decide_false, if_true, beq_self_eq_true, Bool.false_eq_true, if_false, List.map_cons, List.sum_cons]
              omega
            · have h3 : ¬ homeOf c (cf.kh c.H B) p.2.1 < N + 1 := by omega
              simp only [h1, h2, h3, decide_false, beq_iff_eq, Bool.false_eq_true, if_false]
              exact ih
    rw [key, List.filter_eq_self.2]
    intro y _
    simpa using hhome y.2.1

/-- `verify` on a well formed database, undisturbed. -/
theorem verify_accepts {cf : Conf} {D K : Bytes} {recs : List Rec} {B : Nat} {view : View} {df kf : FileSt} {σ : Schedule} {w : World} {n : Nat}
    (h : Db c cf D K recs B view) (hm : cf.mixed = false) (hf : w.fs .dat = some df) (hk : w.fs .key = some kf) (hd : df.cur = D) (hkk : kf.cur = K)
    (hb : bucketCapacity (bucketSize cf.cap) = cf.cap ∨ overflows (recs.map Rec.toRecord) = [] ∨ n < 2 * cf.blockSize + 8) :
    tot σ (verify c n) (fun _ w' => w'.fs = w.fs) w := by
  subst hd hkk
  obtain ⟨T, hT, hP⟩ := h.table
  have hP' : ∀ n, n < B → ((T n).flatMap itemsIn).Perm (((items c cf recs).map (·.1)).filter (inBucket B (ceilPow2 B) n)) :=
    fun n hn => (hP n hn).1
  apply tot_verify h.heads hf hk
  · intro w' hw _
    obtain ⟨l1, l2, l3⟩ := h.loose hm
    have hi := h.indexed hP'
    rw [← l3] at hi
    refine tot_verifyNormal (ls := recs.map Rec.loose) h.heads.dlen hT ?_ l1 l2 hi (hw ▸ hf) (hw ▸ hk) (fun _ _ e => e.trans hw)
    intro n hn e he
    have := ((hP' n hn).mem_iff).1 he
    exact h.looks (List.mem_filter.1 this).1
  · intro w' hw hc
    have hn : fastChunk (cf.kh c.H B) n ≠ 0 := by
      intro h0
      simp [chooseNormal, h0] at hc
    have hb' : bucketCapacity (bucketSize cf.cap) = cf.cap ∨ overflows (recs.map Rec.toRecord) = [] := by
      rcases hb with hb | hb | hb
      · exact .inl hb
      · exact .inr hb
      · exfalso
        apply hn
        have hb : ¬ n ≥ 2 * (cf.kh c.H B).blockSize + 8 := by show ¬ n ≥ 2 * cf.blockSize + 8; omega
        unfold fastChunk
        rw [if_neg hb]
    exact tot_verifyFast h.heads.dlen h.b1 hn hT h.parse.1 h.recOk (h.spillSizes hm hb') (h.indexed hP') (h.counts hP') (hw ▸ hf) (hw ▸ hk)
      (fun _ _ e => e.trans hw)

/-- C33, first part: a success of `verify` on a closed database reports the true numbers, whichever algorithm is chosen and
whatever the file system does. -/
theorem C33_counts {m : Map} {D K : Bytes} {n : Nat} {σ : Schedule} {w w' : World} {info : Info} (hc : Creatable a lf)
    (hr : Reachable c a short t (none, fs)) (hl : fs .log = none) (hm : Answers c a.keySize fs m)
    (hD : bytesOf fs .dat = some D) (hK : bytesOf fs .key = some K) (hw : w.fs = fs)
    (hv : verify c n σ w = (.ok info, w')) :
    ∃ rs cs, Conforms c.H a lf D K m rs cs ∧ Counted rs cs info := by
  obtain ⟨recs, B, view, df, kf, hS, hd, hk, e1, e2⟩ := closed_db hc hr hl hD hK
  obtain ⟨cs, h, hcs, T, rfl, hT, hP⟩ := conforms_of (m := m) hS.db (fun k hk => hS.map.unique hm hk)
  obtain ⟨g, hg, hgs, _⟩ := fetches_counted hS.db hT hP
  exact ⟨_, _, conforms_settled (cf := a.conf lf) (a := a) h rfl rfl rfl rfl rfl,
    wp_elim (verify_counts hS.db (hw ▸ hd) (hw ▸ hk) e1 e2 hcs (by simp) (keys_counted hS.db hP) hg hgs) hv⟩

/-- C33, second part: `verify` succeeds on every closed database, with any buffer size. Missing: block sizes from 104 to 115 when there are
overflow records and the buffer is large enough for `verify_fast`, see `C33_rejects`. -/
theorem C33_accepts_partial {m : Map} {D K : Bytes} (n : Nat) (hc : Creatable a lf)
    (hr : Reachable c a short t (none, fs)) (hl : fs .log = none) (hm : Answers c a.keySize fs m)
    (hD : bytesOf fs .dat = some D) (hK : bytesOf fs .key = some K) :
    ∃ rs cs, Conforms c.H a lf D K m rs cs ∧ (116 ≤ a.blockSize ∨ overflows rs = [] ∨ n < 2 * a.blockSize + 8 →
      ∃ info w', verify c n calm ⟨fs, 0, []⟩ = (.ok info, w') ∧ w'.fs = fs ∧ Counted rs cs info) := by
  obtain ⟨recs, B, view, df, kf, hS, hd, hk, e1, e2⟩ := closed_db hc hr hl hD hK
  obtain ⟨cs, h, hcs, T, rfl, hT, hP⟩ := conforms_of (m := m) hS.db (fun k hk => hS.map.unique hm hk)
  obtain ⟨g, hg, hgs, _⟩ := fetches_counted hS.db hT hP
  refine ⟨_, _, conforms_settled (cf := a.conf lf) (a := a) h rfl rfl rfl rfl rfl, fun hb => ?_⟩
  have hb' : bucketCapacity (bucketSize (a.conf lf).cap) = (a.conf lf).cap ∨ overflows (recs.map Rec.toRecord) = [] ∨
      n < 2 * (a.conf lf).blockSize + 8 := by
    rcases hb with hb | hb
    · left
      have e : (a.conf lf).cap = (a.blockSize - 8) / 18 := by
        unfold Conf.cap bucketCapacity keyHeaderSize
        rw [if_neg (by simp; show 104 ≤ a.blockSize ∧ 8 ≤ a.blockSize; omega)]; rfl
      rw [e]
      unfold bucketSize bucketCapacity keyHeaderSize
      rw [if_neg (by simp; omega)]
      omega
    · exact .inr hb
  have key := verify_accepts (σ := calm) (w := ⟨fs, 0, []⟩) (n := n) hS.db rfl hd hk e1 e2 hb'
  have hc := verify_counts (σ := calm) (w := ⟨fs, 0, []⟩) (n := n) hS.db hd hk e1 e2 hcs (by simp) (keys_counted hS.db hP) hg hgs
  replace key : wp calm _ _ _ _ := key
  unfold wp at key
  cases hv : verify c n calm ⟨fs, 0, []⟩ with
  | mk r w' =>
    rw [hv] at key
    cases r with
    | ok info => exact ⟨info, w', rfl, key, wp_elim hc hv⟩
    | error x => obtain ⟨_, i, hi⟩ := key; exact absurd rfl hi

/-- The data file header, from the tests `verify` makes. -/
theorem Heads.dataHeader {D K : Bytes} {kh : KeyHeader} (h : Heads c D K kh) : DataHeader (keySizeOf K) (D.take 92) := by
  have h92 := h.dlen
  have e : slice D 0 92 = D.take 92 := by simp [slice]
  have hd := h.dat
  have hb := h.both
  rw [e] at hd hb
  have hl : (D.take 92).length = 92 := by simp; omega
  unfold verifyDat at hd
  split at hd
  · cases hd
  rename_i t1
  split at hd
  · cases hd
  rename_i t2
  split at hd
  · cases hd
  rename_i t3
  have t4 : kh.keySize = (getDatHeader (D.take 92)).keySize := by
    unfold verifyDatKey at hb
    simp only [bind, Except.bind] at hb
    split at hb
    · cases hb
    · split at hb
      · cases hb
      · split at hb
        · cases hb
        · split at hb
          · cases hb
          · rename_i h; exact Decidable.not_not.1 h
  have hrd : ∀ o, o + 2 ≤ 92 → getU16 (slice (D.take 92) o 2) = value (bytesAt (D.take 92) o 2) := by
    intro o ho
    exact C18_u16.reads _ (bytesAt_len (by omega))
  refine ⟨hl, Decidable.not_not.1 t1, ?_, ?_, ?_⟩
  · rw [← hrd 8 (by omega)]; exact Decidable.not_not.1 t2
  · rw [← hrd 26 (by omega), ← h.keySize]; exact t4.symm
  · have := h.checks.1; rw [← h.keySize]; exact this

/-! ### The premises are satisfiable -/

/-- The records of the data file of `demoOps`. -/
def spilledRecords (D : Bytes) : List Record :=
  [.value [1, 1] [10], .value [1, 2] [20, 21], .value [1, 5] [50], .value [2, 8] [80], .value [4, 3] [30], .value [4, 6] [60],
   .value [7, 4] [40], .value [7, 7] [70], .overflow (bytesAt D 173 98), .value [3, 9] [90], .overflow (bytesAt D 288 98)]

/-- A closed database with nine pairs, five buckets and two overflow records. -/
theorem demo_spilled : ∃ t fs m D K, Reachable demoCfg demoArgs False t (none, fs) ∧ fs .log = none ∧
    Answers demoCfg demoArgs.keySize fs m ∧ bytesOf fs .dat = some D ∧ bytesOf fs .key = some K ∧
    DataFile demoArgs.keySize D (spilledRecords D) ∧ D.length = 386 ∧ K.length = 624 ∧ (inserted t).length ≤ 16 := by
  have h : demoTestClosed demoCfg demoArgs (demoOps.take 16) (fun w => (w.fs .log).isNone &&
      match bytesOf w.fs .dat, bytesOf w.fs .key with
      | some D, some K => decide (D = D.take 92 ++ layout (spilledRecords D)) && D.length == 386 && K.length == 624
      | _, _ => false) = true := by decide +kernel
  obtain ⟨rets, w, h1, h2⟩ := demo_test_closed (demoOps_sound 16) h
  simp only [Bool.and_eq_true, Option.isNone_iff_eq_none] at h2
  obtain ⟨h2, h3⟩ := h2
  split at h3
  · rename_i D K e1 e2
    simp only [Bool.and_eq_true, decide_eq_true_eq, beq_iff_eq] at h3
    obtain ⟨⟨g1, g2⟩, g3⟩ := h3
    obtain ⟨recs, B, view, df, kf, hS, hd, hk, rfl, rfl⟩ := closed_db demo_creatable h1 h2 e1 e2
    refine ⟨_, w.fs, _, _, _, h1, h2, hS.map, e1, e2, ⟨_, ?_, g1, ?_⟩, g2, g3, ?_⟩
    · have := hS.db.heads.dataHeader
      rw [← hS.db.heads.keySize] at this
      exact this
    · intro r hr
      simp only [spilledRecords, List.mem_cons, List.not_mem_nil, or_false] at hr
      rcases hr with rfl | rfl | rfl | rfl | rfl | rfl | rfl | rfl | rfl | rfl | rfl <;>
        first
        | exact ⟨rfl, by decide, by decide⟩
        | (show (bytesAt _ _ _).length < _; rw [bytesAt_len (by omega)]; decide)
    · have := inserted_labels (demoOps.take 16) rets
      exact this
  · cases h3

/-- The premises of `C33_counts` and `C33_accepts_partial`: the database above with a small buffer. -/
example : ∃ t fs m D K info w', Creatable demoArgs 32768 ∧ Reachable demoCfg demoArgs False t (none, fs) ∧ fs .log = none ∧
    Answers demoCfg demoArgs.keySize fs m ∧ bytesOf fs .dat = some D ∧ bytesOf fs .key = some K ∧
    verify demoCfg 100 calm ⟨fs, 0, []⟩ = (.ok info, w') := by
  obtain ⟨t, fs, m, D, K, h1, h2, h3, h4, h5, _⟩ := demo_spilled
  obtain ⟨rs, cs, _, h⟩ := C33_accepts_partial 100 demo_creatable h1 h2 h3 h4 h5
  obtain ⟨info, w', h, _⟩ := h (.inr (.inr (by decide)))
  exact ⟨t, fs, m, D, K, info, w', demo_creatable, h1, h2, h3, h4, h5, h⟩

end NuDB
