import Verif.Props.Verify
import Verif.Props.Rekey
/-
What a success of `verify` means (C34), and valid databases that it rejects (C33).
-/
namespace NuDB

open Spec

variable {c : Cfg} {a : CreateArgs} {lf lf' : Nat} {short : Prop} {t : List Label} {fs : Fs} {ra : RekeyArgs}

theorem bytesOf_some {fs : Fs} {p : Path} {D : Bytes} (h : bytesOf fs p = some D) : ∃ f, fs p = some f ∧ f.cur = D := by
  unfold bytesOf at h
  cases hf : fs p with
  | none => simp [hf] at h
  | some f => exact ⟨f, rfl, by simpa [hf] using h⟩

/-! ### Valid databases that are rejected -/

/-- C33 fails: `verify` with a large buffer rejects every closed database with block sizes from 104 to 115 and at least one overflow
record. (`hfit`: the sizes are such that the choice of the algorithm does not overflow 64 bits.) -/
theorem C33_rejects {D K : Bytes} {rs : List Record} {n : Nat} {σ : Schedule} {w : World} (hc : Creatable a lf)
    (hr : Reachable c a short t (none, fs)) (hl : fs .log = none) (hD : bytesOf fs .dat = some D) (hK : bytesOf fs .key = some K)
    (hb : a.blockSize < 116) (hrs : DataFile a.keySize D rs) (ho : overflows rs ≠ [])
    (hn : a.blockSize + bucketsOf K * (a.blockSize + 8) ≤ n)
    (hfit : D.length + bucketsOf K * lf * ((a.blockSize - 8) / 18) * a.blockSize + K.length < 2 ^ 64) (hw : w.fs = fs) :
    ∀ info w', verify c n σ w ≠ (.ok info, w') := by
  intro info w' hv
  obtain ⟨recs, B, view, df, kf, hS, hd, hk, rfl, rfl⟩ := closed_db hc hr hl hD hK
  have hdb := hS.db
  have h104 := hdb.conf.bs1
  have h1 := hdb.b1
  have hB : bucketsOf kf.cur = B := hdb.heads.buckets.symm
  have hcap : ((a.conf lf).kh c.H B).capacity = (a.blockSize - 8) / 18 := by
    show bucketCapacity a.blockSize = _
    have h104 : 104 ≤ a.blockSize := h104
    unfold bucketCapacity keyHeaderSize
    rw [if_neg (by simp; omega)]
  have hrec : rs = recs.map Rec.toRecord := by
    obtain ⟨h, h2, h3, h4⟩ := hrs
    obtain ⟨h', h5⟩ := hdb.parse
    apply layout_inj (ks := a.keySize) _ h4 hdb.recOk
    have e := h3.symm.trans h'
    exact (List.append_inj e (by rw [h2.length, h5]; simp)).2
  refine wp_elim (Q := fun _ _ => False) (pc_verify (σ := σ) (c := c) (n := n) (w := w) (hw ▸ hd) (hw ▸ hk) ?_ ?_) hv
  · intro kh w1 hw1 hh hch
    exfalso
    obtain rfl : kh = (a.conf lf).kh c.H B := by rw [hh.head, hdb.heads.head]
    have e1 : fastChunk ((a.conf lf).kh c.H B) n = B := by
      show (if n ≥ 2 * a.blockSize + 8 then min B ((n - a.blockSize) / (a.blockSize + 8)) else 0) = B
      rw [hB] at hn
      have : 1 * (a.blockSize + 8) ≤ B * (a.blockSize + 8) := Nat.mul_le_mul_right _ h1
      rw [if_pos (by omega)]
      have : B ≤ (n - a.blockSize) / (a.blockSize + 8) := (Nat.le_div_iff_mul_le (by omega)).2 (by omega)
      omega
    have e2 : fastPasses ((a.conf lf).kh c.H B) B = 1 := by
      show (if B > 0 then (B + B - 1) / B else 0) = 1
      rw [if_pos (by omega)]
      apply Nat.div_eq_of_lt_le <;> omega
    simp only [chooseNormal, e1, e2, hcap, Nat.one_mul] at hch
    simp only [Bool.or_eq_true, decide_eq_true_eq] at hch
    rw [hB] at hfit
    rcases hch with h | h
    · omega
    · change (_ + B * lf * _ * a.blockSize + _) % _ < _ at h
      rw [Nat.mod_eq_of_lt hfit, Nat.mod_eq_of_lt (by omega)] at h
      omega
  · intro kh w1 hw1 hh _
    obtain rfl : kh = (a.conf lf).kh c.H B := by rw [hh.head, hdb.heads.head]
    apply pc_verifyFast hh (by rw [hw1, hw]; exact hd) (by rw [hw1, hw]; exact hk)
    · intro n hn
      obtain ⟨ts, _, hg, _⟩ := hdb.bucket (n := n) hn
      exact (hg _ List.mem_cons_self).room
    · intro info w'' ds rs' _ _ hF _
      have e : rs' = rs := by
        rw [hrec]
        exact layout_inj (ks := a.keySize) _ hF.ok hdb.recOk (List.append_cancel_left (hF.parse.symm.trans hdb.parse.1))
      subst e
      cases hov : overflows rs' with
      | nil => exact ho hov
      | cons b bs =>
        have hbm : b ∈ overflows rs' := by rw [hov]; exact List.mem_cons_self
        have hs := hF.sizes b hbm
        rw [hrec] at hbm
        have hfl := (full_overflows hdb rfl b hbm).1
        have h104 : 104 ≤ a.blockSize := h104
        have e : b.length = 98 := by
          rw [hfl]
          show 8 + 18 * ((a.blockSize - 8) / 18) = 98
          omega
        rw [e] at hs
        exact absurd hs (by decide)

/-- C33 fails for rekeyed databases: if the data file contains overflow records from before and the new block size holds another
number of items, `verify` with a small buffer rejects the database. -/
theorem C33_rejects_rekeyed {D : Bytes} {rs : List Record} {n : Nat} {σ σ' : Schedule} {w w' v : World} (hc : Creatable a lf)
    (hr : Reachable c a short t (none, fs)) (hl : fs .log = none) (hD : bytesOf fs .dat = some D)
    (hrs : DataFile a.keySize D rs) (ho : overflows rs ≠ []) (hra : Rekeyable ra lf')
    (hb : (ra.blockSize - 8) / 18 ≠ (a.blockSize - 8) / 18) (hw : w.fs = fs.set .key none)
    (hrun : rekey c ra σ w = (.ok (), w')) (hn : n < 2 * ra.blockSize + 8) (hv : v.fs = w'.fs) :
    ∀ info v', verify c n σ' v ≠ (.ok info, v') := by
  intro info v' hver
  obtain ⟨df, D', K, recs, B, view, hd, sd, hS, _⟩ := before_rekey hc hr hl
  have e : D' = D := by rw [bytesOf, hd] at hD; simpa [sd.cur] using hD
  subst e
  have key := wp_elim (rekey_wp hra hS.db hd sd hl hw) hrun
  obtain ⟨rs', view', df', kf, h1, h2, h3, h4, h5, h6, h7, h8⟩ := key
  have hrec : rs = recs.map Rec.toRecord := by
    obtain ⟨h, h2, h3, h4⟩ := hrs
    obtain ⟨h', h5⟩ := hS.db.parse
    apply layout_inj (ks := a.keySize) _ h4 hS.db.recOk
    have e := h3.symm.trans h'
    exact (List.append_inj e (by rw [h2.length, h5]; simp)).2
  rw [← h3] at h7
  refine wp_elim (Q := fun _ _ => False) (pc_verify (σ := σ') (c := c) (n := n) (w := v) (by rw [hv]; exact h2) (by rw [hv]; exact h5) ?_ ?_) hver
  · intro kh w1 hw1 hh _
    obtain rfl : kh = (ra.conf (a.conf lf) lf').kh c.H ra.buckets := by rw [hh.head, h7.heads.head]
    apply pc_verifyNormal hh (by rw [hw1, hv]; exact h2) (by rw [hw1, hv]; exact h5) (rs := (recs ++ rs').map Rec.toRecord) (rest := [])
      (by rw [List.append_nil]; exact h7.parse.1) (fun x hx => ⟨h7.recOk x hx, h7.compact x hx⟩)
    intro info w'' ds _ _ hov _
    cases ho' : overflows rs with
    | nil => exact ho ho'
    | cons b bs =>
      have hbm : b ∈ overflows rs := by rw [ho']; exact List.mem_cons_self
      have hfl := (full_overflows hS.db rfl b (by rw [← hrec]; exact hbm)).1
      have := hov b (by
        rw [List.map_append, overflows, List.filterMap_append, List.mem_append]
        exact .inl (by rw [← hrec]; exact hbm))
      have hcap : ((ra.conf (a.conf lf) lf').kh c.H ra.buckets).capacity = (ra.blockSize - 8) / 18 := by
        show bucketCapacity ra.blockSize = _
        have := hra.block.1
        unfold bucketCapacity keyHeaderSize
        rw [if_neg (by simp; omega)]
      rw [hfl, hcap] at this
      change 8 + 18 * ((a.blockSize - 8) / 18) = 8 + (ra.blockSize - 8) / 18 * 18 at this
      omega
  · intro kh w1 hw1 hh hch
    obtain rfl : kh = (ra.conf (a.conf lf) lf').kh c.H ra.buckets := by rw [hh.head, h7.heads.head]
    exfalso
    have : fastChunk ((ra.conf (a.conf lf) lf').kh c.H ra.buckets) n = 0 := by
      show (if n ≥ 2 * ra.blockSize + 8 then _ else 0) = 0
      rw [if_neg (by omega)]
    simp [chooseNormal, this] at hch

/-- C49 after `rekey`. -/
theorem C49_rekey {m : Map} {σ : Schedule} {w w' : World} {D K : Bytes} (hc : Creatable a lf) (hr : Reachable c a short t (none, fs))
    (hl : fs .log = none) (hm : Answers c a.keySize fs m) (hra : Rekeyable ra lf') (hw : w.fs = fs.set .key none)
    (hrun : rekey c ra σ w = (.ok (), w')) (hD : bytesOf w'.fs .dat = some D) (hK : bytesOf w'.fs .key = some K) :
    ∃ rs cs, Conforms c.H { a with salt := ra.salt, blockSize := ra.blockSize } lf' D K m rs cs := by
  obtain ⟨df, D', K', recs, B, view, hd, sd, hS, _⟩ := before_rekey hc hr hl
  have key := wp_elim (rekey_wp hra hS.db hd sd hl hw) hrun
  obtain ⟨rs', view', df', kf, h1, h2, h3, h4, h5, h6, h7, h8⟩ := key
  have e : D = D' ++ encRecs rs' := by rw [bytesOf, h2] at hD; simpa [h3] using hD.symm
  have e' : K = kf.cur := by rw [bytesOf, h5] at hK; simpa using hK.symm
  subst e e'
  obtain ⟨cs, h, _⟩ := conforms_of (m := m) h7 (fun k hk => by
    rw [pairsOf_append, pairsOf_spills h1, List.append_nil]; exact hS.map.unique hm hk)
  exact ⟨_, cs, conforms_settled (cf := ra.conf (a.conf lf) lf') h rfl rfl rfl rfl rfl⟩

/-! ### Success -/

/-- C34 for `verify_fast`, on arbitrary files: the data file consists of a header and records, and the items of each bucket are exactly
those of the value records that belong there. Missing: `verify_fast` does not test the counts of the buckets (`hcap`), nor
the sizes in the items, see `C34_sizes`. -/
theorem C34_fast_partial {D K : Bytes} {n : Nat} {σ : Schedule} {w w' : World} {info : Info} (hD : bytesOf w.fs .dat = some D)
    (hK : bytesOf w.fs .key = some K) (h64 : K.length < 2 ^ 64)
    (hcap : ∀ i, i < bucketsOf K → countIn (bucketAt K i) ≤ (blockSizeOf K - 8) / 18)
    (hv : verify c n σ w = (.ok info, w')) (ha : info.algorithm = 1) :
    ∃ rs, DataFile (keySizeOf K) D rs ∧ ∀ i, i < bucketsOf K → ∃ bs, ChainOf D K i bs ∧
      ((bs.flatMap itemsIn).map (fun e => (e.offset, e.hash))).Nodup ∧
      ∀ o h, (o, h) ∈ (bs.flatMap itemsIn).map (fun e => (e.offset, e.hash)) ↔
        ∃ k v, (o, k, v) ∈ located 92 rs ∧ h = hash48 (c.H (UInt64.ofNat (saltOf K)) k) ∧ Addressed h (bucketsOf K) i := by
  obtain ⟨df, hd, rfl⟩ := bytesOf_some hD
  obtain ⟨kf, hk, rfl⟩ := bytesOf_some hK
  refine wp_elim (Q := fun info _ => info.algorithm = 1 → _) (pc_verify (σ := σ) (c := c) (n := n) (w := w) hd hk ?_ ?_) hv ha
  · intro kh w1 _ _ _
    exact pc_verifyNormal_alg (fun info _ h h' => by omega)
  · intro kh w1 hw1 hh _
    apply pc_verifyFast hh (hw1 ▸ hd) (hw1 ▸ hk)
    · intro i hi
      rw [hh.buckets] at hi
      have := hcap i hi
      unfold bucketAt at this
      rw [hh.blockSize]
      exact this
    · intro info w2 cs rs hl hcs hF _ _
      refine ⟨rs, ⟨df.cur.take 92, hh.dataHeader, hF.parse, ?_⟩, ?_⟩
      · rw [← hh.keySize]; exact hF.ok
      · intro i hi
        rw [← hh.buckets] at hi
        have hp := hF.perm hcs hl hi
        have hc := hcs.get (i := i) (by omega)
        have hg : cs.getD i [] = cs[i]'(by omega) := by
          rw [List.getD_eq_getElem?_getD, List.getElem?_eq_getElem (by omega)]; rfl
        rw [hg] at hp
        refine ⟨cs[i]'(by omega), ?_, ?_, ?_⟩
        · unfold ChainOf bucketAt
          rw [Nat.zero_add] at hc
          rw [← hh.blockSize]
          exact hc
        · rw [← hp.nodup_iff]
          exact located_nodup (f := fun y => (y.1, hashKey c.H kh.salt y.2.1)) Prod.fst (fun _ => rfl)
        · intro o h
          rw [← hp.mem_iff]
          constructor
          · intro hm
            obtain ⟨y, hy, e⟩ := List.mem_map.1 hm
            obtain ⟨hy, hh'⟩ := List.mem_filter.1 hy
            have hh' : homeOf c kh y.2.1 = i := by simpa using hh'
            simp only [Prod.mk.injEq] at e
            obtain ⟨rfl, rfl⟩ := e
            have := (hh.addressed h64 y.2.1).1
            rw [hh'] at this
            rw [hashKey_eq, hh.salt]
            exact ⟨y.2.1, y.2.2, hy, rfl, this⟩
          · rintro ⟨k, v, h1, rfl, h3⟩
            refine List.mem_map.2 ⟨(o, k, v), List.mem_filter.2 ⟨h1, ?_⟩, ?_⟩
            · have := addressed_unique (hh.addressed h64 k).1 h3
              simpa using this
            · rw [hashKey_eq, hh.salt]

/-- C34 for `verify_normal`, on arbitrary files: as far as the data file can be divided into records, with overflow records that have the
size that belongs to their count of items, each value record is listed in the bucket where it belongs. Each bucket has a chain, and at the
offset of each item there are its size and a key with its hash. Missing: `verify_normal` takes the size of overflow records from their
count, see `C34_misses`; the offset of an item need not be that of a record, see `C34_phantom`. -/
theorem C34_normal_partial {D K : Bytes} {n : Nat} {σ : Schedule} {w w' : World} {info : Info} (hD : bytesOf w.fs .dat = some D)
    (hK : bytesOf w.fs .key = some K) (h64 : K.length < 2 ^ 64) (hv : verify c n σ w = (.ok info, w')) (ha : info.algorithm = 0) :
    ∃ cs : List (List Bytes), cs.length = bucketsOf K ∧ (∀ i (h : i < cs.length), ChainOf D K i cs[i] ∧
        ∀ e ∈ cs[i].flatMap itemsIn, Looks c.H (saltOf K) (keySizeOf K) D e) ∧
      ∀ rs rest, D = D.take 92 ++ (layout rs ++ rest) → (∀ r ∈ rs, r.Ok (keySizeOf K)) →
        (∀ b ∈ overflows rs, b.length = 8 + 18 * countIn b) →
        ∀ o k v, (o, k, v) ∈ located 92 rs → ∃ i, ∃ h : i < cs.length, Addressed (hash48 (c.H (UInt64.ofNat (saltOf K)) k)) (bucketsOf K) i ∧
          ∃ e ∈ cs[i].flatMap itemsIn, e.offset = o ∧ e.hash = hash48 (c.H (UInt64.ofNat (saltOf K)) k) := by
  obtain ⟨df, hd, rfl⟩ := bytesOf_some hD
  obtain ⟨kf, hk, rfl⟩ := bytesOf_some hK
  have main : ∀ rs rest, df.cur = df.cur.take 92 ++ (layout rs ++ rest) → (∀ r ∈ rs, r.Ok (keySizeOf kf.cur) ∧ Compact r) →
      ∃ kh cs, Heads c df.cur kf.cur kh ∧ NormalDone c kh df.cur kf.cur cs ∧
        ∀ x ∈ located 92 rs, HomeListed c kh df.cur kf.cur x.1 x.2.1 := by
    intro rs rest h1 h2
    refine wp_elim (Q := fun info _ => info.algorithm = 0 → _) (pc_verify (σ := σ) (c := c) (n := n) (w := w) hd hk ?_ ?_) hv ha
    · intro kh w1 hw1 hh _
      apply pc_verifyNormal hh (hw1 ▸ hd) (hw1 ▸ hk) h1 (by rw [hh.keySize]; exact h2)
      intro info w2 cs h3 h4 _ _ _
      exact ⟨kh, cs, hh, h3, h4⟩
    · intro kh w1 hw1 hh _
      have hp : pc σ (verifyFast c kh df.cur.length kf.cur.length n) (fun info _ => info.algorithm = 1) w1 :=
        pc_verifyFast_alg (fun _ _ h => h)
      refine wp_conseq hp (fun info _ h h' => ?_) (fun _ _ h => h)
      omega
  obtain ⟨kh, cs, hh, hN, _⟩ := main [] (df.cur.drop 92) (by simp [layout]) (by intro r hr; cases hr)
  refine ⟨cs, by rw [hN.len, hh.buckets], ?_, ?_⟩
  · intro i hi
    have hc := hN.chains.get (i := i) hi
    rw [Nat.zero_add] at hc
    refine ⟨?_, ?_⟩
    · unfold ChainOf bucketAt
      rw [← hh.blockSize]
      exact hc
    · rw [← hh.salt, ← hh.keySize]
      exact (hN.looks _ (List.getElem_mem hi)).1
  · intro rs rest h1 h2 h3 o k v hm
    obtain ⟨kh', cs', hh', hN', hL⟩ := main rs rest h1 (fun r hr => ⟨h2 r hr, by
      cases r with
      | value _ _ => trivial
      | overflow b => exact h3 b (List.mem_filterMap.2 ⟨_, hr, rfl⟩)⟩)
    obtain rfl : kh' = kh := by rw [hh.head, hh'.head]
    have hlt : homeOf c kh' k < cs.length := by
      rw [hN.len, hh.buckets]; exact (hh.addressed h64 k).2
    refine ⟨homeOf c kh' k, hlt, (hh.addressed h64 k).1, ?_⟩
    have hc := hN.chains.get (i := homeOf c kh' k) hlt
    rw [Nat.zero_add] at hc
    obtain ⟨e, he, e1, e2⟩ := (hL _ hm).chained hc
    refine ⟨e, he, e1, ?_⟩
    rw [e2, hashKey_eq, hh.salt]

/-- C35 as far as it goes: if the data file contains two value records with the same key, one of which is not listed in the bucket of that key,
`verify` does not succeed. (For the test of counts see `C34_fast_partial`.) Missing: records that are both listed, see `C35_undetected`. -/
theorem C35_detected_partial {D K : Bytes} {rs : List Record} {n i o o' : Nat} {k v v' : Bytes} {bs : List Bytes} {σ : Schedule} {w : World}
    (hD : bytesOf w.fs .dat = some D) (hK : bytesOf w.fs .key = some K) (h64 : K.length < 2 ^ 64)
    (hcap : ∀ i, i < bucketsOf K → countIn (bucketAt K i) ≤ (blockSizeOf K - 8) / 18)
    (hrs : DataFile (keySizeOf K) D rs) (hov : ∀ b ∈ overflows rs, b.length = 8 + 18 * countIn b)
    (_h1 : (o, k, v) ∈ located 92 rs) (h2 : (o', k, v') ∈ located 92 rs) (_hne : o ≠ o')
    (hi : Addressed (hash48 (c.H (UInt64.ofNat (saltOf K)) k)) (bucketsOf K) i) (hb : ChainOf D K i bs)
    (hu : ∀ e ∈ bs.flatMap itemsIn, e.offset ≠ o') : ∀ info w', verify c n σ w ≠ (.ok info, w') := by
  intro info w' hv
  have h92 : D = D.take 92 ++ layout rs := by
    obtain ⟨h, h2, h3, _⟩ := hrs
    have : D.take 92 = h := by rw [h3, List.take_append_of_le_length (by rw [h2.length]; omega), List.take_of_length_le (by rw [h2.length]; omega)]
    rw [this]; exact h3
  have halg : (info.algorithm = 0 ∨ info.algorithm = 1) ∧ 1 ≤ bucketsOf K := by
    obtain ⟨df, hd, rfl⟩ := bytesOf_some hD
    obtain ⟨kf, hk, rfl⟩ := bytesOf_some hK
    exact wp_elim (Q := fun info _ => (info.algorithm = 0 ∨ info.algorithm = 1) ∧ 1 ≤ bucketsOf kf.cur) (pc_verify (σ := σ) (c := c) (n := n) (w := w) hd hk
      (fun _ _ _ hh _ => pc_verifyNormal_alg (fun _ _ h => ⟨.inl h, hh.buckets ▸ hh.checks.2.2.2⟩))
      (fun _ _ _ hh _ => pc_verifyFast_alg (fun _ _ h => ⟨.inr h, hh.buckets ▸ hh.checks.2.2.2⟩))) hv
  obtain ⟨halg, hB1⟩ := halg
  rcases halg with ha | ha
  · obtain ⟨cs, hl, hcs, hL⟩ := C34_normal_partial hD hK h64 hv ha
    obtain ⟨j, hj, hj1, e, he, he1, _⟩ := hL rs [] (by rw [List.append_nil]; exact h92) (by obtain ⟨_, _, _, h⟩ := hrs; exact h) hov o' k v' h2
    have := addressed_unique hj1 hi
    subst this
    have hc := (hcs j hj).1
    unfold ChainOf at hc hb
    rw [hc.unique hb] at he
    exact hu e he he1
  · obtain ⟨rs', hrs', hL⟩ := C34_fast_partial hD hK h64 hcap hv ha
    have hrec : rs' = rs := by
      obtain ⟨h, h2, h3, h4⟩ := hrs'
      obtain ⟨_, _, _, h5⟩ := hrs
      apply layout_inj (ks := keySizeOf K) _ h4 h5
      have e := h3.symm.trans h92
      exact (List.append_inj e (by rw [h2.length, h3]; simp [h2.length])).2
    subst hrec
    have hlt : i < bucketsOf K := by
      obtain ⟨m, hm, hm'⟩ := hi
      rcases hm' with h | h
      · omega
      · have h1 : hash48 (c.H (UInt64.ofNat (saltOf K)) k) % m < m := Nat.mod_lt _ (by obtain ⟨⟨x, rfl⟩, _⟩ := hm; exact Nat.pow_pos (by decide))
        obtain ⟨⟨x, hx⟩, h3, h4⟩ := hm
        cases x with
        | zero => have := h.1; simp at hx; omega
        | succ x =>
          have h5 : ¬ bucketsOf K ≤ 2 ^ x := fun h => by
            have := h4 x h
            rw [hx, Nat.pow_succ] at this
            have := Nat.pow_pos (n := x) (show 0 < 2 by decide)
            omega
          rw [Nat.pow_succ] at hx
          omega
    obtain ⟨bs', hc, _, hm⟩ := hL i hlt
    unfold ChainOf at hc hb
    have := hc.unique hb
    subst this
    obtain ⟨e, he, he'⟩ := List.mem_map.1 ((hm o' _).2 ⟨k, v', h2, rfl, hi⟩)
    simp only [Prod.mk.injEq] at he'
    exact hu e he he'.1

/-! ### The premises are satisfiable -/

/-- The premises of `C33_rejects`. -/
example : ∃ t fs D K, Creatable demoArgs 32768 ∧ Reachable demoCfg demoArgs False t (none, fs) ∧ fs .log = none ∧
    bytesOf fs .dat = some D ∧ bytesOf fs .key = some K ∧ demoArgs.blockSize < 116 ∧ DataFile demoArgs.keySize D (spilledRecords D) ∧
    overflows (spilledRecords D) ≠ [] ∧ demoArgs.blockSize + bucketsOf K * (demoArgs.blockSize + 8) ≤ 10000 ∧
    D.length + bucketsOf K * 32768 * ((demoArgs.blockSize - 8) / 18) * demoArgs.blockSize + K.length < 2 ^ 64 := by
  obtain ⟨t, fs, m, D, K, h1, h2, h3, h4, h5, h6, h7, h8, h9⟩ := demo_spilled
  obtain ⟨recs, B, view, df, kf, hS, hd, hk, rfl, rfl⟩ := closed_db demo_creatable h1 h2 h4 h5
  have hb : bucketsOf kf.cur = 5 := by
    rw [← hS.db.heads.buckets]
    have := hS.db.key.len
    rw [h8] at this
    change 624 = (B + 1) * 104 at this
    show B = 5
    omega
  refine ⟨t, fs, _, _, demo_creatable, h1, h2, h4, h5, by decide, h6, ?_, by rw [hb]; decide, by rw [hb, h7, h8]; decide⟩
  simp [overflows, spilledRecords]

/-- The premises of `C33_rejects_rekeyed` and `C49_rekey`: a rebuild with blocks of 120 bytes, that is, six items. -/
example : ∃ t fs m D w w' D' K', Creatable demoArgs 32768 ∧ Reachable demoCfg demoArgs False t (none, fs) ∧ fs .log = none ∧
    Answers demoCfg demoArgs.keySize fs m ∧
    bytesOf fs .dat = some D ∧ DataFile demoArgs.keySize D (spilledRecords D) ∧ overflows (spilledRecords D) ≠ [] ∧ Rekeyable demoRekey 49152 ∧
    (demoRekey.blockSize - 8) / 18 ≠ (demoArgs.blockSize - 8) / 18 ∧ w.fs = fs.set .key none ∧
    rekey demoCfg demoRekey calm w = (.ok (), w') ∧ bytesOf w'.fs .dat = some D' ∧ bytesOf w'.fs .key = some K' := by
  obtain ⟨t, fs, m, D, K, h1, h2, h3, h4, h5, h6, h7, h8, h9⟩ := demo_spilled
  obtain ⟨w', h⟩ := C29_succeeds demo_creatable h1 h2 demo_rekeyable (w := ⟨fs.set .key none, 0, []⟩) rfl h4 (by
    rw [h7, show demoRekey.blockSize = 120 from rfl]; omega)
  obtain ⟨df, D2, K2, recs, B, view, hd, sd, hS, _⟩ := before_rekey demo_creatable h1 h2
  obtain ⟨rs', view', df', kf, _, e2, _, _, e5, _⟩ := wp_elim (rekey_wp demo_rekeyable hS.db hd sd h2 rfl) h
  exact ⟨t, fs, m, D, _, w', df'.cur, kf.cur, demo_creatable, h1, h2, h3, h4, h6, by simp [overflows, spilledRecords], demo_rekeyable, by decide, rfl, h,
    by rw [bytesOf, e2]; rfl, by rw [bytesOf, e5]; rfl⟩

end NuDB
