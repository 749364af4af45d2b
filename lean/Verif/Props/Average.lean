import Verif.Props.Report
import Verif.Spec.Cost
/-
C80: `avg_fetch` is the mean cost of finding a value.
-/
namespace NuDB

open Spec

section
variable {σ : Schedule} {w : World} {df : FileSt}

private theorem wp_run {α : Type} {m : M α} {Q : α → World → Prop} {X : Exc → World → Prop} (h : wp σ m Q X w) :
    wp σ m (fun a w' => Q a w' ∧ m σ w = (.ok a, w')) X w := by
  unfold wp at h ⊢
  split at h
  · rename_i e; rw [e]; exact ⟨h, rfl⟩
  · exact h

private theorem readFile_clock {b b' : Bkt} {p : Path} {off : Nat} {w' : World} (h : b.readFile p off σ w = (.ok b', w')) :
    w'.clock = w.clock + 1 := by
  refine wp_elim (σ := σ) (Q := fun _ w' => w'.clock = w.clock + 1) (X := fun _ _ => True) ?_ h
  unfold Bkt.readFile
  apply wp_bind
  refine wp_conseq (Q := fun _ w' => w'.clock = w.clock + 1) (X := fun _ _ => True) ?_ ?_ (fun _ _ h => h)
  · unfold fRead wp fileOp
    cases σ w.clock with
    | none =>
      dsimp only
      cases w.fs p with
      | none => trivial
      | some f =>
        dsimp only
        split
        · rename_i e; split at e <;> cases e; rfl
        · trivial
    | fail k => trivial
    | crash k => trivial
  · intro d w1 h1
    apply wp_bind
    apply pc_lift
    intro mem _
    apply wp_bind
    apply pc_lift
    intro b1 _
    split
    · exact pc_fail
    · exact wp_ret h1

/-- The item with offset `o` is the only one with hash `h` whose record has the key `key`. -/
private def Only (D : Bytes) (ks h o : Nat) (key : Bytes) (l : List Entry) : Prop :=
  ∀ e ∈ l, e.hash = h → ((slice D (e.offset + 6) (ks + e.size)).take ks = key ↔ e.offset = o)

private theorem pc_fetchScan {ks h o : Nat} {key : Bytes} {b : Bkt} {blk : Bytes} {Q : Option Bytes → World → Prop} (hb : Loaded b blk)
    (hks : 0 < ks) (ho : Only df.cur ks h o key (itemsIn blk)) : ∀ (fuel i : Nat) {w : World}, w.fs .dat = some df →
    (∀ r w', w'.fs = w.fs → r.isSome = (scanItems h o ((itemsIn blk).drop i)).1 →
      w'.clock = w.clock + (scanItems h o ((itemsIn blk).drop i)).2 + r.isSome.toNat → Q r w') →
    pc σ (fetchScan ks h key b fuel i) Q w
  | 0, _, _, _, _ => pc_raise
  | fuel + 1, i, w, hf, hQ => by
    have hlen : (itemsIn blk).length = countIn blk := by simp [itemsIn]
    unfold fetchScan
    split
    · rename_i hi
      have hi' : i < (itemsIn blk).length := by rw [hlen, ← hb.size]; exact hi
      apply wp_bind
      apply pc_lift
      intro e he
      have e1 := hb.get hi he
      have e2 : (itemsIn blk)[i] = e := by rw [e1]; simp [itemsIn]
      have hm : e ∈ itemsIn blk := by rw [← e2]; exact List.getElem_mem _
      rw [List.drop_eq_getElem_cons hi', e2] at hQ
      unfold scanItems at hQ
      split
      · rename_i h1
        rw [if_pos h1] at hQ
        exact wp_ret (hQ _ _ rfl rfl rfl)
      · rename_i h1
        rw [if_neg h1] at hQ
        simp only [ne_eq, Decidable.not_not] at h1
        apply wp_bind
        apply pc_fRead hf (by omega)
        intro _
        split
        · rename_i h2
          rw [if_pos ((ho e hm h1).1 h2)] at hQ
          exact wp_ret (hQ _ _ rfl rfl rfl)
        · rename_i h2
          rw [if_neg (fun h => h2 ((ho e hm h1).2 h))] at hQ
          apply pc_fetchScan hb hks ho fuel (i + 1) (w := w.tick w.fs) hf
          intro r w' a1 a2 a3
          refine hQ r w' a1 a2 ?_
          rw [a3]
          simp only [World.tick]
          omega
    · rename_i hi
      have : (itemsIn blk).drop i = [] := List.drop_eq_nil_of_le (by rw [hlen, ← hb.size]; omega)
      rw [this] at hQ
      exact wp_ret (hQ _ _ rfl rfl rfl)

private theorem pc_fetchBucket {c : Cfg} {kh : KeyHeader} {h o : Nat} {key : Bytes} {Q : Bytes → World → Prop} (h104 : 104 ≤ kh.blockSize)
    (hks : 0 < kh.keySize) : ∀ (fuel : Nat) {b : Bkt} {blk : Bytes} {bs : List Bytes} {w : World}, w.fs .dat = some df → Loaded b blk →
    Chained df.cur (bucketBytes kh.blockSize) blk bs → (∀ x ∈ bs, SortedBlk x) → Only df.cur kh.keySize h o key (bs.flatMap itemsIn) →
    (∀ v w', w'.clock = w.clock + searchCost o h bs → Q v w') → pc σ (fetchBucket c kh h key fuel b) Q w
  | 0, _, _, _, _, _, _, _, _, _, _ => pc_raise
  | fuel + 1, b, blk, bs, w, hf, hb, hch, hs, ho, hQ => by
    obtain ⟨t, rfl⟩ : ∃ t, bs = blk :: t := by cases hch <;> exact ⟨_, rfl⟩
    rw [List.flatMap_cons] at ho
    unfold fetchBucket
    apply wp_bind
    apply pc_lift
    intro i hi
    apply wp_bind
    apply pc_fetchScan hb hks (fun e he => ho e (List.mem_append_left _ he)) _ _ hf
    intro r w1 e1 hr hcl
    rw [scan_lower hb (hs _ (by simp)) hi] at hr hcl
    dsimp only at hr hcl
    unfold searchCost at hQ
    cases r with
    | some v =>
      simp only [Option.isSome_some, Bool.toNat_true] at hr hcl
      rw [← hr, if_pos rfl] at hcl
      have hr' : ((itemsIn blk).filter (fun e => e.hash == h)).any (fun e => e.offset == o) = true := hr.symm
      rw [if_pos hr'] at hQ
      refine wp_ret (hQ _ _ ?_)
      rw [hcl]; dsimp only [sameHash]; omega
    | none =>
      simp only [Option.isSome_none, Bool.toNat_false] at hr hcl
      rw [← hr, if_neg (by simp)] at hcl
      have hr' : ¬ ((itemsIn blk).filter (fun e => e.hash == h)).any (fun e => e.offset == o) = true := by
        rw [Bool.not_eq_true]; exact hr.symm
      rw [if_neg hr'] at hQ
      dsimp only
      split
      · exact pc_fail
      · rename_i h0
        cases hch with
        | last h => exact absurd (hb.spill.trans h) h0
        | more _ _ ht =>
          apply wp_bind
          apply pc_lift
          intro nb hnb
          have hbs : nb.bs = kh.blockSize := by
            unfold Bkt.ofMem at hnb
            simp only [bind, Except.bind, pure, Except.pure] at hnb
            split at hnb
            · cases hnb
            · split at hnb
              · cases hnb
              · cases hnb; rfl
          apply wp_bind
          have hf1 : w1.fs .dat = some df := by rw [e1]; exact hf
          refine wp_conseq (wp_run (pc_readFile (Q := fun b' w' => Quiet w1 w' ∧ Loaded b' (bytesAt df.cur b.spill (bucketBytes nb.bs)))
            hf1 (by omega) (fun b' w' q _ hl _ _ _ => ⟨q, hl⟩))) ?_ (fun _ _ h => h)
          rintro b' w2 ⟨⟨q, hl⟩, hrun⟩
          have hc2 := readFile_clock hrun
          rw [hb.spill, hbs] at hl
          apply pc_fetchBucket h104 hks fuel (w := w2) (by rw [q.fs]; exact hf1) hl ht (fun x hx => hs x (by simp [hx]))
            (fun e he => ho e (List.mem_append_right _ he))
          intro v w' hc'
          refine hQ v w' ?_
          rw [hc', hc2, hcl]
          dsimp only [sameHash]
          omega

end

private theorem items_at (hash : Bytes → Nat) (rs : List Rec) : ∀ o,
    (itemsOf hash o rs).map (fun x => (x.1.offset, x.2)) = located o (rs.map Rec.toRecord) := by
  induction rs with
  | nil => intro o; rfl
  | cons r rs ih =>
    intro o
    cases r with
    | data k v =>
      simp only [itemsOf, List.map_cons, Rec.toRecord, located, ih]
      rw [← toRecord_bytes]; rfl
    | spill es s =>
      simp only [itemsOf, List.map_cons, Rec.toRecord, located, ih]
      rw [← toRecord_bytes]; rfl

private theorem values_at : ∀ (o : Nat) (rs : List Record), (located o rs).map (·.2) = values rs
  | _, [] => rfl
  | o, .value k v :: rs => by
    show _ :: (located _ rs).map (·.2) = _
    rw [values_at]; rfl
  | o, .overflow b :: rs => by
    show (located _ rs).map (·.2) = _
    rw [values_at]; rfl

private theorem map_inj_of_nodup {α β : Type} (f : α → β) : ∀ {l : List α}, (l.map f).Nodup → ∀ x ∈ l, ∀ y ∈ l, f x = f y → x = y
  | [], _, _, h, _, _, _ => by cases h
  | z :: l, hn, x, hx, y, hy, e => by
    rw [List.map_cons, List.nodup_cons] at hn
    rcases List.mem_cons.1 hx with hx | hx <;> rcases List.mem_cons.1 hy with hy | hy
    · rw [hx, hy]
    · exact absurd (List.mem_map.2 ⟨y, hy, by rw [← e, hx]⟩) hn.1
    · exact absurd (List.mem_map.2 ⟨x, hx, by rw [e, hy]⟩) hn.1
    · exact map_inj_of_nodup f hn.2 x hx y hy e

section
variable {c : Cfg} {cf : Conf} {s : Store} {D K : Bytes} {recs : List Rec} {B : Nat} {view : View} {T : Nat → List Bytes}
  {σ : Schedule} {w : World}

private theorem only_at (h : Db c cf D K recs B view) {o : Nat} {k v : Bytes} (hy : (o, k, v) ∈ located 92 (recs.map Rec.toRecord))
    {l : List Entry} (hl : ∀ e ∈ l, e ∈ (items c cf recs).map (·.1)) {hh : Nat} : Only D cf.keySize hh o k l := by
  rw [← items_at (cf.hash c.H)] at hy
  obtain ⟨x0, hx0, e0⟩ := List.mem_map.1 hy
  simp only [Prod.mk.injEq] at e0
  obtain ⟨e1, e2⟩ := e0
  have hs0 := h.dat.stored (c := c) x0 hx0
  rw [e2] at hs0
  have hnd : ((items c cf recs).map (fun x => x.2.1)).Nodup := by
    have := h.dat.nodup
    rw [← itemsOf_pairs (cf.hash c.H) 92 recs, List.map_map] at this
    exact this
  intro e he _
  obtain ⟨x, hx, rfl⟩ := List.mem_map.1 (hl e he)
  have hs := h.dat.stored (c := c) x hx
  rw [hs.bytes, List.take_append_of_le_length (by rw [hs.key]; omega), List.take_of_length_le (by rw [hs.key]; omega)]
  constructor
  · intro ek
    have := map_inj_of_nodup _ hnd x hx x0 hx0 (by rw [ek, e2])
    rw [this, e1]
  · intro eo
    have a1 := stored_key hs
    have a2 := stored_key hs0
    rw [e1] at a2
    rw [← a1, eo, a2]

/-- The exact number of operations of a successful `fetch` of a stored key. -/
private theorem pc_fetch (h : Sess c cf s w.fs D K recs B view) (hp : s.p1 = []) (hT : GoodTable (cf.kh c.H B) D K T)
    (hP : ∀ n, n < B → ((T n).flatMap itemsIn).Perm (((items c cf recs).map (·.1)).filter (inBucket B (ceilPow2 B) n)))
    {o : Nat} {k v : Bytes} (hy : (o, k, v) ∈ located 92 (recs.map Rec.toRecord)) :
    pc σ (fetch c s k) (fun _ w' => w'.clock = w.clock + 1 + searchCost o (hashKey c.H cf.salt k) (T (homeOf c (cf.kh c.H B) k))) w := by
  obtain ⟨df, hd, sd⟩ := h.idle.dat
  obtain ⟨kf, hk, sk⟩ := h.idle.key
  obtain ⟨Bk, hkh⟩ := h.kh
  have hhome : homeOf c (cf.kh c.H B) k < B := by
    have h1 := h.db.b1
    have h2 := h.db.b2
    exact (C21_in_range h1 (by omega) _).2.1
  have hbs : s.kh.blockSize = cf.blockSize := by rw [hkh]; rfl
  have hsalt : s.kh.salt = cf.salt := by rw [hkh]; rfl
  have hks : s.kh.keySize = cf.keySize := by rw [hkh]; rfl
  have h104 : 104 ≤ cf.blockSize := hT.h104
  unfold fetch
  simp only [h.ec, hp, h.p0, h.c1, h.buckets, h.modulus, hsalt]
  apply wp_bind
  apply pc_lift
  intro n hn
  obtain rfl : n = homeOf c (cf.kh c.H B) k := bucketIndexA_inv hn
  apply wp_bind
  apply pc_lookupFuel
  intro fuel
  apply wp_bind
  apply pc_lift
  intro nb hnb
  have hnbs : nb.bs = cf.blockSize := by
    rw [← hbs]
    unfold Bkt.ofMem at hnb
    simp only [bind, Except.bind, pure, Except.pure] at hnb
    split at hnb
    · cases hnb
    · split at hnb
      · cases hnb
      · cases hnb; rfl
  apply wp_bind
  refine wp_conseq (wp_run (pc_readFile (Q := fun b' w' => Quiet w w' ∧
    Loaded b' (bytesAt kf.cur ((homeOf c (cf.kh c.H B) k + 1) * s.kh.blockSize) (bucketBytes nb.bs)))
    hk (by omega) (fun b' w' q _ hl _ _ _ => ⟨q, hl⟩))) ?_ (fun _ _ h => h)
  rintro b' w2 ⟨⟨q, hl⟩, hrun⟩
  have hc2 := readFile_clock hrun
  have hch := hT.chain _ hhome
  rw [hbs, hnbs, sk.cur] at hl
  rw [← sd.cur] at hch
  apply pc_fetchBucket (by rw [hbs]; exact h104) (by rw [hks]; exact h.db.conf.key1) fuel (w := w2) (by rw [q.fs]; exact hd) hl (by rw [hbs]; exact hch)
    (o := o)
  · intro b hb
    have hg := (hT.good _ hhome b hb).sorted
    rw [SortedBlk, List.pairwise_iff_getElem]
    intro i j hi hj hij
    simp only [itemsIn, List.length_map, List.length_range] at hi hj
    simpa [itemsIn] using hg i j (by omega) hj
  · rw [hks, sd.cur]
    apply only_at h.db hy
    intro e he
    exact (List.mem_filter.1 ((hP _ hhome).mem_iff.1 he)).1
  · intro v w' hc'
    rw [hc', hc2]

end

section
variable {c : Cfg} {a : CreateArgs} {lf : Nat} {short : Prop} {t : List Label} {fs : Fs}

/-- C80: `fetches`, the dividend of `avg_fetch`, is the number of file operations with which a store that was just opened
finds the values of all stored keys, not counting the last operation for each key, which reads the value itself. So `avg_fetch` is one
less than the mean number of operations of a `fetch`. -/
theorem C80_average {m : Map} {n : Nat} {σ σ' : Schedule} {w w' w0 w1 : World} {info : Info} {s : Store} (hc : Creatable a lf)
    (hr : Reachable c a short t (none, fs)) (hl : fs .log = none) (hm : Answers c a.keySize fs m)
    (hw : w.fs = fs) (hv : verify c n σ w = (.ok info, w')) (hw0 : w0.fs = fs) (ho : openStore c σ' w0 = (.ok s, w1)) :
    ∃ ps : List (Bytes × Bytes), (ps.map Prod.fst).Nodup ∧ (∀ k v, (k, v) ∈ ps ↔ k.length = a.keySize ∧ m k = some v) ∧
      info.valueCount = ps.length ∧ ∀ w2 : World, w2.fs = w1.fs →
        (∀ p ∈ ps, (fetch c s p.1 calm w2).1 = .ok p.2) ∧
        (ps.map (fun p => opsOf (fetch c s p.1) w2)).sum = info.fetches + info.valueCount := by
  obtain ⟨D, K, recs, B, view, hS, _⟩ := settled hc hr hl
  obtain ⟨df, hd, sd⟩ := hS.closed.dat
  obtain ⟨kf, hk, sk⟩ := hS.closed.key
  obtain ⟨cs, h, hcs, T, rfl, hT, hP⟩ := conforms_of (m := m) hS.db (fun k hk => hS.map.unique hm hk)
  have hkc := keys_counted hS.db hP
  obtain ⟨f, hf, hfs, hfe⟩ := fetches_counted hS.db hT hP
  have g := wp_elim (verify_counts hS.db (hw ▸ hd) (hw ▸ hk) sd.cur sk.cur hcs (by simp) hkc hf hfs) hv
  have hs1 : Safe c (a.conf lf) 0 (fun D' K' => D' = D ∧ K' = K) w0.fs := by rw [hw0]; exact hS.closed.safe ⟨rfl, rfl⟩
  obtain ⟨hSe, hp⟩ : Sess c (a.conf lf) s w1.fs D K recs B view ∧ s.p1 = [] :=
    wp_elim (wp_open (by rintro D' K' ⟨rfl, rfl⟩; exact ⟨_, _, _, hS.db⟩) (.inr (Nat.zero_le _)) hs1
      (Q := fun s w' => Sess c (a.conf lf) s w'.fs D K recs B view ∧ s.p1 = [])
      (by rintro s' w' D' K' _ _ _ ⟨rfl, rfl⟩ _ hS' hp _ _ _; exact ⟨hS' _ _ _ hS.db, hp⟩)) ho
  refine ⟨values (recs.map Rec.toRecord), h.keys, h.pairs, g.valueCount, fun w2 hw2 => ?_⟩
  have hok : ∀ p ∈ values (recs.map Rec.toRecord), (fetch c s p.1 calm w2).1 = .ok p.2 := by
    intro p hpm
    obtain ⟨hlen, hmp⟩ := (h.pairs p.1 p.2).1 hpm
    have := hSe.lookups w2 hw2 p.1 hlen
    rw [hp] at this
    rw [this, show poolPairs ([] : Pool) = [] from rfl, List.append_nil, hS.map.unique hm hlen, hmp]
  refine ⟨hok, ?_⟩
  rw [g.fetches, ← hfs, g.valueCount, ← values_at 92, List.map_map, List.length_map]
  unfold costSum
  have e : ∀ (l : List (Nat × Bytes × Bytes)) (u v : Nat × Bytes × Bytes → Nat), (∀ y ∈ l, u y = v y + 1) →
      (l.map u).sum = (l.map v).sum + l.length := by
    intro l u v
    induction l with
    | nil => intro _; rfl
    | cons y l ih =>
      intro hu
      have := ih (fun z hz => hu z (by simp [hz]))
      have := hu y (by simp)
      simp only [List.map_cons, List.sum_cons, List.length_cons]
      omega
  apply e
  rintro ⟨o, k, v⟩ hy
  have hmem : (k, v) ∈ values (recs.map Rec.toRecord) := by
    rw [← values_at 92]; exact List.mem_map.2 ⟨_, hy, rfl⟩
  have h1 := hok _ hmem
  have h2 := pc_fetch (σ := calm) (w := w2) (by rw [hw2]; exact hSe) hp hT hP hy
  have h3 := wp_elim (a := v) (w' := (fetch c s k calm w2).2) h2 (by rw [← h1])
  simp only [Function.comp, opsOf, hfe]
  rw [h3]
  show _ = searchCost o (hashKey c.H (a.conf lf).salt k) _ + 1
  omega

end

/-- The premises of C80: a database with nine pairs, some with equal hashes, and an overflow record in use. Each `fetch` reads the key file
once, which makes nine reads; the other 26 are those of the overflow record and of values with the same hash. So `avg_fetch` is not the number of
reads from the key file, as the documentation has it. -/
example : ∃ t fs m info s w' w1, Creatable demoArgs 32768 ∧ Reachable demoCfg demoArgs False t (none, fs) ∧ fs .log = none ∧
    Answers demoCfg demoArgs.keySize fs m ∧ verify demoCfg 100 calm ⟨fs, 0, []⟩ = (.ok info, w') ∧
    openStore demoCfg calm ⟨fs, 0, []⟩ = (.ok s, w1) ∧ info.valueCount = 9 ∧ info.fetches = 35 := by
  have h : demoTestClosed demoCfg demoArgs (demoOps.take 16) (fun w => (w.fs .log).isNone &&
      ((match verify demoCfg 100 calm ⟨w.fs, 0, []⟩ with
        | (.ok i, _) => i.valueCount == 9 && i.fetches == 35
        | _ => false) &&
      (match openStore demoCfg calm ⟨w.fs, 0, []⟩ with
        | (.ok _, _) => true
        | _ => false))) = true := by decide +kernel
  obtain ⟨rets, w, h1, h2⟩ := demo_test_closed (demoOps_sound 16) h
  simp only [Bool.and_eq_true, Option.isNone_iff_eq_none] at h2
  obtain ⟨g1, g2, g3⟩ := h2
  obtain ⟨D, K, recs, B, view, hS, _⟩ := settled demo_creatable h1 g1
  split at g2
  · rename_i i w' e
    split at g3
    · rename_i s w1 e'
      simp only [Bool.and_eq_true, beq_iff_eq] at g2
      exact ⟨_, w.fs, _, i, s, w', w1, demo_creatable, h1, g1, hS.map, e, e', g2⟩
    · cases g3
  · cases g2

end NuDB
