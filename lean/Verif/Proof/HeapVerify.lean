import Verif.Proof.HeapRekey
/-
The functions of `Model/HeapRead` simulate those that work with values: `verify`.
-/
namespace NuDB.Raw

/-! ### verify_normal -/

/-- Buckets of the same size in memory. -/
def Like (b b' : Bkt) : Prop := b.bs = b'.bs ∧ b.p.length = b'.p.length

theorem Near.like {b b' : Bkt} (h : Near b b') : Like b b' := ⟨h.bs, h.len⟩

theorem Near.seekEntry {b b' : Bkt} (h : Near b b') {x o : Nat} (fuel : Nat) : ∀ {i f : Nat},
    seekEntry x o b fuel i f = seekEntry x o b' fuel i f := by
  induction fuel with
  | zero => intros; rfl
  | succ fuel ih =>
    intro i f
    unfold NuDB.seekEntry
    rw [← h.size]
    by_cases hi : i < b.size
    · rw [if_pos hi, if_pos hi, h.get hi]
      congr 1
      funext it
      split
      · rfl
      · split
        · rfl
        · exact ih
    · rw [if_neg hi, if_neg hi]

theorem sim_seekValue {h o n : Nat} (fuel : Nat) : ∀ {b b' : Bkt} {f : Nat}, Near b b' → b.p.length = n →
    Sim (fun x y => x.2 = y ∧ x.1.bs = b.bs ∧ x.1.p.length = n) (rawSeekValue h o fuel b f) (seekValue h o fuel b' f) := by
  induction fuel with
  | zero => intros; exact Sim.raise
  | succ fuel ih =>
    intro b b' f hb hn
    unfold rawSeekValue seekValue
    rw [hb.lowerBound, hb.spill, hb.size]
    refine Sim.step fun i => ?_
    rw [hb.seekEntry]
    refine Sim.step fun x => ?_
    obtain ⟨found, g⟩ := x
    dsimp only
    by_cases hf : found = true
    · rw [if_pos hf, if_pos hf]; exact Sim.ret ⟨rfl, rfl, hn⟩
    · rw [if_neg hf, if_neg hf]
      by_cases hs : b'.spill = 0
      · rw [if_pos hs, if_pos hs]; exact Sim.fail
      · rw [if_neg hs, if_neg hs]
        refine Sim.bind (sim_shortAs _ (sim_readNear hb.bs hb.len)) ?_
        rintro x y ⟨k1, k2, k3, _⟩
        refine (ih k1 (k3.trans hn)).mono ?_
        rintro u v ⟨q1, q2, q3⟩
        exact ⟨q1, q2.trans k2, q3⟩

theorem rsim_pokeLike {p p' : Bytes} (hl : p.length = p'.length) (o : Nat) (d : Bytes) :
    RSim (fun x y => x.length = p.length ∧ y.length = p.length) (poke p o d) (poke p' o d) := by
  unfold poke
  rw [hl]
  by_cases h : o + d.length ≤ p'.length
  · rw [if_pos h, if_pos h]
    exact RSim.ret ⟨(put_length (by omega)).trans hl, put_length h⟩
  · rw [if_neg h, if_neg h]
    exact .inr rfl

theorem sim_readBulkLike {c : Cfg} {b b' : Bkt} {r : RawReader} {r' : Reader} (hb : Like b b') (h : r.abs = r') :
    Sim (fun x y => Like x.1 y.1 ∧ x.1.bs = b.bs ∧ x.1.p.length = b.p.length ∧ x.1.size = y.1.size ∧ x.2.abs = y.2)
      (rawReadBulk c b r) (b'.readBulk c r') := by
  unfold rawReadBulk Bkt.readBulk
  refine Sim.bind (R := fun x y => Like x.1 y.1 ∧ x.1.bs = b.bs ∧ x.1.p.length = b.p.length ∧ x.1.size = y.1.size ∧ x.2.abs = y.2) ?_ ?_
  · unfold rawReadHead Bkt.readHead
    refine Sim.bind (sim_rprepare h) ?_
    rintro ⟨is, r1⟩ ⟨bs, r1'⟩ ⟨h1, h2, h3⟩
    dsimp only at h1 h2 h3 ⊢
    obtain ⟨is2, e1, g2⟩ := h2.field (n := 2) (by omega)
    refine Sim.lift_left _ e1 ?_
    dsimp only
    obtain ⟨is3, e2, _⟩ := g2.field (n := 6) (by rw [List.length_drop]; omega)
    refine Sim.lift_left _ e2 ?_
    dsimp only
    rw [show bs.take 2 = slice bs 0 2 from take_eq_slice .., show (bs.drop 2).take 6 = slice bs 2 6 from rfl]
    refine Sim.bind (R := fun x y => Like x y ∧ x.bs = b.bs ∧ x.p.length = b.p.length ∧ x.size = y.size) (Sim.lift ?_) ?_
    · unfold Bkt.update
      refine rstep fun _ => rstep fun _ => ?_
      refine RSim.bind (rsim_pokeLike hb.2 ..) ?_
      rintro x y ⟨q1, q2⟩
      exact RSim.ret ⟨⟨hb.1, q1.trans q2.symm⟩, rfl, q1, rfl⟩
    · rintro x y ⟨q1, q2, q3, q4⟩
      exact Sim.ret ⟨q1, q2, q3, q4, h1⟩
  · rintro ⟨b1, r1⟩ ⟨b1', r1'⟩ ⟨q1, q2, q3, q4, q5⟩
    dsimp only at q1 q2 q3 q4 q5 ⊢
    unfold rawReadBody Bkt.readBody
    rw [q4]
    refine Sim.bind (sim_rprepare q5) ?_
    rintro ⟨is, r2⟩ ⟨bs, r2'⟩ ⟨h1, h2, h3⟩
    dsimp only at h1 h2 h3 ⊢
    obtain ⟨is2, e1, e2, _⟩ := h2.data (n := b1'.size * 18) (by omega)
    refine Sim.lift_left _ e1 ?_
    dsimp only
    refine Sim.lift_left _ e2 ?_
    rw [List.take_of_length_le (by omega)]
    refine Sim.bind (Sim.lift (rsim_pokeLike q1.2 ..)) ?_
    rintro x y ⟨k1, k2⟩
    exact Sim.ret ⟨⟨q1.1, k1.trans k2.symm⟩, q2, k1.trans q3, rfl, h1⟩

/-- The bucket of `verify_normal`: its block is followed by the memory of `pd`. -/
def Block (kh : KeyHeader) (b : Bkt) : Prop := b.bs = kh.blockSize ∧ b.p.length = kh.blockSize + (6 + kh.keySize)

theorem sim_normalStep {c : Cfg} {kh : KeyHeader} {nwork work : Nat} {b b' : Bkt} {r : RawReader} {r' : Reader} {info : Info}
    (hb : Like b b') (hk : Block kh b) (h : r.abs = r') :
    Sim (fun x y => Like x.1 y.1 ∧ Block kh x.1 ∧ x.2.1.abs = y.2.1 ∧ x.2.2 = y.2.2)
      (rawNormalStep c kh nwork b r work info) (normalStep c kh nwork b' r' work info) := by
  unfold rawNormalStep normalStep
  refine Sim.bind (sim_rprepare h) ?_
  rintro ⟨is, r1⟩ ⟨bs, r1'⟩ ⟨h1, h2, h3⟩
  dsimp only at h1 h2 h3 ⊢
  rw [abs_pos h]
  obtain ⟨is', e1⟩ := h2.whole h3
  refine Sim.lift_left _ e1 ?_
  dsimp only
  refine Sim.step fun size => ?_
  by_cases hs : size > 0
  · rw [if_pos hs, if_pos hs]
    refine Sim.bind (sim_rprepare h1) ?_
    rintro ⟨is2, r2⟩ ⟨bs2, r2'⟩ ⟨g1, g2, g3⟩
    dsimp only at g1 g2 g3 ⊢
    obtain ⟨is3, e3, e4, g4⟩ := g2.data (n := kh.keySize) (by omega)
    refine Sim.lift_left _ e3 ?_
    dsimp only
    obtain ⟨is5, e5, _, _⟩ := g4.data (n := size) (by rw [List.length_drop]; omega)
    refine Sim.lift_left _ e5 ?_
    refine Sim.lift_left _ e4 ?_
    refine Sim.step fun n => ?_
    refine Sim.bind (sim_readNear hb.1 hb.2) ?_
    rintro x y ⟨k1, k2, k3, _⟩
    refine Sim.step fun fuel => ?_
    refine Sim.bind (sim_seekValue fuel k1 k3) ?_
    rintro ⟨x2, f⟩ _ ⟨rfl, q1, q2⟩
    dsimp only at q1 q2 ⊢
    refine Sim.step fun _ => ?_
    exact Sim.ret ⟨⟨by dsimp only; rw [q1, k1.bs], by dsimp only; rw [q2, ← k3, k1.len]⟩, ⟨by dsimp only; rw [q1, k2, hk.1], by dsimp only; rw [q2, hk.2]⟩, g1, rfl⟩
  · rw [if_neg hs, if_neg hs]
    refine Sim.bind (sim_shortAs _ (sim_rprepare h1)) ?_
    rintro ⟨is2, r2⟩ ⟨bs2, r2'⟩ ⟨g1, g2, g3⟩
    dsimp only at g1 g2 g3 ⊢
    obtain ⟨is', e2⟩ := g2.whole g3
    refine Sim.lift_left _ e2 ?_
    dsimp only
    by_cases hz : getU16 bs2 ≠ bucketSize kh.capacity
    · rw [if_pos hz, if_pos hz]; exact Sim.fail
    · rw [if_neg hz, if_neg hz]
      refine Sim.bind (sim_shortAs _ (sim_readBulkLike hb g1)) ?_
      rintro ⟨x, r3⟩ ⟨y, r3'⟩ ⟨q1, q2, q3, q4, q5⟩
      dsimp only at q1 q2 q3 q4 q5 ⊢
      refine Sim.step fun _ => ?_
      refine Sim.ret ⟨q1, ⟨q2.trans hk.1, q3.trans hk.2⟩, q5, ?_⟩
      simp only [Bkt.actualSize, q4]

theorem sim_normalScan {c : Cfg} {kh : KeyHeader} {nwork : Nat} (fuel : Nat) : ∀ {work : Nat} {b b' : Bkt} {r : RawReader} {r' : Reader}
    {info : Info}, Like b b' → Block kh b → r.abs = r' →
    Sim (fun x y => Like x.1 y.1 ∧ Block kh x.1 ∧ x.2 = y.2)
      (rawNormalScan c kh nwork fuel b r work info) (normalScan c kh nwork fuel b' r' work info) := by
  induction fuel with
  | zero => intros; exact Sim.raise
  | succ fuel ih =>
    intro work b b' r r' info hb hk h
    unfold rawNormalScan normalScan
    rw [abs_eof h]
    by_cases he : r'.eof = true
    · rw [if_pos he, if_pos he]; exact Sim.ret ⟨hb, hk, rfl⟩
    · rw [if_neg he, if_neg he]
      refine Sim.bind (sim_normalStep hb hk h) ?_
      rintro ⟨x1, x2, x3⟩ ⟨y1, y2, y3⟩ ⟨q1, q2, q3, q4⟩
      dsimp only at q1 q2 q3 q4 ⊢
      subst q4
      exact ih q1 q2 q3

/-- A bucket of `verify_normal` that was read: the entries are in its block. -/
structure Loaded (kh : KeyHeader) (b b' : Bkt) : Prop where
  near : Near b b'
  block : Block kh b
  cap : b.size ≤ bucketCapacity kh.blockSize

theorem Loaded.pd {kh : KeyHeader} {b b' : Bkt} (h : Loaded kh b b') (hz : 0 < b.size) {d : Bytes} (hd : d.length = 6 + kh.keySize) :
    poke b.p kh.blockSize d = .ok (put b.p kh.blockSize d) ∧ Loaded kh { b with p := put b.p kh.blockSize d } b' := by
  have hl := h.block.2
  have hp : kh.blockSize + d.length ≤ b.p.length := by omega
  refine ⟨poke_ok hp, ⟨h.near.bs, h.near.size, h.near.spill, ?_, ?_⟩, ⟨h.block.1, ?_⟩, h.cap⟩
  · exact (put_length hp).trans h.near.len
  · show (put b.p kh.blockSize d).take (bucketSize b.size) = _
    rw [← h.near.body]
    have hc : bucketSize b.size ≤ kh.blockSize := by
      have := h.cap
      unfold bucketCapacity at this
      unfold bucketSize
      split at this
      · omega
      · rename_i hn
        simp at hn
        omega
    unfold put
    rw [List.take_append_of_le_length (by rw [List.length_append, List.length_take]; omega),
      List.take_append_of_le_length (by rw [List.length_take]; omega), List.take_take, Nat.min_eq_left hc]
  · exact (put_length hp).trans hl

theorem sim_normalEntries {c : Cfg} {kh : KeyHeader} {spill : Bool} {b' : Bkt} (fuel : Nat) : ∀ {i work : Nat} {b : Bkt}, Loaded kh b b' →
    Sim (fun x y => Loaded kh x.1 b' ∧ x.2 = y)
      (rawNormalEntries c kh spill fuel i b work) (normalEntries c kh b' spill fuel i work) := by
  induction fuel with
  | zero => intros; exact Sim.raise
  | succ fuel ih =>
    intro i work b hb
    unfold rawNormalEntries normalEntries
    rw [← hb.near.size]
    by_cases hi : i < b.size
    · rw [if_pos hi, if_pos hi, hb.near.get hi]
      refine Sim.step fun e => ?_
      refine Sim.bind (sim_shortAs _ (sim_fRead _ _ _)) ?_
      rintro d _ ⟨rfl, hd⟩
      obtain ⟨p1, p2⟩ := hb.pd (by omega) hd
      have hl := p2.block.2
      refine Sim.lift_left _ p1 ?_
      dsimp only at hl ⊢
      have hs : ∀ o n, o + n ≤ d.length → peek (put b.p kh.blockSize d) (kh.blockSize + o) n = .ok (slice d o n) := by
        intro o n hn
        rw [peek_ok (by omega)]
        congr 1
        have ht : (b.p.take kh.blockSize).length = kh.blockSize := by rw [List.length_take, hb.block.2]; omega
        unfold put slice
        rw [List.append_assoc, ← List.drop_drop, List.drop_left' ht, List.drop_append_of_le_length (by omega),
          List.take_append_of_le_length (by rw [List.length_drop]; omega)]
      refine Sim.lift_left _ (hs 0 6 (by omega)) ?_
      refine Sim.lift_left _ (hs 6 kh.keySize (by omega)) ?_
      by_cases h1 : getU48 (slice d 0 6) ≠ e.size
      · rw [if_pos h1, if_pos h1]; exact Sim.fail
      · rw [if_neg h1, if_neg h1]
        by_cases h2 : hashKey c.H kh.salt (slice d 6 kh.keySize) ≠ e.hash
        · rw [if_pos h2, if_pos h2]; exact Sim.fail
        · rw [if_neg h2, if_neg h2]; exact ih p2
    · rw [if_neg hi, if_neg hi]; exact Sim.ret ⟨hb, rfl⟩

theorem sim_readLoaded {kh : KeyHeader} {b b' : Bkt} {p : Path} {o : Nat} (hb : Like b b') (hk : Block kh b) :
    Sim (Loaded kh) (b.readFile p o) (b'.readFile p o) := by
  refine (sim_readNear hb.1 hb.2).mono ?_
  rintro x y ⟨k1, k2, k3, k4⟩
  exact ⟨k1, ⟨k2.trans hk.1, k3.trans hk.2⟩, hk.1 ▸ k4⟩

theorem sim_normalChain {c : Cfg} {kh : KeyHeader} (fuel : Nat) : ∀ {b b' : Bkt} {spill : Bool} {work nspill : Nat} {info : Info}, Loaded kh b b' →
    Sim (fun x y => Like x.1 y.1 ∧ Block kh x.1 ∧ x.2 = y.2)
      (rawNormalChain c kh fuel b spill work nspill info) (normalChain c kh fuel b' spill work nspill info) := by
  induction fuel with
  | zero => intros; exact Sim.raise
  | succ fuel ih =>
    intro b b' spill work nspill info hb
    unfold rawNormalChain normalChain
    dsimp only
    rw [hb.near.size]
    refine Sim.bind (sim_normalEntries _ hb) ?_
    rintro ⟨x, w⟩ _ ⟨q1, rfl⟩
    dsimp only at q1 ⊢
    rw [q1.near.spill]
    by_cases hs : b'.spill = 0
    · rw [if_pos hs, if_pos hs]; exact Sim.ret ⟨q1.near.like, q1.block, rfl⟩
    · rw [if_neg hs, if_neg hs]
      refine Sim.bind (sim_readLoaded q1.near.like q1.block) ?_
      rintro u v k
      rw [k.near.actual]
      exact ih k

theorem sim_normalBuckets {c : Cfg} {kh : KeyHeader} {nwork : Nat} (k : Nat) : ∀ {n work : Nat} {b b' : Bkt} {info : Info}, Like b b' → Block kh b →
    Sim Eq (rawNormalBuckets c kh nwork k n b work info) (normalBuckets c kh nwork k n b' work info) := by
  induction k with
  | zero => intros; exact Sim.ret rfl
  | succ k ih =>
    intro n work b b' info hb hk
    unfold rawNormalBuckets normalBuckets
    refine Sim.bind (sim_readLoaded hb hk) ?_
    rintro x y q
    refine Sim.step fun fuel => ?_
    refine Sim.bind (sim_normalChain fuel q) ?_
    rintro ⟨x1, x2⟩ ⟨y1, y2⟩ ⟨q1, q2, q3⟩
    dsimp only at q1 q2 q3 ⊢
    subst q3
    exact Sim.step fun _ => ih q1 q2

theorem sim_verifyNormal {c : Cfg} {kh : KeyHeader} {d k : Nat} : Sim Eq (rawVerifyNormal c kh d k) (verifyNormal c kh d k) := by
  unfold rawVerifyNormal verifyNormal
  refine Sim.step fun _ => ?_
  refine Sim.bind (Sim.lift (rsim_ofMem rfl)) ?_
  rintro x y ⟨q1, q2, q3, q4⟩
  refine Sim.bind (sim_normalScan _ ⟨q1.trans q2.symm, by rw [q3, q4]⟩ ⟨q1, by rw [q3, fresh_len]⟩ (abs_new ..)) ?_
  rintro ⟨x1, x2⟩ ⟨y1, y2⟩ ⟨k1, k2, k3⟩
  dsimp only at k1 k2 k3 ⊢
  subst k3
  exact sim_normalBuckets _ k1 k2

/-! ### verify_fast -/

/-- The buffer of `verify_fast`: the blocks of the chunk, and the block of `tmp`. -/
structure Laid (n : Nat) (t : Tmp) (m mem : Bytes) (b : Bkt) : Prop where
  bs : t.bs = b.bs
  size : t.size = b.size
  spill : t.spill = b.spill
  at_ : t.at_ = n
  len : mem.length = n
  eq : m = mem ++ b.p

theorem Laid.over {n : Nat} {t : Tmp} {m mem : Bytes} {b : Bkt} (h : Laid n t m mem b) : t.over m = b := by
  unfold Tmp.over
  rw [h.bs, h.size, h.spill, h.at_, h.eq, List.drop_left' h.len]

theorem Laid.back {n : Nat} {t : Tmp} {m mem : Bytes} {b x : Bkt} (h : Laid n t m mem b) : t.back m x = mem ++ x.p := by
  unfold Tmp.back
  rw [h.at_, h.eq, List.take_left' h.len]

theorem sim_readBs {b : Bkt} {p : Path} {o : Nat} : Sim (fun x y => x = y ∧ y.bs = b.bs) (b.readFile p o) (b.readFile p o) := by
  unfold Bkt.readFile
  refine Sim.step fun d => Sim.step fun q => ?_
  refine Sim.bind (Sim.lift (RSim.and (RSim.refl _) (P := fun y => y.bs = b.bs) (fun y hy => ofMem_bs hy))) ?_
  rintro x _ ⟨rfl, hx⟩
  split
  · exact Sim.fail
  · exact Sim.ret ⟨rfl, hx⟩

theorem sim_fastCount {n : Nat} {mem : Bytes} (fuel : Nat) : ∀ {spill nkeys nspill : Nat} {t : Tmp} {m : Bytes} {b : Bkt} {info : Info},
    Laid n t m mem b →
    Sim (fun x y => Laid n x.1 x.2.1 mem y.1 ∧ x.2.2 = y.2)
      (rawFastCount fuel spill t m nkeys nspill info) (fastCount fuel spill b nkeys nspill info) := by
  induction fuel with
  | zero => intros; exact Sim.raise
  | succ fuel ih =>
    intro spill nkeys nspill t m b info hL
    unfold rawFastCount fastCount
    by_cases hs : spill ≠ 0
    · rw [if_pos hs, if_pos hs, hL.over]
      refine Sim.bind (sim_shortAs _ sim_readBs) ?_
      rintro x _ ⟨rfl, hx⟩
      rw [hL.back]
      exact ih ⟨hL.bs.trans hx.symm, rfl, rfl, hL.at_, hL.len, rfl⟩
    · rw [if_neg hs, if_neg hs]; exact Sim.ret ⟨hL, rfl⟩

theorem sim_fastCounts {bs n : Nat} {mem : Bytes} (k : Nat) : ∀ {i : Nat} {t : Tmp} {m : Bytes} {b : Bkt} {info : Info}, Laid n t m mem b →
    (i + k) * bs ≤ n →
    Sim (fun x y => Laid n x.1 x.2.1 mem y.1 ∧ x.2.2 = y.2) (rawFastCounts bs k i t m info) (fastCounts bs mem k i b info) := by
  induction k with
  | zero => intro i t m b info hL _; exact Sim.ret ⟨hL, rfl⟩
  | succ k ih =>
    intro i t m b info hL hn
    unfold rawFastCounts fastCounts
    have hd : m.drop (i * bs) = slice mem (i * bs) bs ++ ((mem.drop (i * bs)).drop bs ++ b.p) := by
      have : i * bs ≤ mem.length := by
        rw [hL.len]
        exact Nat.le_trans (Nat.mul_le_mul_right _ (by omega)) hn
      rw [hL.eq, List.drop_append_of_le_length this]
      unfold slice
      rw [← List.append_assoc, List.take_append_drop]
    rw [hd]
    refine Sim.bind (Sim.lift ext_ofMem) ?_
    rintro _ y ⟨rfl, _⟩
    refine Sim.step fun fuel => ?_
    refine Sim.bind (sim_fastCount fuel hL) ?_
    rintro ⟨x1, x2, x3⟩ ⟨y1, y3⟩ ⟨q1, q2⟩
    dsimp only at q1 q2 ⊢
    subst q2
    obtain ⟨nk, ns, info1⟩ := x3
    dsimp only
    refine Sim.bind (ih q1 (by rw [show i + 1 + k = i + (k + 1) by omega]; exact hn)) ?_
    rintro ⟨u1, u2, u3⟩ ⟨v1, v3⟩ ⟨k1, k2⟩
    dsimp only at k1 k2 ⊢
    subst k2
    exact Sim.ret ⟨k1, rfl⟩

theorem sim_seekValueFast {h o n : Nat} {t : Tmp} {mem : Bytes} (fuel : Nat) : ∀ {x : Tmp} {m : Bytes} {b b' : Bkt} {f : Nat},
    Laid n t m mem b → x.over m = b' →
    Sim (fun u v => u.1 = v.1 ∧ Laid n t u.2 mem v.2) (rawSeekValueFast h o t fuel x m f) (seekValueFast h o fuel b' b f) := by
  induction fuel with
  | zero => intros; exact Sim.raise
  | succ fuel ih =>
    intro x m b b' f hL hx
    unfold rawSeekValueFast seekValueFast
    rw [hx, show x.size = b'.size from hx ▸ rfl, show x.spill = b'.spill from hx ▸ rfl]
    refine Sim.step fun i => Sim.step fun y => ?_
    obtain ⟨found, g⟩ := y
    dsimp only
    by_cases hf : found = true
    · rw [if_pos hf, if_pos hf]; exact Sim.ret ⟨rfl, hL⟩
    · rw [if_neg hf, if_neg hf]
      by_cases hs : b'.spill = 0
      · rw [if_pos hs, if_pos hs]; exact Sim.fail
      · rw [if_neg hs, if_neg hs, hL.over]
        refine Sim.bind (sim_shortAs _ sim_readBs) ?_
        rintro z _ ⟨rfl, hz⟩
        rw [hL.back]
        have hL2 : Laid n t (mem ++ z.p) mem { b with p := z.p } := ⟨hL.bs, hL.size, hL.spill, hL.at_, hL.len, rfl⟩
        refine ih hL2 ?_
        exact Laid.over (n := n) (mem := mem) ⟨hL.bs.trans hz.symm, rfl, rfl, hL.at_, hL.len, rfl⟩

theorem sim_fastStep {c : Cfg} {kh : KeyHeader} {b0 b1 work nwork n : Nat} {t : Tmp} {m mem : Bytes} {b : Bkt} {nkeys : List Nat} {r : RawReader}
    {r' : Reader} {info : Info} (hL : Laid n t m mem b) (hn : (b1 - b0) * kh.blockSize ≤ n) (h : r.abs = r') :
    Sim (fun x y => Laid n t x.1 mem y.1 ∧ x.2.1 = y.2.1 ∧ x.2.2.1.abs = y.2.2.1 ∧ x.2.2.2 = y.2.2.2)
      (rawFastStep c kh b0 b1 work nwork t m nkeys r info) (fastStep c kh b0 b1 work nwork mem b nkeys r' info) := by
  unfold rawFastStep fastStep
  refine Sim.bind (sim_shortAs _ (sim_rprepare h)) ?_
  rintro ⟨is, r1⟩ ⟨bs, r1'⟩ ⟨h1, h2, h3⟩
  dsimp only at h1 h2 h3 ⊢
  rw [abs_pos h]
  obtain ⟨is', e1⟩ := h2.whole h3
  refine Sim.lift_left _ e1 ?_
  dsimp only
  refine Sim.step fun size => ?_
  by_cases hs : size > 0
  · rw [if_pos hs, if_pos hs]
    refine Sim.bind (sim_shortAs _ (sim_rprepare h1)) ?_
    rintro ⟨is2, r2⟩ ⟨bs2, r2'⟩ ⟨g1, g2, g3⟩
    dsimp only at g1 g2 g3 ⊢
    obtain ⟨is3, e3, e4, g4⟩ := g2.data (n := kh.keySize) (by omega)
    refine Sim.lift_left _ e3 ?_
    dsimp only
    obtain ⟨is5, e5, _, _⟩ := g4.data (n := size) (by rw [List.length_drop]; omega)
    refine Sim.lift_left _ e5 ?_
    refine Sim.lift_left _ e4 ?_
    refine Sim.step fun k => ?_
    by_cases hk : k < b0 ∨ k ≥ b1
    · rw [if_pos hk, if_pos hk]
      exact Sim.ret ⟨hL, rfl, g1, rfl⟩
    · rw [if_neg hk, if_neg hk]
      have hd : m.drop ((k - b0) * kh.blockSize) = mem.drop ((k - b0) * kh.blockSize) ++ b.p := by
        have : (k - b0) * kh.blockSize ≤ mem.length := by
          rw [hL.len]
          exact Nat.le_trans (Nat.mul_le_mul_right _ (by omega)) hn
        rw [hL.eq, List.drop_append_of_le_length this]
      rw [hd]
      refine Sim.bind (Sim.lift (RSim.and (RSim.refl _)
        (P := fun y => y.bs = kh.blockSize ∧ y.p = mem.drop ((k - b0) * kh.blockSize) ++ b.p) (fun y hy => ⟨ofMem_bs hy, ofMem_p hy⟩))) ?_
      rintro x _ ⟨rfl, hx1, hx2⟩
      refine Sim.step fun fuel => ?_
      refine Sim.bind (sim_seekValueFast fuel hL (b' := x) ?_) ?_
      · unfold Tmp.over
        dsimp only
        rw [hd, ← hx2, ← hx1]
      · rintro ⟨u1, u2⟩ ⟨_, v2⟩ ⟨rfl, k2⟩
        dsimp only at k2 ⊢
        by_cases hz : nkeys.getD (k - b0) 0 = 0
        · rw [if_pos hz, if_pos hz]; exact Sim.fail
        · rw [if_neg hz, if_neg hz]
          exact Sim.step fun _ => Sim.ret ⟨k2, rfl, g1, rfl⟩
  · rw [if_neg hs, if_neg hs]
    refine Sim.bind (sim_shortAs _ (sim_rprepare h1)) ?_
    rintro ⟨is2, r2⟩ ⟨bs2, r2'⟩ ⟨g1, g2, g3⟩
    dsimp only at g1 g2 g3 ⊢
    obtain ⟨is', e2⟩ := g2.whole g3
    refine Sim.lift_left _ e2 ?_
    dsimp only
    by_cases hz : bucketSize (bucketCapacity (getU16 bs2)) ≠ getU16 bs2
    · rw [if_pos hz, if_pos hz]; exact Sim.fail
    · rw [if_neg hz, if_neg hz]
      refine Sim.bind (sim_shortAs _ (sim_rprepare g1)) ?_
      rintro ⟨is3, r3⟩ ⟨bs3, r3'⟩ ⟨k1, _, _⟩
      dsimp only at k1 ⊢
      refine Sim.step fun _ => ?_
      refine Sim.ret ⟨hL, rfl, k1, ?_⟩
      dsimp only
      rw [show b.actualSize = bucketSize t.size by rw [hL.size]; rfl]

theorem sim_fastScan {c : Cfg} {kh : KeyHeader} {b0 b1 work nwork n : Nat} {t : Tmp} {mem : Bytes} (hn : (b1 - b0) * kh.blockSize ≤ n)
    (fuel : Nat) : ∀ {m : Bytes} {b : Bkt} {nkeys : List Nat} {r : RawReader} {r' : Reader} {info : Info}, Laid n t m mem b → r.abs = r' →
    Sim (fun x y => Laid n t x.1 mem y.1 ∧ x.2 = y.2)
      (rawFastScan c kh b0 b1 work nwork t fuel m nkeys r info) (fastScan c kh b0 b1 work nwork mem fuel b nkeys r' info) := by
  induction fuel with
  | zero => intros; exact Sim.raise
  | succ fuel ih =>
    intro m b nkeys r r' info hL h
    unfold rawFastScan fastScan
    rw [abs_eof h]
    by_cases he : r'.eof = true
    · rw [if_pos he, if_pos he]; exact Sim.ret ⟨hL, rfl⟩
    · rw [if_neg he, if_neg he]
      refine Sim.bind (sim_fastStep hL hn h) ?_
      rintro ⟨x1, x2, x3, x4⟩ ⟨y1, y2, y3, y4⟩ ⟨q1, q2, q3, q4⟩
      dsimp only at q1 q2 q3 q4 ⊢
      subst q2 q4
      exact ih q1 q3

theorem sim_fastChunks {c : Cfg} {kh : KeyHeader} {size chunk nwork : Nat} (fuel : Nat) : ∀ {b0 work : Nat} {t : Tmp} {m mem : Bytes} {b : Bkt}
    {info : Info}, Laid (chunk * kh.blockSize) t m mem b →
    Sim Eq (rawFastChunks c kh size chunk nwork fuel b0 work m t info) (fastChunks c kh size chunk nwork fuel b0 work mem b info) := by
  induction fuel with
  | zero => intros; exact Sim.raise
  | succ fuel ih =>
    intro b0 work t m mem b info hL
    unfold rawFastChunks fastChunks
    by_cases hb : b0 < kh.buckets
    · rw [if_pos hb, if_pos hb]
      have hn : (min (b0 + chunk) kh.buckets - b0) * kh.blockSize ≤ chunk * kh.blockSize := Nat.mul_le_mul_right _ (by omega)
      dsimp only
      refine Sim.step fun data => ?_
      rw [hL.eq]
      refine Sim.bind (Sim.lift (rsim_poke ..)) ?_
      rintro _ mem1 ⟨rfl, hm⟩
      have hL1 : Laid (chunk * kh.blockSize) t (mem1 ++ b.p) mem1 b := ⟨hL.bs, hL.size, hL.spill, hL.at_, hm.trans hL.len, rfl⟩
      refine Sim.step fun _ => ?_
      refine Sim.bind (sim_fastCounts _ hL1 (by rw [Nat.zero_add]; exact hn)) ?_
      rintro ⟨x1, x2, x3⟩ ⟨y1, y3⟩ ⟨q1, q2⟩
      dsimp only at q1 q2 ⊢
      subst q2
      refine Sim.bind (sim_fastScan hn _ q1 (abs_new ..)) ?_
      rintro ⟨u1, u2⟩ ⟨v1, v2⟩ ⟨k1, k2⟩
      dsimp only at k1 k2 ⊢
      subst k2
      split
      · exact Sim.fail
      · exact ih k1
    · rw [if_neg hb, if_neg hb]; exact Sim.ret rfl

theorem sim_verifyFast {c : Cfg} {kh : KeyHeader} {d k n : Nat} : Sim Eq (rawVerifyFast c kh d k n) (verifyFast c kh d k n) := by
  unfold rawVerifyFast verifyFast
  by_cases hb : n < 2 * kh.blockSize + 8
  · rw [if_pos hb, if_pos hb]; exact Sim.raise
  · rw [if_neg hb, if_neg hb]
    refine Sim.step fun _ => ?_
    dsimp only
    generalize fastChunk kh n = chunk
    refine Sim.bind (Sim.lift (RSim.and (RSim.refl _) (P := fun y : Bkt => y.bs = kh.blockSize ∧
      y.p = (c.fresh ((chunk + 1) * kh.blockSize)).drop (chunk * kh.blockSize)) (fun y hy => ⟨ofMem_bs hy, ofMem_p hy⟩))) ?_
    rintro x _ ⟨rfl, h1, h2⟩
    refine sim_fastChunks _ ⟨h1.symm, rfl, rfl, rfl, ?_, ?_⟩
    · rw [List.length_take, fresh_len, Nat.min_eq_left (Nat.mul_le_mul_right _ (by omega))]
    · rw [h2, List.take_append_drop]

theorem sim_verify {c : Cfg} {n : Nat} : Sim Eq (rawVerify c n) (verify c n) := by
  unfold rawVerify verify
  refine Sim.step fun _ => Sim.step fun _ => Sim.step fun _ => Sim.step fun _ => Sim.step fun kh => Sim.step fun _ => Sim.step fun _ =>
    Sim.step fun k => Sim.step fun d => ?_
  split
  · exact sim_verifyNormal
  · exact sim_verifyFast

end NuDB.Raw
