import Verif.Proof.VerifySound3
import Verif.Props.Address
/- What a successful run of `verify` implies for arbitrary files: the whole function. -/
namespace NuDB

open Spec

/-- The headers of data file `D` and key file `K` pass all tests, `kh` is that of `K`. -/
structure Heads (c : Cfg) (D K : Bytes) (kh : KeyHeader) : Prop where
  dlen : 92 ≤ D.length
  klen : 104 ≤ K.length
  head : kh = getKeyHeader (slice K 0 104) K.length
  dat : verifyDat (getDatHeader (slice D 0 92)) = .ok ()
  key : verifyKey c.H kh = .ok ()
  both : verifyDatKey c.H (getDatHeader (slice D 0 92)) kh = .ok ()

theorem head_slice {f : Bytes} {n o m : Nat} (h : o + m ≤ n) : slice (slice f 0 n) o m = bytesAt f o m := by
  unfold slice bytesAt
  rw [List.drop_zero, List.drop_take, List.take_take]
  congr 1
  omega

theorem bytesAt_len {f : Bytes} {o n : Nat} (h : o + n ≤ f.length) : (bytesAt f o n).length = n := by
  simp [bytesAt]; omega

section
variable {c : Cfg} {D K : Bytes} {kh : KeyHeader}

theorem Heads.blockSize (h : Heads c D K kh) : kh.blockSize = blockSizeOf K := by
  have hl := h.klen
  rw [h.head]
  simp only [getKeyHeader, blockSizeOf]
  rw [head_slice (by omega), C18_u16.reads _ (bytesAt_len (by omega))]

theorem Heads.keySize (h : Heads c D K kh) : kh.keySize = keySizeOf K := by
  have hl := h.klen
  rw [h.head]
  simp only [getKeyHeader, keySizeOf]
  rw [head_slice (by omega), C18_u16.reads _ (bytesAt_len (by omega))]

theorem Heads.salt (h : Heads c D K kh) : kh.salt = saltOf K := by
  have hl := h.klen
  rw [h.head]
  simp only [getKeyHeader, saltOf]
  rw [head_slice (by omega), C18_u64.reads _ (bytesAt_len (by omega))]

theorem Heads.modulus (h : Heads c D K kh) : kh.modulus = ceilPow2 kh.buckets := by
  rw [h.head]; rfl

theorem Heads.capacity (h : Heads c D K kh) : kh.capacity = bucketCapacity kh.blockSize := by
  rw [h.head]; rfl

theorem Heads.bs16 (h : Heads c D K kh) : kh.blockSize < 2 ^ 16 := by
  have hl := h.klen
  rw [h.head]
  simp only [getKeyHeader]
  exact getU16_lt (by rw [head_slice (by omega)]; exact bytesAt_len (by omega))

theorem Heads.checks (h : Heads c D K kh) : 1 ≤ kh.keySize ∧ 1 ≤ kh.loadFactor ∧ 1 ≤ kh.capacity ∧ 1 ≤ kh.buckets := by
  have h1 := h.key
  unfold verifyKey at h1
  split at h1
  · cases h1
  split at h1
  · cases h1
  split at h1
  · cases h1
  split at h1
  · cases h1
  split at h1
  · cases h1
  split at h1
  · cases h1
  split at h1
  · cases h1
  omega

theorem Heads.h104 (h : Heads c D K kh) : 104 ≤ kh.blockSize := by
  have h1 := h.checks.2.2.1
  rw [h.capacity] at h1
  unfold bucketCapacity keyHeaderSize at h1
  split at h1
  · omega
  · rename_i h2
    simp at h2
    omega

theorem Heads.buckets (h : Heads c D K kh) : kh.buckets = bucketsOf K := by
  have h1 := h.h104
  unfold bucketsOf
  rw [← h.blockSize]
  have e : kh.buckets = bucketsOfSize K.length kh.blockSize := by rw [h.head]; rfl
  rw [e]
  unfold bucketsOfSize
  split
  · rw [if_pos (by omega)]
    rename_i hgt
    have : K.length = (K.length - kh.blockSize) + kh.blockSize := by omega
    have h2 : K.length / kh.blockSize = (K.length - kh.blockSize) / kh.blockSize + 1 := by
      conv => lhs; rw [this]
      exact Nat.add_div_right _ (by omega)
    rw [h2]; rfl
  · rename_i hgt
    rcases Nat.lt_or_ge K.length kh.blockSize with h2 | h2
    · rw [Nat.div_eq_of_lt h2]
    · rw [show K.length = kh.blockSize by omega, Nat.div_self (by omega)]

theorem Heads.klen' (h : Heads c D K kh) : (kh.buckets + 1) * kh.blockSize ≤ K.length := by
  have h1 := h.h104
  have h2 := h.checks.2.2.2
  rw [h.buckets] at h2 ⊢
  unfold bucketsOf at h2 ⊢
  rw [← h.blockSize] at h2 ⊢
  rw [show K.length / kh.blockSize - 1 + 1 = K.length / kh.blockSize by omega]
  exact Nat.div_mul_le_self _ _

theorem Heads.b64 (h : Heads c D K kh) (h64 : K.length < 2 ^ 64) : kh.buckets < 2 ^ 64 := by
  have h1 := h.h104
  have h2 := h.klen'
  have h3 : (kh.buckets + 1) * 104 ≤ (kh.buckets + 1) * kh.blockSize := Nat.mul_le_mul_left _ h1
  omega

theorem Heads.addressed (h : Heads c D K kh) (h64 : K.length < 2 ^ 64) (k : Bytes) :
    Addressed (hash48 (c.H (UInt64.ofNat (saltOf K)) k)) (bucketsOf K) (homeOf c kh k) ∧ homeOf c kh k < bucketsOf K := by
  have h1 := h.checks.2.2.2
  have h2 := h.b64 h64
  have := C21_in_range h1 h2 (hashKey c.H kh.salt k)
  rw [← h.modulus] at this
  unfold homeOf
  rw [← hashKey_eq, ← h.salt, ← h.buckets]
  exact ⟨this.2.2, this.2.1⟩

end

theorem addressed_unique {h n i j : Nat} (hi : Addressed h n i) (hj : Addressed h n j) : i = j := by
  obtain ⟨m, ⟨⟨a, ha⟩, hm, hm'⟩, hi⟩ := hi
  obtain ⟨m', ⟨⟨b, hb⟩, hn, hn'⟩, hj⟩ := hj
  have h1 := hm' b (hb ▸ hn)
  have h2 := hn' a (ha ▸ hm)
  have e : m = m' := by omega
  subst e
  omega

section
variable {σ : Schedule} {c : Cfg} {df kf : FileSt} {w : World}

theorem pc_verify {n : Nat} {Q : Info → World → Prop} (hf : w.fs .dat = some df) (hk : w.fs .key = some kf)
    (hn : ∀ kh w', w'.fs = w.fs → Heads c df.cur kf.cur kh → chooseNormal kh df.cur.length kf.cur.length n = true →
      pc σ (verifyNormal c kh df.cur.length kf.cur.length) Q w')
    (hs : ∀ kh w', w'.fs = w.fs → Heads c df.cur kf.cur kh → chooseNormal kh df.cur.length kf.cur.length n = false →
      pc σ (verifyFast c kh df.cur.length kf.cur.length n) Q w') : pc σ (verify c n) Q w := by
  have ht : ∀ (x : Exc) (w : World), IsFault x → Faulty σ → (fun (_ : Exc) (_ : World) => True) x w := fun _ _ _ _ => trivial
  unfold verify
  apply wp_bind
  apply wp_fOpen hf _ (fun x _ _ => trivial)
  apply wp_bind
  apply wp_fOpen (by exact hk) _ (fun x _ _ => trivial)
  apply wp_bind
  unfold readDatHeader
  apply wp_bind
  apply pc_fRead (f := df) (by exact hf) (by decide)
  intro h92
  apply wp_ret
  apply wp_bind
  apply pc_check
  intro u hv1
  apply wp_bind
  unfold readKeyHeader
  apply wp_bind
  apply pc_fRead (f := kf) (by exact hk) (by decide)
  intro h104
  apply wp_bind
  apply wp_fSize (by exact hk) _ (by exact fun x _ _ => trivial)
  apply wp_ret
  apply wp_bind
  apply pc_check
  intro u hv2
  apply wp_bind
  apply pc_check
  intro u hv3
  apply wp_bind
  apply wp_fSize (by exact hk) _ (by exact fun x _ _ => trivial)
  apply wp_bind
  apply wp_fSize (by exact hf) _ (by exact fun x _ _ => trivial)
  simp only [datHeaderSize, keyHeaderSize, Nat.zero_add] at h92 h104
  have hh : Heads c df.cur kf.cur (getKeyHeader (slice kf.cur 0 104) kf.cur.length) := ⟨h92, h104, rfl, hv1, hv2, hv3⟩
  split
  · rename_i hc
    exact hn _ _ rfl hh hc
  · rename_i hc
    exact hs _ _ rfl hh (by simpa using hc)

variable {kh : KeyHeader}

theorem pc_any {m : M α} {Q : α → World → Prop} (h : ∀ a w', Q a w') : pc σ m Q w := by
  show wp σ m Q _ w
  unfold wp
  cases hm : m σ w with
  | mk r w' =>
    cases r with
    | ok a => exact h a w'
    | error x => exact trivial

theorem pc_normalScan_alg {nwork : Nat} {Q : Bkt × Nat × Info → World → Prop} (fuel : Nat) : ∀ {b : Bkt} {r : Reader} {work : Nat} {info : Info} {w : World},
    (∀ b' work' info' w', info'.algorithm = info.algorithm → Q (b', work', info') w') →
    pc σ (normalScan c kh nwork fuel b r work info) Q w := by
  induction fuel with
  | zero => intros; exact pc_raise
  | succ fuel ih =>
    intro b r work info w hQ
    unfold normalScan
    split
    · exact wp_ret (hQ _ _ _ _ rfl)
    · apply wp_bind
      unfold normalStep
      dsimp only
      apply wp_bind; apply pc_any; intro _ _
      apply wp_bind; apply pc_any; intro _ _
      split
      · apply wp_bind; apply pc_any; intro _ _
        apply wp_bind; apply pc_any; intro _ _
        apply wp_bind; apply pc_any; intro _ _
        apply wp_bind; apply pc_any; intro _ _
        apply wp_bind; apply pc_any; intro _ _
        apply wp_bind; apply pc_any; intro _ _
        apply wp_ret
        exact ih (fun _ _ _ _ h => hQ _ _ _ _ h)
      · apply wp_bind; apply pc_any; intro _ _
        split
        · exact pc_fail
        apply wp_bind; apply pc_any; intro _ _
        apply wp_bind; apply pc_any; intro _ _
        apply wp_ret
        exact ih (fun _ _ _ _ h => hQ _ _ _ _ h)

theorem pc_normalChain_alg {Q : Bkt × Nat × Nat × Info → World → Prop} (fuel : Nat) : ∀ {b : Bkt} {sp : Bool} {work n : Nat} {info : Info} {w : World},
    (∀ b' work' n' info' w', info'.algorithm = info.algorithm → Q (b', work', n', info') w') →
    pc σ (normalChain c kh fuel b sp work n info) Q w := by
  induction fuel with
  | zero => intros; exact pc_raise
  | succ fuel ih =>
    intro b sp work n info w hQ
    unfold normalChain
    dsimp only
    apply wp_bind; apply pc_any; intro _ _
    split
    · exact wp_ret (hQ _ _ _ _ _ rfl)
    · apply wp_bind; apply pc_any; intro _ _
      exact ih (fun _ _ _ _ _ h => hQ _ _ _ _ _ h)

theorem pc_normalBuckets_alg {nwork : Nat} {Q : Info → World → Prop} (k : Nat) : ∀ {n work : Nat} {b : Bkt} {info : Info} {w : World},
    (∀ info' w', info'.algorithm = info.algorithm → Q info' w') → pc σ (normalBuckets c kh nwork k n b work info) Q w := by
  induction k with
  | zero => intro n work b info w hQ; exact wp_ret (hQ _ _ rfl)
  | succ k ih =>
    intro n work b info w hQ
    unfold normalBuckets
    apply wp_bind; apply pc_any; intro _ _
    apply wp_bind; apply pc_any; intro _ _
    apply wp_bind
    apply pc_normalChain_alg
    intro _ _ _ info' _ h
    dsimp only
    apply wp_bind; apply pc_any; intro _ _
    exact ih (fun _ _ h' => hQ _ _ (h'.trans h))

theorem pc_verifyNormal_alg {Q : Info → World → Prop} {a b : Nat} (hQ : ∀ info w', info.algorithm = 0 → Q info w') :
    pc σ (verifyNormal c kh a b) Q w := by
  unfold verifyNormal
  apply wp_bind; apply pc_any; intro _ _
  apply wp_bind; apply pc_any; intro _ _
  apply wp_bind
  apply pc_normalScan_alg
  intro _ _ info' _ h
  dsimp only
  exact pc_normalBuckets_alg _ (fun _ _ h' => hQ _ _ (h'.trans h))

theorem pc_fastCount_alg {Q : Bkt × Nat × Nat × Info → World → Prop} (fuel : Nat) : ∀ {spill : Nat} {tmp : Bkt} {n m : Nat} {info : Info} {w : World},
    (∀ tmp' n' m' info' w', info'.algorithm = info.algorithm → Q (tmp', n', m', info') w') →
    pc σ (fastCount fuel spill tmp n m info) Q w := by
  induction fuel with
  | zero => intros; exact pc_raise
  | succ fuel ih =>
    intro spill tmp n m info w hQ
    unfold fastCount
    split
    · apply wp_bind; apply pc_any; intro _ _
      exact ih (fun _ _ _ _ _ h => hQ _ _ _ _ _ h)
    · exact wp_ret (hQ _ _ _ _ _ rfl)

theorem pc_fastCounts_alg {bs : Nat} {mem : Bytes} (k : Nat) : ∀ {Q : Bkt × List Nat × Info → World → Prop} {i : Nat} {tmp : Bkt} {info : Info} {w : World},
    (∀ tmp' l info' w', info'.algorithm = info.algorithm → Q (tmp', l, info') w') →
    pc σ (fastCounts bs mem k i tmp info) Q w := by
  induction k with
  | zero => intro Q i tmp info w hQ; exact wp_ret (hQ _ _ _ _ rfl)
  | succ k ih =>
    intro Q i tmp info w hQ
    unfold fastCounts
    apply wp_bind; apply pc_any; intro _ _
    apply wp_bind; apply pc_any; intro _ _
    apply wp_bind
    apply pc_fastCount_alg
    intro _ _ _ info1 _ h1
    dsimp only
    apply wp_bind
    apply ih
    intro _ _ info2 _ h2
    dsimp only
    exact wp_ret (hQ _ _ _ _ (h2.trans h1))

theorem pc_fastScan_alg {b0 b1 work nwork : Nat} {mem : Bytes} {Q : Bkt × List Nat × Info → World → Prop} (fuel : Nat) : ∀ {tmp : Bkt} {nkeys : List Nat}
    {r : Reader} {info : Info} {w : World}, (∀ tmp' l info' w', info'.algorithm = info.algorithm → Q (tmp', l, info') w') →
    pc σ (fastScan c kh b0 b1 work nwork mem fuel tmp nkeys r info) Q w := by
  induction fuel with
  | zero => intros; exact pc_raise
  | succ fuel ih =>
    intro tmp nkeys r info w hQ
    unfold fastScan
    split
    · exact wp_ret (hQ _ _ _ _ rfl)
    · apply wp_bind
      unfold fastStep
      dsimp only
      apply wp_bind; apply pc_any; intro _ _
      apply wp_bind; apply pc_any; intro _ _
      split
      · apply wp_bind; apply pc_any; intro _ _
        apply wp_bind; apply pc_any; intro _ _
        split
        · exact wp_ret (ih (fun _ _ _ _ h => hQ _ _ _ _ h))
        · apply wp_bind; apply pc_any; intro _ _
          apply wp_bind; apply pc_any; intro _ _
          apply wp_bind; apply pc_any; intro _ _
          split
          · exact pc_fail
          · apply wp_bind; apply pc_any; intro _ _
            exact wp_ret (ih (fun _ _ _ _ h => hQ _ _ _ _ h))
      · apply wp_bind; apply pc_any; intro _ _
        split
        · exact pc_fail
        · apply wp_bind; apply pc_any; intro _ _
          apply wp_bind; apply pc_any; intro _ _
          apply wp_ret
          apply ih
          intro _ _ _ _ h
          refine hQ _ _ _ _ (h.trans ?_)
          split <;> rfl

theorem pc_fastChunks_alg {size chunk nwork : Nat} {Q : Info → World → Prop} (fuel : Nat) : ∀ {b0 work : Nat} {mem : Bytes} {tmp : Bkt} {info : Info} {w : World},
    (∀ info' w', info'.algorithm = info.algorithm → Q info' w') →
    pc σ (fastChunks c kh size chunk nwork fuel b0 work mem tmp info) Q w := by
  induction fuel with
  | zero => intros; exact pc_raise
  | succ fuel ih =>
    intro b0 work mem tmp info w hQ
    unfold fastChunks
    split
    · dsimp only
      apply wp_bind; apply pc_any; intro _ _
      apply wp_bind; apply pc_any; intro _ _
      apply wp_bind; apply pc_any; intro _ _
      apply wp_bind
      apply pc_fastCounts_alg
      intro _ _ info1 _ h1
      dsimp only
      apply wp_bind
      apply pc_fastScan_alg
      intro _ _ info2 _ h2
      dsimp only
      split
      · exact pc_fail
      · exact ih (fun _ _ h => hQ _ _ (h.trans (h2.trans h1)))
    · exact wp_ret (hQ _ _ rfl)

theorem pc_verifyFast_alg {n : Nat} {Q : Info → World → Prop} {a b : Nat} (hQ : ∀ info w', info.algorithm = 1 → Q info w') :
    pc σ (verifyFast c kh a b n) Q w := by
  unfold verifyFast
  split
  · exact pc_raise
  · dsimp only
    apply wp_bind; apply pc_any; intro _ _
    apply wp_bind; apply pc_any; intro _ _
    exact pc_fastChunks_alg _ (fun _ _ h => hQ _ _ h)

/-- What a success of `verify_normal` means. -/
structure NormalDone (c : Cfg) (kh : KeyHeader) (D K : Bytes) (cs : List (List Bytes)) : Prop where
  len : cs.length = kh.buckets
  chains : Chains D K kh.blockSize 0 cs
  looks : ∀ bs ∈ cs, (∀ e ∈ bs.flatMap itemsIn, Looks c.H kh.salt kh.keySize D e) ∧ countIn (bs.headD []) ≤ (kh.blockSize - 8) / 18

theorem pc_verifyNormal {rs : List Record} {rest : Bytes} {Q : Info → World → Prop} (hh : Heads c df.cur kf.cur kh)
    (hf : w.fs .dat = some df) (hk : w.fs .key = some kf) (hD : df.cur = df.cur.take 92 ++ (layout rs ++ rest))
    (hok : ∀ x ∈ rs, x.Ok kh.keySize ∧ Compact x)
    (hQ : ∀ info w' cs, NormalDone c kh df.cur kf.cur cs → (∀ x ∈ located 92 rs, HomeListed c kh df.cur kf.cur x.1 x.2.1) →
      (∀ body ∈ overflows rs, body.length = bucketSize kh.capacity) →
      (rest = [] → (∃ f, info = (Info.scanned { algorithm := 0 } rs f).tabled cs ∧ ∀ g, Costing c kh df.cur kf.cur g → f = costSum g (located 92 rs)) ∧ ∃ l, w'.out = l ++ [.progress
        (kh.blockSize * (values rs).length + df.cur.length + tableWork kh.blockSize cs) (normalWork kh df.cur.length kf.cur.length)]) →
      Q info w') :
    pc σ (verifyNormal c kh df.cur.length kf.cur.length) Q w := by
  have h104 := hh.h104
  have h92 := hh.dlen
  have hp92 : (df.cur.take 92).length = 92 := by simp; omega
  unfold verifyNormal
  apply wp_bind
  apply wp_emit
  apply wp_bind
  apply pc_lift
  intro b hb
  have hb1 : b.bs = kh.blockSize ∧ b.p.length = kh.blockSize + (6 + kh.keySize) := by
    unfold Bkt.ofMem at hb
    simp only [bind, Except.bind] at hb
    split at hb
    · cases hb
    split at hb
    · cases hb
    injection hb with hb
    rw [← hb]
    exact ⟨rfl, by simp [Cfg.fresh]⟩
  apply wp_bind
  apply pc_normalScan (df := df) (kf := kf) (pre := df.cur.take 92) (rest := rest) h104 rs hD hok (by exact hf) (by exact hk)
  · rw [hp92]
    exact ⟨hb1.1, hb1.2, rinv_new c _ (Nat.le_refl _) h92, rfl, rfl, rfl⟩
  intro b' work info w1 hbs hfs hl hov hend
  rw [hp92] at hl
  dsimp only
  apply pc_normalBuckets (df := df) (kf := kf) h104 kh.buckets (by rw [hfs]; exact hf) (by rw [hfs]; exact hk) hbs
  intro cs w2 hcl hcs hlk hfs2 hout
  refine hQ _ _ cs ⟨hcl, hcs, hlk⟩ hl hov ?_
  intro hr
  obtain ⟨e1, f, e2, e3⟩ := hend hr
  refine ⟨⟨f, by rw [e2], fun g hg => by rw [e3 g hg, hp92]; exact Nat.zero_add _⟩, ?_⟩
  rcases hout with ⟨h0, _⟩ | ⟨l, h1⟩
  · have := hh.checks.2.2.2
    omega
  · refine ⟨w1.out ++ l, ?_⟩
    rw [h1, e1, Nat.zero_add]

theorem pc_verifyFast {n : Nat} {Q : Info → World → Prop} (hh : Heads c df.cur kf.cur kh)
    (hf : w.fs .dat = some df) (hk : w.fs .key = some kf)
    (hcount : ∀ n, n < kh.buckets → countIn (bytesAt kf.cur ((n + 1) * kh.blockSize) (bucketBytes kh.blockSize)) ≤ (kh.blockSize - 8) / 18)
    (hQ : ∀ info w' cs rs, cs.length = kh.buckets → Chains df.cur kf.cur kh.blockSize 0 cs → FastDone c kh df.cur kf.cur 0 rs cs →
      FastInfo c kh df.cur kf.cur 0 rs cs { algorithm := 1 } info → Q info w') :
    pc σ (verifyFast c kh df.cur.length kf.cur.length n) Q w := by
  have h104 := hh.h104
  have h92 := hh.dlen
  have hB := hh.checks.2.2.2
  unfold verifyFast
  split
  · exact pc_raise
  rename_i hn
  dsimp only
  apply wp_bind
  apply wp_emit
  apply wp_bind
  apply pc_lift
  intro b hb
  have hb1 : TmpOk kh b := by
    unfold Bkt.ofMem at hb
    simp only [bind, Except.bind] at hb
    split at hb
    · cases hb
    split at hb
    · cases hb
    injection hb with hb
    rw [← hb]
    refine ⟨rfl, ?_⟩
    simp only [Cfg.fresh, List.length_drop, List.length_map, List.length_range, Nat.succ_mul]
    omega
  have hm : ((c.fresh ((fastChunk kh n + 1) * kh.blockSize)).take (fastChunk kh n * kh.blockSize)).length = fastChunk kh n * kh.blockSize := by
    simp only [Cfg.fresh, List.length_take, List.length_map, List.length_range, Nat.succ_mul]
    omega
  apply pc_fastChunks (df := df) (kf := kf) h104 h92 _ hcount _ (by exact hf) (by exact hk) hb1 hm
  · intro cs info w1 hfs hcl hcs hd _
    obtain ⟨rs, hd, hi⟩ := hd hB
    exact hQ info w1 cs rs (by simpa using hcl) hcs hd hi
  · unfold fastChunk
    rw [if_pos (by omega)]
    have : 1 ≤ (n - kh.blockSize) / (kh.blockSize + 8) := (Nat.le_div_iff_mul_le (by omega)).2 (by omega)
    omega

theorem perm_of_nodup {α : Type} [DecidableEq α] {R : List α} : ∀ {I : List α}, R.Nodup → (∀ x ∈ R, x ∈ I) → I.length ≤ R.length → R.Perm I := by
  induction R with
  | nil =>
    intro I _ _ h
    have : I = [] := List.length_eq_zero_iff.1 (by simpa using h)
    rw [this]
  | cons x R ih =>
    intro I hn hs hl
    have hx := hs x (by simp)
    have hp := List.perm_cons_erase hx
    refine (List.Perm.cons x (ih (List.nodup_cons.1 hn).2 ?_ ?_)).trans hp.symm
    · intro y hy
      have hne : y ≠ x := fun h => (List.nodup_cons.1 hn).1 (h ▸ hy)
      exact (List.mem_erase_of_ne hne).2 (hs y (by simp [hy]))
    · rw [List.length_erase_of_mem hx]
      simp at hl
      omega

theorem located_ge {rs : List Record} : ∀ {o : Nat} {y : Nat × Bytes × Bytes}, y ∈ located o rs → o ≤ y.1 := by
  induction rs with
  | nil => intro o y h; cases h
  | cons r rs ih =>
    intro o y h
    cases r with
    | value k v =>
      rw [located] at h
      rcases List.mem_cons.1 h with rfl | h
      · exact Nat.le_refl _
      · have := ih h; omega
    | overflow b =>
      rw [located] at h
      have := ih h; omega

theorem located_nodup {α : Type} {p : Nat × Bytes × Bytes → Bool} {f : Nat × Bytes × Bytes → α} (g : α → Nat) (hg : ∀ y, g (f y) = y.1)
    {rs : List Record} : ∀ {o : Nat}, (((located o rs).filter p).map f).Nodup := by
  induction rs with
  | nil => intro o; simp [located]
  | cons r rs ih =>
    intro o
    cases r with
    | value k v =>
      rw [located, List.filter_cons]
      split
      · rw [List.map_cons, List.nodup_cons]
        refine ⟨?_, ih⟩
        intro hm
        obtain ⟨y, hy, e⟩ := List.mem_map.1 hm
        have h1 := located_ge (List.mem_filter.1 hy).1
        have h2 := hg y
        rw [e, hg] at h2
        have h3 := record_pos (.value k v)
        dsimp only at h2
        omega
      · exact ih
    | overflow b =>
      rw [located]; exact ih

theorem homeCount_located (n : Nat) (rs : List Record) : ∀ o, homeCount c kh n rs = ((located o rs).filter (fun y => homeOf c kh y.2.1 == n)).length := by
  induction rs with
  | nil => intro o; rfl
  | cons r rs ih =>
    intro o
    rw [homeCount_cons, ih (o + r.bytes.length), located_cons, List.filter_append, List.length_append]
    congr 1
    cases r with
    | value k v =>
      simp only [homeCount, values, located, List.filterMap_cons, List.filterMap_nil, List.filter_cons, List.filter_nil]
      split <;> rfl
    | overflow b => rfl

theorem itemsIn_length (b : Bytes) : (itemsIn b).length = countIn b := by simp [itemsIn]

theorem chainKeys_eq (bs : List Bytes) : chainKeys bs = (bs.flatMap itemsIn).length := by
  simp only [chainKeys, List.length_flatMap]
  congr 1
  apply List.map_congr_left
  intro b _
  exact (itemsIn_length b).symm

/-- The items of a bucket are those of the records, exactly. -/
theorem FastDone.perm {D K : Bytes} {rs : List Record} {cs : List (List Bytes)} (h : FastDone c kh D K 0 rs cs)
    (hcs : Chains D K kh.blockSize 0 cs) (hl : cs.length = kh.buckets) {n : Nat} (hn : n < kh.buckets) :
    (((located 92 rs).filter (fun y => homeOf c kh y.2.1 == n)).map (fun y => (y.1, hashKey c.H kh.salt y.2.1))).Perm
      (((cs.getD n []).flatMap itemsIn).map (fun e => (e.offset, e.hash))) := by
  have hc := hcs.get (i := n) (by omega)
  have hg : cs.getD n [] = cs[n]'(by omega) := by
    rw [List.getD_eq_getElem?_getD, List.getElem?_eq_getElem (by omega)]; rfl
  rw [Nat.zero_add] at hc
  rw [hg]
  apply perm_of_nodup
  · exact located_nodup (f := fun y => (y.1, hashKey c.H kh.salt y.2.1)) Prod.fst (fun _ => rfl)
  · intro x hx
    obtain ⟨y, hy, e⟩ := List.mem_map.1 hx
    obtain ⟨hy, hh⟩ := List.mem_filter.1 hy
    have hh : homeOf c kh y.2.1 = n := by simpa using hh
    have hL := h.listed y hy (Nat.zero_le _) (by omega)
    unfold HomeListed at hL
    rw [show bucketIndex (hashKey c.H kh.salt y.2.1) kh.buckets kh.modulus = n from hh] at hL
    obtain ⟨it, h1, h2, h3⟩ := hL.chained hc
    rw [← e]
    exact List.mem_map.2 ⟨it, h1, by rw [h2, h3]⟩
  · have h1 := h.counts n (by omega)
    rw [Nat.zero_add, homeCount_located n rs 92, hg, chainKeys_eq] at h1
    simp only [List.length_map]
    omega

end

end NuDB
