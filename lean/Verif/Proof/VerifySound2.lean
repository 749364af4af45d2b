import Verif.Proof.VerifySound
/- What a successful run of `verify` implies for arbitrary files: key file of `verify_normal`, and `verify_fast`. -/
namespace NuDB

open Spec

theorem hashKey_eq (H : Hasher) (salt : Nat) (k : Bytes) : hashKey H salt k = hash48 (H (UInt64.ofNat salt) k) := by
  unfold hashKey makeHash48 hash48
  have h := (H (UInt64.ofNat salt) k).toNat_lt
  rw [show (0xffffffffffff : Nat) = 2 ^ 48 - 1 from rfl, Nat.and_two_pow_sub_one_eq_mod, Nat.shiftRight_eq_div_pow]
  apply Nat.mod_eq_of_lt
  omega

theorem Spec.Chained.head {D : Bytes} {len : Nat} {b : Bytes} {bs : List Bytes} (h : Chained D len b bs) : ∃ t, bs = b :: t := by
  cases h with
  | last => exact ⟨[], rfl⟩
  | more => exact ⟨_, rfl⟩

theorem Spec.Chained.unique {D : Bytes} {len : Nat} {b : Bytes} {bs bs' : List Bytes} (h : Chained D len b bs)
    (h' : Chained D len b bs') : bs = bs' := by
  induction h generalizing bs' with
  | last h0 =>
    cases h' with
    | last => rfl
    | more h1 => exact absurd h0 h1
  | more h0 _ _ ih =>
    cases h' with
    | last h1 => exact absurd h1 h0
    | more _ _ ht => rw [ih ht]

/-- The counters after a chain has been seen. -/
def Info.chained (i : Info) (bs : List Bytes) : Info :=
  { i with keyCount := i.keyCount + chainKeys bs, spillCount := i.spillCount + (bs.length - 1),
           spillBytes := i.spillBytes + chainBytes bs }

/-- The counters after several buckets have been seen. -/
def Info.tabled (i : Info) : List (List Bytes) → Info
  | [] => i
  | bs :: cs => Info.tabled { i.chained bs with hist := bumpHist i.hist (bs.length - 1) } cs

/-- The chains of buckets `n`, `n + 1`, ... -/
inductive Chains (D K : Bytes) (bs : Nat) : Nat → List (List Bytes) → Prop
  | nil (n : Nat) : Chains D K bs n []
  | cons {n : Nat} {b : List Bytes} {cs : List (List Bytes)}
      (h : Chained D (bucketBytes bs) (bytesAt K ((n + 1) * bs) (bucketBytes bs)) b)
      (ht : Chains D K bs (n + 1) cs) : Chains D K bs n (b :: cs)

theorem Chains.get {D K : Bytes} {bs n : Nat} {cs : List (List Bytes)} (h : Chains D K bs n cs) {i : Nat}
    (hi : i < cs.length) : Chained D (bucketBytes bs) (bytesAt K ((n + i + 1) * bs) (bucketBytes bs)) cs[i] := by
  induction h generalizing i with
  | nil => simp at hi
  | @cons m b cs h _ ih =>
    cases i with
    | zero => simpa using h
    | succ i =>
      have := ih (i := i) (by simpa using hi)
      rw [show m + 1 + i + 1 = m + (i + 1) + 1 by omega] at this
      simpa using this

theorem Chains.append {D K : Bytes} {bs n : Nat} {a b : List (List Bytes)} (h : Chains D K bs n a)
    (h' : Chains D K bs (n + a.length) b) : Chains D K bs n (a ++ b) := by
  induction h with
  | nil => simpa using h'
  | @cons m x cs h _ ih =>
    refine .cons h (ih ?_)
    rw [show m + 1 + cs.length = m + (x :: cs).length by simp; omega]
    exact h'

/-- Work done in the second phase. -/
def tableWork (bs : Nat) : List (List Bytes) → Nat
  | [] => 0
  | b :: cs => adjusted bs * (1 + countIn (b.headD [])) + tableWork bs cs

section
variable {σ : Schedule} {c : Cfg} {kh : KeyHeader} {df kf : FileSt} {nwork : Nat}

theorem pc_normalEntries {b : Bkt} {blk : Bytes} {spill : Bool} {Q : Nat → World → Prop} (hb : Loaded b blk)
    (fuel : Nat) : ∀ {i work : Nat} {w : World}, w.fs .dat = some df → i ≤ b.size →
    (∀ w', Quiet w w' → (∀ j, i ≤ j → j < b.size → Looks c.H kh.salt kh.keySize df.cur (itemAt blk j)) →
      Q (work + if spill then 0 else adjusted kh.blockSize * (b.size - i)) w') →
    pc σ (normalEntries c kh b spill fuel i work) Q w := by
  induction fuel with
  | zero => intros; exact pc_raise
  | succ fuel ih =>
    intro i work w hf hi hQ
    unfold normalEntries
    split
    · rename_i hlt
      apply wp_bind
      apply pc_lift
      intro e he
      have he := hb.get hlt he
      apply wp_bind
      apply pc_shortAs
      apply pc_fRead hf (by omega)
      intro hl
      dsimp only
      split
      · exact pc_fail
      rename_i h1
      split
      · exact pc_fail
      rename_i h2
      simp only [ne_eq, Decidable.not_not] at h1 h2
      rw [slice_slice (by omega)] at h1 h2
      rw [C18_u48.reads _ (slice_length_of_le (by omega))] at h1
      apply ih (by exact hf) (by omega)
      intro w' hq hrest
      have := hQ w' ((Quiet.tick w).trans hq) ?_
      · cases spill
        · simp only [Bool.false_eq_true, if_false] at this ⊢
          rw [show b.size - i = (b.size - (i + 1)) + 1 by omega, Nat.mul_add] at this
          rw [show work + adjusted kh.blockSize + adjusted kh.blockSize * (b.size - (i + 1)) =
            work + (adjusted kh.blockSize * (b.size - (i + 1)) + adjusted kh.blockSize * 1) by omega]
          exact this
        · simpa using this
      · intro j hij hj
        by_cases hji : j = i
        · subst hji
          rw [← he]
          exact ⟨by omega, by simpa [bytesAt_eq] using h1, by rw [bytesAt_eq, ← hashKey_eq]; exact h2⟩
        · exact hrest j (by omega) hj
    · rename_i hlt
      apply wp_ret
      have := hQ w (Quiet.refl w) (by intro j h1 h2; omega)
      rw [show b.size - i = 0 by omega] at this
      simpa using this

theorem pc_normalChain {Q : Bkt × Nat × Nat × Info → World → Prop} (h104 : 104 ≤ kh.blockSize) (fuel : Nat) :
    ∀ {b : Bkt} {blk : Bytes} {spill : Bool} {work nspill : Nat} {info : Info} {w : World}, w.fs .dat = some df →
    Loaded b blk → b.bs = kh.blockSize →
    (∀ bs b' w', Quiet w w' → Chained df.cur (bucketBytes kh.blockSize) blk bs →
      (∀ e ∈ bs.flatMap itemsIn, Looks c.H kh.salt kh.keySize df.cur e) → b'.bs = kh.blockSize →
      Q (b', work + (if spill then 0 else adjusted kh.blockSize * countIn blk), nspill + (bs.length - 1), info.chained bs) w') →
    pc σ (normalChain c kh fuel b spill work nspill info) Q w := by
  induction fuel with
  | zero => intros; exact pc_raise
  | succ fuel ih =>
    intro b blk spill work nspill info w hf hb hbs hQ
    unfold normalChain
    dsimp only
    apply wp_bind
    apply pc_normalEntries hb _ hf (Nat.zero_le _)
    intro w1 q1 hlook
    have hhere : ∀ e ∈ itemsIn blk, Looks c.H kh.salt kh.keySize df.cur e := by
      intro e he
      obtain ⟨j, hj, rfl⟩ := List.mem_map.mp he
      exact hlook j (Nat.zero_le _) (by rw [hb.size]; exact List.mem_range.mp hj)
    rw [Nat.sub_zero, hb.size]
    by_cases h0 : b.spill = 0
    · rw [if_pos h0]
      apply wp_ret
      rw [hb.spill] at h0
      have := hQ [blk] b w1 q1 (.last h0) (by simpa using hhere) hbs
      simpa [Info.chained, chainKeys, chainBytes] using this
    · rw [if_neg h0]
      apply wp_bind
      apply pc_readFile (f := df) (by rw [q1.fs]; exact hf) (by rw [hbs]; exact h104)
      intro b2 w2 q2 hl hld hbs2 _ _
      rw [hbs] at hl hld hbs2
      rw [hb.spill] at h0 hl hld
      apply ih (by rw [q2.fs, q1.fs]; exact hf) hld hbs2
      intro bs b' w' q' hch hlk hb'
      obtain ⟨t, ht⟩ := hch.head
      have := hQ (blk :: bs) b' w' (q1.trans (q2.trans q')) (.more h0 hl hch) (by
        intro e he
        rw [List.flatMap_cons] at he
        rcases List.mem_append.mp he with he | he
        · exact hhere e he
        · exact hlk e he) hb'
      have e1 : nspill + 1 + (bs.length - 1) = nspill + ((blk :: bs).length - 1) := by
        rw [ht]; simp; omega
      rw [e1]
      have e2 : ({ info with keyCount := info.keyCount + countIn blk, spillCount := info.spillCount + 1, spillBytes := info.spillBytes + (6 + 2 + b2.actualSize) } : Info).chained bs = info.chained (blk :: bs) := by
        rw [ht]
        have : b2.actualSize = 8 + 18 * countIn (bytesAt df.cur (linkIn blk) (bucketBytes kh.blockSize)) := by
          unfold Bkt.actualSize bucketSize
          rw [hld.size]; omega
        simp only [Info.chained, chainKeys, chainBytes, List.map_cons, List.sum_cons, List.tail_cons, List.length_cons, this]
        congr 1 <;> omega
      rw [e2]
      simpa using this

theorem pc_normalBuckets {Q : Info → World → Prop} (h104 : 104 ≤ kh.blockSize) (k : Nat) :
    ∀ {n work : Nat} {b : Bkt} {info : Info} {w : World}, w.fs .dat = some df → w.fs .key = some kf → b.bs = kh.blockSize →
    (∀ cs w', cs.length = k → Chains df.cur kf.cur kh.blockSize n cs →
      (∀ bs ∈ cs, (∀ e ∈ bs.flatMap itemsIn, Looks c.H kh.salt kh.keySize df.cur e) ∧ countIn (bs.headD []) ≤ (kh.blockSize - 8) / 18) →
      w'.fs = w.fs → ((k = 0 ∧ w'.out = w.out) ∨ ∃ l, w'.out = w.out ++ l ++ [.progress (work + tableWork kh.blockSize cs) nwork]) →
      Q (info.tabled cs) w') →
    pc σ (normalBuckets c kh nwork k n b work info) Q w := by
  induction k with
  | zero =>
    intro n work b info w hf hk hb hQ
    unfold normalBuckets
    exact wp_ret (hQ [] w rfl (.nil n) (by simp) rfl (.inl ⟨rfl, rfl⟩))
  | succ k ih =>
    intro n work b info w hf hk hb hQ
    unfold normalBuckets
    apply wp_bind
    apply pc_readFile (f := kf) hk (by rw [hb]; exact h104)
    intro b1 w1 q1 hl hld hbs1 _ hcap
    rw [hb] at hl hld hbs1 hcap
    apply wp_bind
    apply pc_lookupFuel
    intro fuel
    apply wp_bind
    apply pc_normalChain h104 fuel (by rw [q1.fs]; exact hf) hld hbs1
    intro bs b2 w2 q2 hch hlk hbs2
    obtain ⟨t, ht⟩ := hch.head
    dsimp only
    apply wp_bind
    apply wp_emit
    apply ih (by show w2.fs _ = _; rw [q2.fs, q1.fs]; exact hf) (by show w2.fs _ = _; rw [q2.fs, q1.fs]; exact hk) hbs2
    intro cs w' hlen hcs hall hfs hout
    have h1 : Info.tabled { info.chained bs with hist := bumpHist (info.chained bs).hist (0 + (bs.length - 1)) } cs = info.tabled (bs :: cs) := by
      rw [Nat.zero_add]; rfl
    rw [h1]
    have hsz := hld.size
    apply hQ (bs :: cs) w' (by simp [hlen]) (.cons hch hcs)
    · intro x hx
      rcases List.mem_cons.mp hx with rfl | hx
      · refine ⟨hlk, ?_⟩
        rw [ht]
        simp only [List.headD_cons]
        omega
      · exact hall x hx
    · rw [hfs]; show w2.fs = _; rw [q2.fs, q1.fs]
    · right
      have hw : tableWork kh.blockSize (bs :: cs) = adjusted kh.blockSize +
          adjusted kh.blockSize * countIn (bytesAt kf.cur ((n + 1) * kh.blockSize) (bucketBytes kh.blockSize)) + tableWork kh.blockSize cs := by
        rw [ht]; simp only [tableWork, List.headD_cons, Nat.mul_add, Nat.mul_one]
      rcases hout with ⟨hk0, hout⟩ | ⟨l, hl⟩
      · subst hk0
        have hcs0 : cs = [] := List.length_eq_zero_iff.mp hlen
        subst hcs0
        refine ⟨[], ?_⟩
        rw [hout, hw]
        show w2.out ++ _ = _
        rw [q2.out, q1.out]
        simp [Nat.add_assoc, tableWork]
      · refine ⟨[.progress (work + adjusted kh.blockSize + (if false = true then 0 else adjusted kh.blockSize *
          countIn (bytesAt kf.cur ((n + 1) * kh.blockSize) (bucketBytes kh.blockSize)))) nwork] ++ l, ?_⟩
        rw [hl, hw]
        show w2.out ++ _ ++ _ ++ _ = _
        rw [q2.out, q1.out]
        simp [Nat.add_assoc]

end

end NuDB
