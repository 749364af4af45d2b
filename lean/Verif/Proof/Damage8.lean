import Verif.Proof.Damage7
/- `verify_fast` and `verify` on files with almost arbitrary content. -/
namespace NuDB

open Spec

section
variable {σ : Schedule} {c : Cfg} {P : Fs → Prop} {w : World} {bs : Nat}

theorem dfastCount (hc : 1 ≤ bucketCapacity bs) : ∀ (fuel spill : Nat) (tmp : Bkt) (nkeys nspill : Nat) (info : Info) (w : World),
    tmp.bs = bs ∧ tmp.p.length = bs → (∃ f, w.fs .dat = some f) → P w.fs →
    wp σ (fastCount fuel spill tmp nkeys nspill info) (fun x w' => (x.1.bs = bs ∧ x.1.p.length = bs) ∧ w'.fs = w.fs) (Tame σ P) w := by
  intro fuel
  induction fuel with
  | zero => intro spill tmp nkeys nspill info w _ _ hs; exact wp_raise (Tame.hang hs)
  | succ fuel ih =>
    intro spill tmp nkeys nspill info w ht hd hs
    unfold fastCount
    split
    · apply wp_bind
      apply dshortAs
      refine dheld hc hd hs ht.1 ht.2 (Nat.le_refl _) ?_
      intro b' w1 hb' e1
      refine wp_post (ih _ _ _ _ _ w1 ⟨hb'.block, hb'.len⟩ (by rw [e1]; exact hd) (by rw [e1]; exact hs)) ?_
      intro x w2 ⟨g1, e2⟩
      exact ⟨g1, e2.trans e1⟩
    · exact wp_ret ⟨ht, rfl⟩

theorem dfastCounts {mem : Bytes} (hc : 1 ≤ bucketCapacity bs) : ∀ (k i : Nat) (tmp : Bkt) (info : Info) (w : World),
    (i + k) * bs ≤ mem.length → tmp.bs = bs ∧ tmp.p.length = bs → (∃ f, w.fs .dat = some f) → P w.fs →
    wp σ (fastCounts bs mem k i tmp info) (fun x w' => (x.1.bs = bs ∧ x.1.p.length = bs) ∧ w'.fs = w.fs) (Tame σ P) w := by
  have h8 := cap_room hc
  intro k
  induction k with
  | zero => intro i tmp info w _ ht _ hs; exact wp_ret ⟨ht, rfl⟩
  | succ k ih =>
    intro i tmp info w hm ht hd hs
    unfold fastCounts
    apply wp_bind
    have hle : (i + 1) * bs ≤ (i + (k + 1)) * bs := Nat.mul_le_mul_right _ (by omega)
    have hsl : (slice mem (i * bs) bs).length = bs := slice_length_of_le (by rw [Nat.add_mul] at hle; omega)
    apply wp_rp (rp_ofMem' (by rw [hsl]; omega)) hs
    intro b _
    apply wp_bind
    apply wp_lookupFuel
    intro fuel
    apply wp_bind
    refine wp_post (dfastCount hc fuel _ _ _ _ _ w ht hd hs) ?_
    intro ⟨tmp', n, nspill, info'⟩ w1 ⟨g1, e1⟩
    apply wp_bind
    refine wp_post (ih (i + 1) tmp' _ w1 (by rw [show i + 1 + k = i + (k + 1) by omega]; exact hm) g1 (by rw [e1]; exact hd)
      (by rw [e1]; exact hs)) ?_
    intro ⟨tmp'', l, info''⟩ w2 ⟨g2, e2⟩
    exact wp_ret ⟨g2, e2.trans e1⟩

theorem dseekValueFast {h off L : Nat} (hc : 1 ≤ bucketCapacity bs) : ∀ (fuel : Nat) (b tmp : Bkt) (f : Nat) (w : World),
    8 + 18 * b.size ≤ b.p.length → tmp.bs = bs ∧ tmp.p.length = bs → (∃ f, w.fs .dat = some f) → P w.fs →
    wp σ (seekValueFast h off fuel b tmp f) (fun x w' => (x.2.bs = bs ∧ x.2.p.length = bs) ∧ w'.fs = w.fs) (Tame σ P) w := by
  intro fuel
  induction fuel with
  | zero => intro b tmp f w _ _ _ hs; exact wp_raise (Tame.hang hs)
  | succ fuel ih =>
    intro b tmp f w hr ht hd hs
    unfold seekValueFast
    apply wp_bind
    apply wp_rp (rp_lowerBound hr) hs
    intro i hi
    apply wp_bind
    apply wp_rp (rp_seek hr hi) hs
    intro ⟨found, f'⟩ _
    dsimp only
    split
    · exact wp_ret ⟨ht, rfl⟩
    split
    · exact wp_fail (Tame.err _ hs)
    apply wp_bind
    apply dshortAs
    refine dheld hc hd hs ht.1 ht.2 (Nat.le_refl _) ?_
    intro b' w1 hb' e1
    have hroom := hb'.room
    rw [← hb'.len] at hroom
    refine wp_post (ih b' { tmp with p := b'.p } _ w1 hroom ⟨ht.1, hb'.len⟩ (by rw [e1]; exact hd) (by rw [e1]; exact hs)) ?_
    intro _ w2 ⟨g, e2⟩
    exact ⟨g, e2.trans e1⟩

/-- The counts of the buckets in the buffer fit. -/
def FitMem (bs n : Nat) (mem : Bytes) : Prop := ∀ i, i < n → getU16 (slice mem (i * bs) 2) ≤ bucketCapacity bs

theorem dfastStep {kh : KeyHeader} {b0 b1 work nwork : Nat} {mem : Bytes} {tmp : Bkt} {nkeys : List Nat} {r : Reader} {info : Info}
    {Q : Bkt × List Nat × Reader × Info → World → Prop}
    (hc : 1 ≤ bucketCapacity kh.blockSize) (hm : (b1 - b0) * kh.blockSize ≤ mem.length) (hfit : FitMem kh.blockSize (b1 - b0) mem)
    (ht : tmp.bs = kh.blockSize ∧ tmp.p.length = kh.blockSize) (hr : ROk r) (hp : r.path = .dat)
    (hd : ∃ f, w.fs .dat = some f) (hs : P w.fs)
    (hq : ∀ tmp' nkeys' r' info' w', tmp'.bs = kh.blockSize ∧ tmp'.p.length = kh.blockSize → ROk r' → r'.path = .dat →
      w'.fs = w.fs → Q (tmp', nkeys', r', info') w') :
    wp σ (fastStep c kh b0 b1 work nwork mem tmp nkeys r info) Q (Tame σ P) w := by
  have h8 := cap_room hc
  unfold fastStep
  dsimp only
  apply wp_bind
  apply dshortAs
  refine dprepare hr (by rw [hp]; exact hd) hs ?_
  intro is r1 w1 _ hr1 hp1 e1
  rw [hp] at hp1
  have hs1 : P w1.fs := by rw [e1]; exact hs
  apply wp_bind
  apply wp_rp (rp_getSize48 (Q := fun _ => True) fun _ => trivial) hs1
  intro size _
  split
  · apply wp_bind
    apply dshortAs
    refine dprepare hr1 (by rw [hp1, e1]; exact hd) hs1 ?_
    intro is2 r2 w2 _ hr2 hp2 e2
    rw [hp1] at hp2
    have e2' := e2.trans e1
    have hs2 : P w2.fs := by rw [e2']; exact hs
    dsimp only
    apply wp_bind
    apply wp_rp rp_bucketIndexA hs2
    intro n _
    split
    · exact wp_ret (hq _ _ _ _ _ ht hr2 hp2 e2')
    · rename_i hn
      have hi : n - b0 < b1 - b0 := by omega
      have hle : (n - b0 + 1) * kh.blockSize ≤ (b1 - b0) * kh.blockSize := Nat.mul_le_mul_right _ (by omega)
      rw [Nat.add_mul, Nat.one_mul] at hle
      have hlen : (mem.drop ((n - b0) * kh.blockSize) ++ tmp.p).length = mem.length - (n - b0) * kh.blockSize + kh.blockSize := by
        rw [List.length_append, List.length_drop, ht.2]
      apply wp_bind
      apply wp_rp (rp_ofMem' (by rw [hlen]; omega)) hs2
      intro b ⟨_, g2, g3⟩
      have hsz : b.size ≤ bucketCapacity kh.blockSize := by
        have := hfit _ hi
        have e : slice (mem.drop ((n - b0) * kh.blockSize) ++ tmp.p) 0 2 = slice mem ((n - b0) * kh.blockSize) 2 := by
          unfold slice
          rw [List.drop_zero, List.take_append_of_le_length (by rw [List.length_drop]; omega)]
        rw [g3, e]
        exact this
      have hmul : 18 * b.size ≤ 18 * bucketCapacity kh.blockSize := Nat.mul_le_mul_left _ hsz
      apply wp_bind
      apply wp_lookupFuel
      intro fuel
      apply wp_bind
      refine wp_post (dseekValueFast (L := 0) hc fuel b tmp _ w2 (by rw [g2, hlen]; omega) ht (by rw [e2']; exact hd) hs2) ?_
      intro ⟨fetches, tmp'⟩ w3 ⟨g4, e3⟩
      have e3' := e3.trans e2'
      dsimp only
      split
      · exact wp_fail (Tame.err _ (by rw [e3']; exact hs))
      · apply wp_bind
        apply wp_emit
        exact wp_ret (hq _ _ _ _ _ g4 hr2 hp2 e3')
  · apply wp_bind
    apply dshortAs
    refine dprepare hr1 (by rw [hp1, e1]; exact hd) hs1 ?_
    intro is2 r2 w2 _ hr2 hp2 e2
    rw [hp1] at hp2
    have e2' := e2.trans e1
    have hs2 : P w2.fs := by rw [e2']; exact hs
    dsimp only
    split
    · exact wp_fail (Tame.err _ hs2)
    · apply wp_bind
      apply dshortAs
      refine dprepare hr2 (by rw [hp2, e2']; exact hd) hs2 ?_
      intro is3 r3 w3 _ hr3 hp3 e3
      rw [hp2] at hp3
      have e3' := e3.trans e2'
      dsimp only
      apply wp_bind
      apply wp_emit
      exact wp_ret (hq _ _ _ _ _ ht hr3 hp3 e3')

theorem dfastScan {kh : KeyHeader} {b0 b1 work nwork : Nat} {mem : Bytes} (hc : 1 ≤ bucketCapacity kh.blockSize)
    (hm : (b1 - b0) * kh.blockSize ≤ mem.length) (hfit : FitMem kh.blockSize (b1 - b0) mem) :
    ∀ (fuel : Nat) (tmp : Bkt) (nkeys : List Nat) (r : Reader) (info : Info) (w : World),
    tmp.bs = kh.blockSize ∧ tmp.p.length = kh.blockSize → ROk r → r.path = .dat → (∃ f, w.fs .dat = some f) → P w.fs →
    wp σ (fastScan c kh b0 b1 work nwork mem fuel tmp nkeys r info)
      (fun x w' => (x.1.bs = kh.blockSize ∧ x.1.p.length = kh.blockSize) ∧ w'.fs = w.fs) (Tame σ P) w := by
  intro fuel
  induction fuel with
  | zero => intro tmp nkeys r info w _ _ _ _ hs; exact wp_raise (Tame.hang hs)
  | succ fuel ih =>
    intro tmp nkeys r info w ht hr hp hd hs
    unfold fastScan
    split
    · exact wp_ret ⟨ht, rfl⟩
    · apply wp_bind
      refine dfastStep hc hm hfit ht hr hp hd hs ?_
      intro tmp' nkeys' r' info' w1 g1 g2 g3 e1
      refine wp_post (ih tmp' nkeys' r' info' w1 g1 g2 g3 (by rw [e1]; exact hd) (by rw [e1]; exact hs)) ?_
      intro x w2 ⟨g4, e2⟩
      exact ⟨g4, e2.trans e1⟩

theorem dfastChunks {kh : KeyHeader} {datSize chunk nwork : Nat} {kf : FileSt} (hc : 1 ≤ bucketCapacity kh.blockSize)
    (hfit : ∀ n, n < kh.buckets → getU16 (slice kf.cur ((n + 1) * kh.blockSize) 2) ≤ bucketCapacity kh.blockSize)
    (hkl : (kh.buckets + 1) * kh.blockSize ≤ kf.cur.length) :
    ∀ (fuel b0 work : Nat) (mem : Bytes) (tmp : Bkt) (info : Info) (w : World),
    tmp.bs = kh.blockSize ∧ tmp.p.length = kh.blockSize → mem.length = chunk * kh.blockSize → (∃ f, w.fs .dat = some f) →
    w.fs .key = some kf → P w.fs →
    wp σ (fastChunks c kh datSize chunk nwork fuel b0 work mem tmp info) (fun _ _ => True) (Tame σ P) w := by
  have h8 := cap_room hc
  intro fuel
  induction fuel with
  | zero => intro b0 work mem tmp info w _ _ _ _ hs; exact wp_raise (Tame.hang hs)
  | succ fuel ih =>
    intro b0 work mem tmp info w ht hm hd hk hs
    unfold fastChunks
    split
    · rename_i hlt
      dsimp only
      generalize hb1 : min (b0 + chunk) kh.buckets = b1
      have hle1 : b1 - b0 ≤ chunk := by omega
      have hmul : (b1 - b0) * kh.blockSize ≤ chunk * kh.blockSize := Nat.mul_le_mul_right _ hle1
      have hin : (b0 + 1 + (b1 - b0)) * kh.blockSize ≤ (kh.buckets + 1) * kh.blockSize := Nat.mul_le_mul_right _ (by omega)
      have hin' : (b0 + 1) * kh.blockSize + (b1 - b0) * kh.blockSize ≤ kf.cur.length := by rw [← Nat.add_mul]; omega
      apply wp_bind
      refine wp_fRead hk hin' ?_ (fun x hx h => Tame.fault hx h hs)
      have hdl : (slice kf.cur ((b0 + 1) * kh.blockSize) ((b1 - b0) * kh.blockSize)).length = (b1 - b0) * kh.blockSize :=
        slice_length_of_le hin'
      apply wp_bind
      have hpk : 0 + (slice kf.cur ((b0 + 1) * kh.blockSize) ((b1 - b0) * kh.blockSize)).length ≤ mem.length := by
        rw [hdl, hm]; omega
      apply wp_rp (P := P) (rp_poke hpk rfl) (by exact hs)
      rintro _ rfl
      generalize hmem : put mem 0 (slice kf.cur ((b0 + 1) * kh.blockSize) ((b1 - b0) * kh.blockSize)) = mem'
      have hml : mem'.length = chunk * kh.blockSize := by rw [← hmem, put_length hpk, hm]
      have hpre : slice mem' 0 ((b1 - b0) * kh.blockSize) = slice kf.cur ((b0 + 1) * kh.blockSize) ((b1 - b0) * kh.blockSize) := by
        rw [← hmem]
        have := slice_put_same hpk
        rw [hdl] at this
        exact this
      have hf' : FitMem kh.blockSize (b1 - b0) mem' := by
        intro i hi
        have hle2 : (i + 1) * kh.blockSize ≤ (b1 - b0) * kh.blockSize := Nat.mul_le_mul_right _ (by omega)
        rw [Nat.add_mul, Nat.one_mul] at hle2
        have e1 : slice (slice mem' 0 ((b1 - b0) * kh.blockSize)) (i * kh.blockSize) 2 = slice mem' (0 + i * kh.blockSize) 2 :=
          slice_slice (by omega)
        rw [hpre, slice_slice (by omega), Nat.zero_add, ← Nat.add_mul] at e1
        rw [← e1, show b0 + 1 + i = b0 + i + 1 by omega]
        exact hfit _ (by omega)
      apply wp_bind
      apply wp_emit
      apply wp_bind
      refine wp_post (dfastCounts (P := P) hc _ 0 tmp info _ (by rw [Nat.zero_add, hml]; exact hmul) ht (by exact hd) (by exact hs)) ?_
      intro ⟨tmp1, nkeys, info1⟩ w1 ⟨g1, e1⟩
      have e1 : w1.fs = w.fs := e1
      dsimp only
      apply wp_bind
      refine wp_post (dfastScan (P := P) hc (by rw [hml]; exact hmul) hf' _ tmp1 nkeys _ info1 w1 g1 (by unfold ROk Reader.new; simp) rfl
        (by rw [e1]; exact hd) (by rw [e1]; exact hs)) ?_
      intro ⟨tmp2, nkeys2, info2⟩ w2 ⟨g2, e2⟩
      have e2' := e2.trans e1
      dsimp only
      split
      · exact wp_fail (Tame.err _ (by rw [e2']; exact hs))
      · exact ih _ _ _ _ _ w2 g2 hml (by rw [e2']; exact hd) (by rw [e2']; exact hk) (by rw [e2']; exact hs)
    · exact wp_ret trivial

theorem roomOf_eq {K : Bytes} (h : 104 ≤ blockSizeOf K) : bucketCapacity (blockSizeOf K) = roomOf K := by
  have e : keyHeaderSize = 104 := rfl
  unfold bucketCapacity roomOf
  split
  · rename_i h'
    simp only [Bool.or_eq_true, decide_eq_true_eq] at h'
    omega
  · rfl

theorem dverify {n : Nat} {D K : Bytes} (hD : bytesOf w.fs .dat = some D) (hK : bytesOf w.fs .key = some K) (h : CountsFit D K) :
    wp σ (verify c n) (fun _ _ => True) (Mannered σ) w := by
  have hF : ∀ x (w' : World), IsFault x → Faulty σ → Mannered σ x w' := fun x w' hx hf => Mannered.fault hx hf
  unfold bytesOf at hD hK
  cases hd : w.fs .dat with
  | none => rw [hd] at hD; cases hD
  | some df =>
  cases hk : w.fs .key with
  | none => rw [hk] at hK; cases hK
  | some kf =>
  rw [hd] at hD
  rw [hk] at hK
  obtain rfl : df.cur = D := by simpa using hD
  obtain rfl : kf.cur = K := by simpa using hK
  unfold verify
  apply wp_bind
  refine wp_fOpen hd ?_ (fun x hx h => hF x _ hx h)
  apply wp_bind
  refine wp_fOpen (f := kf) (by exact hk) ?_ (fun x hx h => hF x _ hx h)
  apply wp_bind
  unfold readDatHeader
  apply wp_bind
  refine wp_fRead_any (f := df) (by exact hd) (by decide) ?_ (fun _ => Mannered.err _) (fun x hx h => hF x _ hx h)
  intro h92
  apply wp_ret
  apply wp_bind
  refine wp_check_free (fun hv1 => ?_) (fun e => Mannered.err _)
  apply wp_bind
  unfold readKeyHeader
  apply wp_bind
  refine wp_fRead_any (f := kf) (by exact hk) (by decide) ?_ (fun _ => Mannered.err _) (fun x hx h => hF x _ hx h)
  intro h104
  apply wp_bind
  refine wp_fSize (f := kf) (by exact hk) ?_ (fun x hx h => hF x _ hx h)
  apply wp_ret
  apply wp_bind
  refine wp_check_free (fun hv2 => ?_) (fun e => Mannered.err _)
  apply wp_bind
  refine wp_check_free (fun hv3 => ?_) (fun e => Mannered.err _)
  apply wp_bind
  refine wp_fSize (f := kf) (by exact hk) ?_ (fun x hx h => hF x _ hx h)
  apply wp_bind
  refine wp_fSize (f := df) (by exact hd) ?_ (fun x hx h => hF x _ hx h)
  have hh : Heads c df.cur kf.cur (getKeyHeader (slice kf.cur 0 104) kf.cur.length) := ⟨h92, h104, rfl, hv1, hv2, hv3⟩
  change wp σ (if chooseNormal (getKeyHeader (slice kf.cur 0 104) kf.cur.length) _ _ _ = true then
    verifyNormal c (getKeyHeader (slice kf.cur 0 104) kf.cur.length) _ _ else
    verifyFast c (getKeyHeader (slice kf.cur 0 104) kf.cur.length) _ _ _) _ _ _
  generalize getKeyHeader (slice kf.cur 0 104) kf.cur.length = kh at hh
  have hcap := hh.capacity
  have hc : 1 ≤ bucketCapacity kh.blockSize := by have := hh.checks.2.2.1; omega
  have hroom : roomOf kf.cur = bucketCapacity kh.blockSize := by
    rw [hh.blockSize]; exact (roomOf_eq (by rw [← hh.blockSize]; exact hh.h104)).symm
  have h8 := cap_room hc
  refine wp_conseq (X := Tame σ (fun _ => True)) (Q := fun _ _ => True) ?_ (fun _ _ h => h) (fun x w' h => ⟨h.1, h.2.1, h.2.2.1⟩)
  split
  · refine dverifyNormal (f := df) hc hcap ?_ (by exact hd) rfl h92 ⟨kf, by exact hk⟩ trivial
    intro o h1 h2 h3
    rw [← hroom]
    exact h.records o (by rw [← hh.keySize]; exact h1) h2 (by rw [hroom]; exact h3)
  · rename_i hch
    unfold verifyFast
    have hpos : fastChunk kh n ≠ 0 := by
      intro e
      apply hch
      unfold chooseNormal
      simp [e]
    split
    · rename_i hlt
      exfalso
      apply hpos
      unfold fastChunk
      rw [if_neg (by omega)]
    · dsimp only
      apply wp_bind
      apply wp_emit
      apply wp_bind
      generalize fastChunk kh n = chunk
      have hl : (c.fresh ((chunk + 1) * kh.blockSize)).length = (chunk + 1) * kh.blockSize := fresh_length _ _
      have he : (chunk + 1) * kh.blockSize = chunk * kh.blockSize + kh.blockSize := by rw [Nat.add_mul, Nat.one_mul]
      apply wp_rp (P := fun _ => True) (rp_ofMem' (by rw [List.length_drop, hl]; omega)) trivial
      intro tmp ⟨t1, t2, _⟩
      refine dfastChunks (kf := kf) hc ?_ hh.klen' _ _ _ _ _ _ _ ⟨t1, by rw [t2, List.length_drop, hl]; omega⟩
        (by rw [List.length_take, hl]; omega) ⟨df, by exact hd⟩ (by exact hk) trivial
      intro i hi
      have hle : (i + 2) * kh.blockSize ≤ (kh.buckets + 1) * kh.blockSize := Nat.mul_le_mul_right _ (by omega)
      have hle2 := hh.klen'
      rw [show i + 2 = i + 1 + 1 from rfl, Nat.add_mul (i + 1) 1, Nat.one_mul] at hle
      have := h.buckets i (by rw [← hh.buckets]; exact hi)
      rw [hroom, ← hh.blockSize] at this
      rw [C18_u16.reads _ (slice_length_of_le (by omega))]
      exact this

end

end NuDB
