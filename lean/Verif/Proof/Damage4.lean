import Verif.Proof.Damage3
import Verif.Proof.RecoverAny
/- `commit`, `flush`, `close` and `open` on files with arbitrary content. -/
namespace NuDB

open Spec

/-- Buckets below `B` with blobs of at most as many entries as fit. -/
def FineCache (bs B : Nat) (c : Cache) : Prop := ∀ n p, (n, p) ∈ c → n < B ∧ FineMem bs p

section
variable {σ : Schedule} {c : Cfg} {S : List Path} {w : World} {bs B : Nat}

theorem FineCache.nil : FineCache bs B [] := fun _ _ h => by cases h

theorem FineCache.mono {B' : Nat} {ca : Cache} (h : FineCache bs B ca) (hb : B ≤ B') : FineCache bs B' ca :=
  fun n p hm => ⟨Nat.lt_of_lt_of_le (h n p hm).1 hb, (h n p hm).2⟩

theorem FineCache.add {ca : Cache} {n : Nat} {p : Bytes} (h : FineCache bs B ca) (hn : n < B) (hp : FineMem bs p) :
    FineCache bs B (ca ++ [(n, p)]) := by
  intro k q hm
  rcases List.mem_append.mp hm with hm | hm
  · exact h k q hm
  · simp only [List.mem_singleton, Prod.mk.injEq] at hm
    rw [hm.1, hm.2]; exact ⟨hn, hp⟩

theorem FineCache.store {ca : Cache} {n : Nat} {p : Bytes} (h : FineCache bs B ca) (hn : n < B) (hp : FineMem bs p) :
    FineCache bs B (ca.store n p) := by
  intro k q hm
  rcases Cache.mem_store hm with ⟨rfl, rfl⟩ | ⟨_, hm⟩
  · exact ⟨hn, hp⟩
  · exact h k q hm

theorem FineCache.absent {ca : Cache} {n : Nat} (h : FineCache bs B ca) (hn : B ≤ n) : ca.find n = none := by
  cases e : ca.find n with
  | none => rfl
  | some p => have := (h n p (Cache.find_mem e)).1; omega

theorem rp_cacheInsert {ca : Cache} {n : Nat} {b : Bkt} (hc : 1 ≤ bucketCapacity bs) (hb : Fine bs b) (hn : ca.find n = none) :
    rp (ca.insert c n b) (fun x => ∃ p, x.1 = ca ++ [(n, p)] ∧ FineMem bs p ∧ Fine bs x.2) := by
  have := hb.room hc
  unfold Cache.insert
  apply rp_bind
  refine rp_post (rp_compact hb hc) fun body ⟨h1, h2⟩ => ?_
  apply rp_bind
  apply rp_poke (by rw [fresh_length, hb.block]; omega)
  rw [hn]
  simp only [Option.isSome_none, Bool.false_eq_true, if_false]
  have hl : (put (c.fresh b.bs) 0 body).length = bs := by rw [put_length (by rw [fresh_length, hb.block]; omega), fresh_length, hb.block]
  have hm : FineMem bs (put (c.fresh b.bs) 0 body) := by
    refine ⟨hl, ?_⟩
    have e : slice (put (c.fresh b.bs) 0 body) 0 2 = slice b.p 0 2 := by
      have e1 : slice (put (c.fresh b.bs) 0 body) 0 (8 + 18 * b.size) = body := by
        rw [← h1]
        exact slice_put_same (by rw [fresh_length, hb.block]; omega)
      have e2 : slice (slice (put (c.fresh b.bs) 0 body) 0 (8 + 18 * b.size)) 0 2 = slice (put (c.fresh b.bs) 0 body) 0 2 :=
        slice_slice (by omega)
      rw [← e2, e1, h2]
      exact slice_slice (by omega)
    rw [e, hb.count]; exact hb.size
  apply rp_bind
  rw [hb.block] at hm ⊢
  refine rp_post (rp_ofMem hc hm) fun b' hb' => ?_
  exact ⟨_, rfl, hm, hb'⟩

theorem dload {n : Nat} {c1 c0 : Cache} {Q : Bkt × Cache × Cache → World → Prop} (hc : 1 ≤ bucketCapacity bs) (hn : n < B)
    (h1 : FineCache bs B c1) (h0 : FineCache bs B c0) (hk : ∃ f, w.fs .key = some f) (hs : Has S w.fs)
    (hq : ∀ b c1' c0' w', Fine bs b → FineCache bs B c1' → FineCache bs B c0' → w'.fs = w.fs → Q (b, c1', c0') w') :
    wp σ (load c bs n c1 c0) Q (Tame σ (Has S)) w := by
  unfold load
  cases e1 : c1.find n with
  | some p =>
    apply wp_bind
    apply wp_rp (rp_ofMem hc (h1 n p (Cache.find_mem e1)).2) hs
    intro b hb
    exact wp_ret (hq _ _ _ _ hb h1 h0 rfl)
  | none =>
  cases e0 : c0.find n with
  | some p =>
    apply wp_bind
    apply wp_rp (rp_ofMem hc (h0 n p (Cache.find_mem e0)).2) hs
    intro b hb
    apply wp_bind
    apply wp_rp (rp_cacheInsert hc hb e1) hs
    intro ⟨c1', b'⟩ ⟨p', g1, g2, g3⟩
    dsimp only at g1 g3 ⊢
    subst g1
    exact wp_ret (hq _ _ _ _ g3 (h1.add hn g2) h0 rfl)
  | none =>
    refine dreadFresh hc hk hs ?_
    intro b w1 hb hw1
    have hs1 : Has S w1.fs := by rw [hw1]; exact hs
    apply wp_bind
    apply wp_rp (rp_cacheInsert hc hb e0) hs1
    intro ⟨c0', b0⟩ ⟨p0, g1, g2, g3⟩
    dsimp only at g1 g3 ⊢
    subst g1
    apply wp_bind
    apply wp_rp (rp_cacheInsert hc hb e1) hs1
    intro ⟨c1', b'⟩ ⟨p', k1, k2, k3⟩
    dsimp only at k1 k3 ⊢
    subst k1
    exact wp_ret (hq _ _ _ _ k3 (h1.add hn k2) (h0.add hn g2) hw1)

/-- The local variables of `commit`. -/
structure FineWork (bs : Nat) (x : Work) (fs : Fs) : Prop where
  c0 : FineCache bs x.buckets x.c0
  c1 : FineCache bs x.buckets x.c1
  buckets : 1 ≤ x.buckets
  modulus : IsModulus x.buckets x.modulus
  tmp : x.tmp.bs = bs
  len : x.tmp.p.length = bs
  w : AtEnd x.w .dat fs

theorem dcommitSplit {kh : KeyHeader} {thresh : Nat} {x : Work} (hc : 1 ≤ bucketCapacity kh.blockSize) (hx : FineWork kh.blockSize x w.fs)
    (hk : ∃ f, w.fs .key = some f) (hs : Has S w.fs) :
    wp σ (commitSplit c kh thresh x) (fun x' w' => FineWork kh.blockSize x' w'.fs ∧ Only' .dat w.fs w'.fs) (Tame σ (Has S)) w := by
  have h8 := (cap_room hc).1
  obtain ⟨f, hf', _⟩ := hx.w.file
  unfold commitSplit
  dsimp only
  split
  · have hm := hx.modulus.next hx.buckets
    unfold nextModulus at hm
    have hb := hx.buckets
    apply wp_bind
    generalize hmod : (if x.buckets = x.modulus then x.modulus * 2 else x.modulus) = m at *
    have hlt : x.buckets - m / 2 < x.buckets := by
      have := hm.half (by omega)
      have := hm.2.2
      omega
    refine dload hc hlt hx.c1 hx.c0 hk hs ?_
    intro b1 c1' c0' w1 g1 g2 g3 e1
    have hs1 : Has S w1.fs := by rw [e1]; exact hs
    apply wp_bind
    refine wp_rp (R := fun y => ∃ p, y.1 = c1' ++ [(x.buckets, p)] ∧ FineMem kh.blockSize p ∧ Fine kh.blockSize y.2 ∧ y.2.size = 0) ?_ hs1 ?_
    · unfold Cache.create
      apply rp_bind
      refine rp_post (rp_ofEmpty (fresh_length _ _) (by omega)) fun b ⟨hb1, hb2⟩ => ?_
      rw [g2.absent (Nat.le_refl _)]
      exact ⟨_, rfl, hb1.mem, hb1, hb2⟩
    intro ⟨c1'', b2⟩ ⟨p, k1, k2, k3, k4⟩
    dsimp only at k1 k3 k4 ⊢
    subst k1
    apply wp_bind
    refine wp_post (dsplit hc g1 k3 k4 hx.tmp hx.len (by rw [e1]; exact hx.w) hs1) ?_
    intro ⟨b1', b2', tmp', wr'⟩ w2 ⟨r1, r2, r3, r4, r5, r6⟩
    rw [e1] at r6
    dsimp only at r1 r2 r3 r4 r5 ⊢
    refine wp_ret ⟨⟨g3.mono (Nat.le_succ _), ?_, Nat.le_add_left _ _, hm, r3, r4, r5⟩, r6⟩
    exact (((g2.mono (Nat.le_succ _)).add (by omega) k2).store (by omega) r1.mem).store (by omega) r2.mem
  · exact wp_ret ⟨⟨hx.c0, hx.c1, hx.buckets, hx.modulus, hx.tmp, hx.len, hx.w⟩, Only'.refl ⟨f, hf'⟩⟩

theorem dcommitInsert {kh : KeyHeader} {thresh off : Nat} {it : Item} {x : Work} (hc : 1 ≤ bucketCapacity kh.blockSize)
    (hx : FineWork kh.blockSize x w.fs) (hk : ∃ f, w.fs .key = some f) (hs : Has S w.fs) :
    wp σ (commitInsert c kh thresh it off x) (fun x' w' => FineWork kh.blockSize x' w'.fs ∧ Only' .dat w.fs w'.fs) (Tame σ (Has S)) w := by
  unfold commitInsert
  apply wp_bind
  refine wp_post (dcommitSplit hc hx hk hs) ?_
  intro x1 w1 ⟨g1, o1⟩
  have hs1 := o1.has hs
  apply wp_bind
  apply wp_rp rp_bucketIndexA hs1
  rintro _ rfl
  have hn := bucketIndex_lt g1.buckets g1.modulus it.hash
  apply wp_bind
  have hk1 : ∃ f, w1.fs .key = some f := by rw [o1.same _ (by decide)]; exact hk
  refine dload hc hn g1.c1 g1.c0 hk1 hs1 ?_
  intro b c1' c0' w2 q1 q2 q3 e2
  have hs2 : Has S w2.fs := by rw [e2]; exact hs1
  apply wp_bind
  refine dmaybeSpill hc q1 (by rw [e2]; exact g1.w) hs2 ?_
  intro b' wr' w3 r1 r2 r3 r4
  apply wp_bind
  apply wp_rp (rp_insert r1 hc r2) (r4.has hs2)
  intro b'' ⟨s1, _⟩
  rw [e2] at r4
  exact wp_ret ⟨⟨q3, q2.store hn s1.mem, g1.buckets, g1.modulus, g1.tmp, g1.len, r3⟩, o1.trans r4⟩

theorem dcommitInserts {kh : KeyHeader} {thresh : Nat} (hc : 1 ≤ bucketCapacity kh.blockSize) :
    ∀ (l : List (Item × Nat)) (x : Work) (w : World), FineWork kh.blockSize x w.fs → (∃ f, w.fs .key = some f) → Has S w.fs →
    wp σ (commitInserts c kh thresh l x) (fun x' w' => FineWork kh.blockSize x' w'.fs ∧ Only' .dat w.fs w'.fs) (Tame σ (Has S)) w := by
  intro l
  induction l with
  | nil =>
    intro x w hx hk hs
    obtain ⟨f, hf', _⟩ := hx.w.file
    exact wp_ret ⟨hx, Only'.refl ⟨f, hf'⟩⟩
  | cons a l ih =>
    intro x w hx hk hs
    obtain ⟨it, off⟩ := a
    unfold commitInserts
    apply wp_bind
    refine wp_post (dcommitInsert hc hx hk hs) ?_
    intro x1 w1 ⟨g1, o1⟩
    have hk1 : ∃ f, w1.fs .key = some f := by rw [o1.same _ (by decide)]; exact hk
    refine wp_post (ih x1 w1 g1 hk1 (o1.has hs)) ?_
    intro x2 w2 ⟨g2, o2⟩
    exact ⟨g2, o1.trans o2⟩

theorem dappendData : ∀ (l : Pool) (wr : Writer) (w : World), AtEnd wr .dat w.fs → Has S w.fs →
    wp σ (appendData l wr) (fun x w' => AtEnd x.2 .dat w'.fs ∧ Only' .dat w.fs w'.fs) (Tame σ (Has S)) w := by
  intro l
  induction l with
  | nil =>
    intro wr w hw hs
    obtain ⟨f, hf', _⟩ := hw.file
    exact wp_ret ⟨hw, Only'.refl ⟨f, hf'⟩⟩
  | cons it l ih =>
    intro wr w hw hs
    unfold appendData
    dsimp only
    apply wp_bind
    refine wp_rp (R := fun _ => True) (by unfold assert; split <;> trivial) hs fun _ _ => ?_
    apply wp_bind
    refine dappend hw hs ?_
    intro wr1 w1 h1 o1
    apply wp_bind
    refine wp_post (ih wr1 w1 h1 (o1.has hs)) ?_
    intro ⟨l', wr2⟩ w2 ⟨h2, o2⟩
    exact wp_ret ⟨h2, o1.trans o2⟩

theorem dcommitPrepare {s : Store} (h : Kept' s w.fs) :
    wp σ (commitPrepare c s) (fun x w' => FineWork s.kh.blockSize x w'.fs ∧ Has [.dat, .key, .log] w'.fs ∧ s.ec = none)
      (Tame σ (Has [.dat, .key, .log])) w := by
  have h8 := cap_room h.cap
  have hs := h.files
  unfold commitPrepare
  apply wp_bind
  apply wp_rp (rp_ofMem' (by rw [fresh_length]; omega)) hs
  intro tmp ⟨t1, t2, _⟩
  apply wp_bind
  obtain ⟨kf, hk⟩ := hs.key
  refine dfSize hk hs ?_
  intro w1 e1
  have hs1 : Has [.dat, .key, .log] w1.fs := by rw [e1]; exact hs
  cases he : s.ec with
  | some e => exact wp_fail (Tame.err _ hs1)
  | none =>
  dsimp only
  obtain ⟨_, lf, hl, hl0⟩ := h.calm he
  obtain ⟨df, hd⟩ := hs.dat
  apply wp_bind
  refine dfSize (f := df) (by rw [e1]; exact hd) hs1 ?_
  intro w2 e2
  have hs2 : Has [.dat, .key, .log] w2.fs := by rw [e2]; exact hs1
  apply wp_bind
  refine dfAppend (f := lf) (by rw [e2, e1]; exact hl) (by rw [hl0]; rfl) hs2 ?_
  intro w3 e3
  have hs3 : Has [.dat, .key, .log] w3.fs := by rw [e3]; exact hs2.set _ _
  apply wp_bind
  refine dfSync (by rw [e3]; simp; rfl) hs3 ?_
  intro w4 e4
  have hs4 : Has [.dat, .key, .log] w4.fs := by rw [e4]; exact hs3.set _ _
  have hd4 : w4.fs .dat = some df := by rw [e4, e3, e2, e1]; simp [hd]
  apply wp_bind
  refine dfSize hd4 hs4 ?_
  intro w5 e5
  have hs5 : Has [.dat, .key, .log] w5.fs := by rw [e5]; exact hs4
  apply wp_bind
  refine wp_post (dappendData s.p0 (Writer.new .dat df.cur.length writeSize) w5 ⟨rfl, df, by rw [e5]; exact hd4, rfl⟩ hs5) ?_
  intro ⟨items, wr⟩ w6 ⟨a6, o6⟩
  have hs6 := o6.has hs5
  apply wp_bind
  refine wp_post (dcommitInserts h.cap _ _ w6 ⟨FineCache.nil, FineCache.nil, h.buckets, h.modulus, t1, by rw [t2, fresh_length], a6⟩ hs6.key hs6) ?_
  intro x w7 ⟨g7, o7⟩
  have hs7 := o7.has hs6
  apply wp_bind
  refine dflush g7.w hs7 ?_
  intro wr8 w8 a8 _ o8
  exact wp_ret ⟨⟨g7.c0, g7.c1, g7.buckets, g7.modulus, g7.tmp, g7.len, a8⟩, o8.has hs7, rfl⟩

theorem dlogRecords (hc : 1 ≤ bucketCapacity bs) : ∀ (l : List (Nat × Bytes)) (wr : Writer) (w : World),
    (∀ n p, (n, p) ∈ l → FineMem bs p) → AtEnd wr .log w.fs → Has S w.fs →
    wp σ (logRecords bs l wr) (fun wr' w' => AtEnd wr' .log w'.fs ∧ Only' .log w.fs w'.fs) (Tame σ (Has S)) w := by
  intro l
  induction l with
  | nil =>
    intro wr w _ hw hs
    obtain ⟨f, hf', _⟩ := hw.file
    exact wp_ret ⟨hw, Only'.refl ⟨f, hf'⟩⟩
  | cons a l ih =>
    intro wr w hl hw hs
    obtain ⟨n, p⟩ := a
    unfold logRecords
    apply wp_bind
    apply wp_rp (rp_ofMem hc (hl n p (by simp))) hs
    intro b hb
    apply wp_bind
    apply wp_rp (rp_compact hb hc) hs
    intro body _
    apply wp_bind
    refine dappend hw hs ?_
    intro wr1 w1 h1 o1
    refine wp_post (ih wr1 w1 (fun n p h => hl n p (by simp [h])) h1 (o1.has hs)) ?_
    intro wr2 w2 ⟨h2, o2⟩
    exact ⟨h2, o1.trans o2⟩

theorem dkeyBlocks (hc : 1 ≤ bucketCapacity bs) : ∀ (l : List (Nat × Bytes)) (w : World),
    (∀ n p, (n, p) ∈ l → FineMem bs p) → (∃ f, w.fs .key = some f) → Has S w.fs →
    wp σ (keyBlocks bs l) (fun _ w' => Only' .key w.fs w'.fs) (Tame σ (Has S)) w := by
  intro l
  induction l with
  | nil => intro w _ hk hs; exact wp_ret (Only'.refl hk)
  | cons a l ih =>
    intro w hl hk hs
    obtain ⟨n, p⟩ := a
    obtain ⟨kf, hkf⟩ := hk
    unfold keyBlocks
    apply wp_bind
    apply wp_rp (rp_ofMem hc (hl n p (by simp))) hs
    intro b hb
    apply wp_bind
    unfold Bkt.writeFile
    apply wp_bind
    apply wp_rp (rp_padded hb hc) hs
    intro blk _
    refine dfWrite hkf hs ?_
    intro w1 e1
    have o1 : Only' .key w.fs w1.fs := by rw [e1]; exact Only'.set _
    refine wp_post (ih w1 (fun n p h => hl n p (by simp [h])) o1.file (o1.has hs)) ?_
    intro _ w2 o2
    exact o1.trans o2

theorem dcommitFinish {c0 c1 : Cache} (hc : 1 ≤ bucketCapacity bs) (h0 : FineCache bs B c0) (h1 : FineCache bs B c1)
    (hs : Has [.dat, .key, .log] w.fs) :
    wp σ (commitFinish c bs c0 c1) (fun _ w' => Has [.dat, .key, .log] w'.fs ∧ ∃ f, w'.fs .log = some f ∧ f.cur = [])
      (Tame σ (Has [.dat, .key, .log])) w := by
  have m0 : ∀ n p, (n, p) ∈ c.order c0 → FineMem bs p := fun n p h => (h0 n p ((c.order_perm c0).mem_iff.mp h)).2
  have m1 : ∀ n p, (n, p) ∈ c.order c1 → FineMem bs p := fun n p h => (h1 n p ((c.order_perm c1).mem_iff.mp h)).2
  unfold commitFinish
  apply wp_bind
  refine wp_post (Q := fun _ w' => Has [.dat, .key, .log] w'.fs) ?_ ?_
  · unfold commitLog
    obtain ⟨lf, hl⟩ := hs.log
    apply wp_bind
    refine dfSize hl hs ?_
    intro w1 e1
    have hs1 : Has [.dat, .key, .log] w1.fs := by rw [e1]; exact hs
    apply wp_bind
    refine wp_post (dlogRecords hc _ _ w1 m0 ⟨rfl, lf, by rw [e1]; exact hl, rfl⟩ hs1) ?_
    intro wr w2 ⟨a2, o2⟩
    apply wp_bind
    refine dflush a2 (o2.has hs1) ?_
    intro wr3 w3 _ _ o3
    have hs3 := o3.has (o2.has hs1)
    obtain ⟨lf3, hl3⟩ := hs3.log
    refine dfSync hl3 hs3 ?_
    intro w4 e4
    rw [e4]; exact hs3.set _ _
  intro _ w1 hs1
  apply wp_bind
  refine wp_post (dkeyBlocks hc _ w1 m1 hs1.key hs1) ?_
  intro _ w2 o2
  have hs2 := o2.has hs1
  obtain ⟨df, hd⟩ := hs2.dat
  apply wp_bind
  refine dfSync hd hs2 ?_
  intro w3 e3
  have hs3 : Has [.dat, .key, .log] w3.fs := by rw [e3]; exact hs2.set _ _
  obtain ⟨kf, hk⟩ := hs3.key
  apply wp_bind
  refine dfSync hk hs3 ?_
  intro w4 e4
  have hs4 : Has [.dat, .key, .log] w4.fs := by rw [e4]; exact hs3.set _ _
  obtain ⟨lf, hl⟩ := hs4.log
  apply wp_bind
  refine dfTrunc hl hs4 ?_
  intro w5 e5
  have hs5 : Has [.dat, .key, .log] w5.fs := by rw [e5]; exact hs4.set _ _
  refine dfSync (f := lf.push (.trunc 0)) (by rw [e5]; simp) hs5 ?_
  intro w6 e6
  refine ⟨by rw [e6]; exact hs5.set _ _, _, by rw [e6]; simp; rfl, ?_⟩
  show (lf.push (.trunc 0)).cur = []
  rw [cur_push]
  simp [POp.apply, truncAt_zero]

theorem Kept'.swap {s : Store} {fs : Fs} (h : Kept' s fs) : Kept' { s with p0 := s.p1, p1 := s.p0 } fs :=
  ⟨h.cap, h.buckets, h.modulus, h.files, h.calm⟩

theorem dcommit {s : Store} (h : Kept' s w.fs) :
    wp σ (commit c s) (fun x w' => Kept' { x.1 with ec := if x.2.isSome then x.2 else x.1.ec } w'.fs) (fun x _ => x ≠ .ub ∧ x ≠ .throw ∧ (x = .crash → Faulty σ)) w := by
  unfold commit
  apply wp_bind
  refine wp_conseq (wp_rp (P := Has [.dat, .key, .log]) (R := fun _ => True) (Q := fun _ w' => w' = w) (by unfold assert; split <;> trivial) h.files fun _ _ => rfl) ?_
    (fun x w' hx => ⟨hx.1, hx.2.1, hx.2.2.1⟩)
  rintro _ _ rfl
  dsimp only
  apply wp_bind
  apply wp_attempt
  have h' := h.swap
  refine wp_conseq (dcommitPrepare h') ?_ ?_
  · intro x w1 ⟨g1, hs1, he⟩
    dsimp only
    apply wp_bind
    apply wp_attempt
    refine wp_conseq (dcommitFinish h.cap g1.c0 g1.c1 hs1) ?_ ?_
    · intro _ w2 ⟨hs2, hl⟩
      refine wp_ret ⟨h.cap, g1.buckets, g1.modulus, hs2, fun _ => ⟨rfl, hl⟩⟩
    · intro x w2 ⟨t1, t2, t3, hs2⟩
      cases x with
      | err e =>
        refine wp_ret ⟨h.cap, g1.buckets, g1.modulus, hs2, fun h => by cases h⟩
      | _ => exact ⟨t1, t2, t3⟩
  · intro x w2 ⟨t1, t2, t3, hs2⟩
    cases x with
    | err e =>
      refine wp_ret ⟨h.cap, h.buckets, h.modulus, hs2, fun h => by cases h⟩
    | _ => exact ⟨t1, t2, t3⟩

theorem dflushStore {s : Store} (h : Kept' s w.fs) :
    wp σ (flush c s) (fun s' w' => Kept' s' w'.fs) (fun x _ => x ≠ .ub ∧ x ≠ .throw ∧ (x = .crash → Faulty σ)) w := by
  unfold flush
  split
  · exact wp_ret h
  · apply wp_bind
    refine wp_post (dcommit h) ?_
    intro ⟨s', e⟩ w1 h1
    exact wp_ret h1

theorem dclose {s : Store} (h : Kept' s w.fs) :
    wp σ (close c s) (fun _ _ => True) (fun x _ => x ≠ .ub ∧ x ≠ .throw ∧ (x = .crash → Faulty σ)) w := by
  unfold close
  apply wp_bind
  refine wp_post (dflushStore h) ?_
  intro s' w1 h1
  split
  · exact wp_ret trivial
  · apply wp_bind
    apply wp_attempt
    obtain ⟨lf, hl⟩ := h1.files.log
    refine wp_fErase hl (wp_ret trivial) ?_
    intro x hx hf
    rcases hx with rfl | rfl
    · exact ⟨(fun h => by cases h), (fun h => by cases h), fun _ => hf⟩
    · exact wp_ret trivial

end

end NuDB
