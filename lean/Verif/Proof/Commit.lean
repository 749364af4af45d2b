import Verif.Proof.Finish
/- `commit` and the invariant of an open store. -/
namespace NuDB

open Spec

/-- An open store between calls: the files hold the records `recs`, the pool holds what has
been inserted since the last commit. -/
structure Sess (c : Cfg) (cf : Conf) (s : Store) (fs : Fs) (D K : Bytes) (recs : List Rec) (B : Nat)
    (view : View) : Prop where
  db : Db c cf D K recs B view
  idle : Idle D K fs
  ec : s.ec = none
  p0 : s.p0 = []
  c1 : s.c1 = []
  kh : ∃ Bk, s.kh = cf.kh c.H Bk
  buckets : s.buckets = B
  modulus : s.modulus = ceilPow2 B
  pool : PoolOk c cf (pairsOf recs) s.p1
  thresh : s.thresh = max 65536 (cf.loadFactor * cf.cap)

/-- Longest log a commit of `k` elements writes. -/
def logMax (cf : Conf) (k : Nat) : Nat := 62 + 2 * k * (8 + cf.blockSize)

/-- What the files may become by a commit: unchanged, or with the pool added. -/
def CommitGoal (c : Cfg) (cf : Conf) (D0 K0 : Bytes) (ps : List (Bytes × Bytes)) (D K : Bytes) : Prop :=
  (D = D0 ∧ K = K0) ∨ (D0 <+: D ∧ Holds c cf D K ps)

theorem flatMap_length_le {f : Nat → Bytes} {m : Nat} {l : List Nat} (h : ∀ n ∈ l, (f n).length ≤ m) :
    (l.flatMap f).length ≤ l.length * m := by
  induction l with
  | nil => simp
  | cons n l ih =>
    have h1 := h n (by simp)
    have h2 := ih (fun k hk => h k (by simp [hk]))
    simp only [List.flatMap_cons, List.length_append, List.length_cons, Nat.add_mul]
    omega

section
variable {c : Cfg} {cf : Conf} {σ : Schedule} {lim nb : Prop}

/-- The files after a commit. -/
theorem publish {D0 K0 : Bytes} {recs : List Rec} {B0 : Nat} {view0 : View} {p : Pool}
    (hdb : Db c cf D0 K0 recs B0 view0) (hp : PoolOk c cf (pairsOf recs) p) (hne : p ≠ [])
    {P : Fs → Prop} {w1 w' : World} {n : Nat} {x : Work} {rs : List Rec} {view : View}
    (hW : WorkInv c cf B0 view0 w1 (D0 ++ encRecs (recsOf p)) P n x w' rs view
        ((items c cf (recs ++ recsOf p)).map (·.1)))
    (hpl : ∀ q ∈ placed D0.length p, q.2 < 2 ^ 48) (hm : x.modulus ≤ 2 ^ 32) :
    ∀ K1, KeyFile c cf K1 x.buckets view →
      Db c cf (D0 ++ encRecs (recsOf p) ++ encRecs rs) K1 (recs ++ recsOf p ++ rs) x.buckets view := by
  intro K1 hK1
  have hsp := hW.grown.spills
  have hok := recsOf_ok hp
  have hlen : (D0 ++ encRecs (recsOf p) ++ encRecs rs).length ≤ 2 ^ 49 := by
    by_cases hrs : rs = []
    · subst hrs
      obtain ⟨q, hq, e⟩ := placed_last hne D0.length
      have h1 := hpl q hq
      obtain ⟨_, h2, h3, h4⟩ := hp.each q.1 (placed_mem hq).1
      have h5 := hdb.conf.key2
      simp only [encRecs_nil, List.append_nil, List.length_append]
      omega
    · have := hW.grown.small hrs
      omega
  refine ⟨hdb.conf, ⟨?_, ?_, ?_⟩, hlen, hW.b1, ?_, hK1, ?_⟩
  · rw [hdb.dat.eq, encRecs_append, encRecs_append]; simp
  · intro r hr
    rcases List.mem_append.mp hr with hr | hr
    · rcases List.mem_append.mp hr with hr | hr
      · exact hdb.dat.ok r hr
      · exact hok r hr
    · exact (hsp r hr).1
  · rw [pairsOf_append, pairsOf_append, pairsOf_spills hsp, pairsOf_recsOf, List.append_nil]
    exact hp.nodup
  · have := hW.mod.2.2; omega
  · have e := IsModulus.eq_ceilPow2 hW.b1 (by have := hW.mod.2.2; omega) hW.mod
    have : items c cf (recs ++ recsOf p ++ rs) = items c cf (recs ++ recsOf p) := by
      rw [items, itemsOf_append, itemsOf_spills hsp, List.append_nil]; rfl
    rw [this, ← e]
    exact hW.filed

/-- The log of a commit is short. -/
theorem log_length {D0 K0 : Bytes} {recs : List Rec} {B0 : Nat} {view0 : View}
    (hdb : Db c cf D0 K0 recs B0 view0) {ns : List Nat} (hns : ∀ n ∈ ns, n < B0) {k : Nat}
    (hk : ns.length ≤ 2 * k) :
    (logBytes c cf K0.length D0.length view0 ns).length ≤ logMax cf k := by
  have h1 : (ns.flatMap (logRec view0)).length ≤ ns.length * (8 + cf.blockSize) := by
    apply flatMap_length_le
    intro n hn
    have h2 := (hdb.filed n (hns n hn)).len
    have h3 := hdb.conf.cap_le
    rw [logRec_length]
    simp only [bucketSize] at *
    omega
  have h4 : ns.length * (8 + cf.blockSize) ≤ 2 * k * (8 + cf.blockSize) := Nat.mul_le_mul_right _ hk
  simp only [logBytes, List.length_append, putLogHeader_length, logMax]
  omega

theorem wp_commit {s : Store} {w : World} {L : Nat} {D0 K0 : Bytes} {recs : List Rec} {B0 : Nat}
    {view0 : View} {G : Bytes → Bytes → Prop}
    (hS : Sess c cf s w.fs D0 K0 recs B0 view0) (hne : s.p1 ≠ [])
    (hL : logMax cf s.p1.length ≤ L) (hG : G D0 K0)
    (hG1 : ∀ D K recs' B' view', D0 <+: D → Db c cf D K recs' B' view' →
      pairsOf recs' = pairsOf recs ++ poolPairs s.p1 →
      D.length ≤ D0.length + (encRecs (recsOf s.p1)).length +
        s.p1.length * (((pairsOf recs).length + s.p1.length + 1) * cf.recLen) →
      B' = (growSteps s.thresh s.p1.length (s.frac, B0)).2 → G D K)
    {Q : Store × Option Err → World → Prop}
    (hQ : ∀ s' w' D1 K1 rs B1 view, Sess c cf s' w'.fs D1 K1 (recs ++ recsOf s.p1 ++ rs) B1 view →
      Spills cf rs → D0 <+: D1 → s'.p1 = [] → w'.out = w.out → s'.kh = s.kh →
      (s'.frac, B1) = growSteps s.thresh s.p1.length (s.frac, B0) →
      D1.length ≤ D0.length + (encRecs (recsOf s.p1)).length +
        s.p1.length * (((pairsOf recs).length + s.p1.length + 1) * cf.recLen) →
      Q (s', none) w')
    (hE : ∀ s' w', Faulty σ → s'.p1 = [] → Safe c cf L G w'.fs → Q (s', some .io) w') :
    wp σ (commit c s) Q (fun x w' => Safe c cf L G w'.fs ∧
      ((x = .crash ∧ Faulty σ) ∨ (x = .abort ∧ ¬ Room cf D0 B0 recs s.p1 ∧ (B0 + s.p1.length ≤ 2 ^ 32 → Big w'.fs)))) w := by
  have hdb := hS.db
  have hL62 : 62 ≤ L := by unfold logMax at hL; omega
  unfold commit
  apply wp_bind
  apply wp_lift_ok (assert_ok (by simpa using hne))
  apply wp_bind
  apply wp_attempt
  obtain ⟨Bk, hkh⟩ := hS.kh
  apply wp_conseq (Q := fun x w' => ∃ w1 rs view n, WorkInv c cf B0 view0 w1 (D0 ++ encRecs (recsOf s.p1))
        (DataP D0 K0 (putLogHeader (cf.lh c.H K0.length D0.length))) n x w' rs view
        ((items c cf (recs ++ recsOf s.p1)).map (·.1)) ∧
      w'.fs .key = w.fs .key ∧ w1.out = w.out ∧ x.w.data = [] ∧
      (∀ p ∈ placed D0.length s.p1, p.2 < 2 ^ 48) ∧ x.modulus ≤ 2 ^ 32 ∧
      (x.frac, x.buckets) = growSteps s.thresh s.p1.length (s.frac, s.buckets) ∧
      x.c0.length ≤ 2 * s.p1.length ∧
      (D0 ++ encRecs (recsOf s.p1) ++ encRecs rs).length ≤ D0.length + (encRecs (recsOf s.p1)).length +
        s.p1.length * (((pairsOf recs).length + s.p1.length + 1) * cf.recLen))
    (X := XP σ (Safe c cf L G) (Room cf D0 B0 recs s.p1) (B0 + s.p1.length ≤ 2 ^ 32))
  · apply wp_commitPrepare (s := { s with p0 := s.p1, p1 := s.p0 }) hdb hG hL62 hS.idle hkh hS.buckets
      hS.modulus hS.ec hS.pool
    intro x w' w1 rs view n h1 h2 h3 h4 h5 h6 h7 h8 h9
    exact ⟨w1, rs, view, n, h1, h2, h3, h4, h5, h6, h7, h8, h9⟩
  · rintro x w' ⟨w1, rs, view, n, h1, h2, h3, h4, h5, h6, h7, h8, h9⟩
    apply wp_bind
    apply wp_attempt
    have hpub := publish hdb hS.pool hne h1 h5 h6
    obtain ⟨df, hd, sd⟩ := h1.grown.inv.dat
    obtain ⟨kf, hk, sk⟩ := h1.grown.inv.key
    obtain ⟨df', hd', hdc, _⟩ := h1.grown.winv.file
    rw [hd] at hd'; cases hd'
    rw [h4, List.append_nil] at hdc
    have hns : ∀ n ∈ (c.order x.c0).map (·.1), n < B0 := by
      intro n hn
      obtain ⟨y, hy, rfl⟩ := List.mem_map.mp hn
      exact (h1.caches.blob0 y.1 y.2 ((c.order_perm x.c0).mem_iff.mp hy)).1
    have hsp := h1.grown.spills
    have hpairs : pairsOf (recs ++ recsOf s.p1 ++ rs) = pairsOf recs ++ poolPairs s.p1 := by
      rw [pairsOf_append, pairsOf_append, pairsOf_spills hsp, pairsOf_recsOf, List.append_nil]
    have hpre : D0 <+: D0 ++ encRecs (recsOf s.p1) ++ encRecs rs := by
      rw [List.append_assoc]; exact List.prefix_append _ _
    apply wp_conseq (Q := fun _ w2 => ∃ K1, Idle (D0 ++ encRecs (recsOf s.p1) ++ encRecs rs) K1 w2.fs ∧
        KeyFile c cf K1 x.buckets view ∧ w2.out = w'.out)
      (X := XP σ (Safe c cf L G) True True)
    · simp only [hkh]
      refine wp_commitFinish (recs1 := recs ++ recsOf s.p1 ++ rs) hdb hG ?_ h1.caches h1.b1 ?_ ?_ ?_ hd sd hdc hk sk
        h1.grown.inv.log ?_
      · intro K1 hK1
        exact ⟨hpub K1 hK1, hG1 _ _ _ _ _ hpre (hpub K1 hK1) hpairs h9 (by rw [← hS.buckets, ← h7])⟩
      · intro m hm; exact ⟨(hdb.filed m hm).fit, (hdb.filed m hm).lt48⟩
      · intro m hm; exact ⟨(h1.filed m hm).fit, (h1.filed m hm).lt48⟩
      · refine Nat.le_trans (log_length hdb hns ?_) hL
        rw [List.length_map, (c.order_perm x.c0).length_eq]
        exact h8
      · intro w2 K1 a b d
        exact ⟨K1, a, b, d⟩
    · rintro _ w2 ⟨K1, a, b, d⟩
      apply wp_ret
      refine hQ _ w2 _ K1 rs x.buckets view ?_ hsp hpre hS.p0 ?_ rfl ?_ h9
      · refine ⟨hpub K1 b, a, hS.ec, rfl, rfl, ⟨Bk, hkh⟩, rfl, IsModulus.eq_ceilPow2 h1.b1 (by have := h1.mod.2.2; omega) h1.mod, ?_, hS.thresh⟩
        rw [hS.p0]
        refine ⟨by intro it h; exact absurd h List.not_mem_nil, ?_⟩
        show (List.map (·.1) (pairsOf (recs ++ recsOf s.p1 ++ rs) ++ [])).Nodup
        rw [List.append_nil, hpairs]
        exact hS.pool.nodup
      · rw [d, h1.grown.out, h3]
      · show (x.frac, x.buckets) = _
        rw [h7, hS.buckets]
    · rintro e w2 ⟨hsafe, h⟩
      rcases h with ⟨h, hf⟩ | ⟨_, h, _⟩
      · rcases h with rfl | rfl
        · exact ⟨hsafe, .inl ⟨rfl, hf⟩⟩
        · apply wp_ret
          exact hE _ _ hf hS.p0 hsafe
      · exact absurd trivial h
  · rintro e w2 ⟨hsafe, h⟩
    rcases h with ⟨h, hf⟩ | ⟨rfl, h⟩
    · rcases h with rfl | rfl
      · exact ⟨hsafe, .inl ⟨rfl, hf⟩⟩
      · apply wp_ret
        exact hE _ _ hf hS.p0 hsafe
    · exact ⟨hsafe, .inr ⟨rfl, h⟩⟩

end

end NuDB
