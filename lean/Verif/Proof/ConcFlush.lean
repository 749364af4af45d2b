import Verif.Proof.Look
import Verif.Spec.Concurrent
/- The flusher's programs: what they achieve when their steps are interleaved with other
threads. -/
namespace NuDB

open Spec Conc

/-- No faults. -/
def IsNone (f : Fault) : Prop := f = .none

theorem isNone_calm {σ : Schedule} (h : ∀ i, IsNone (σ i)) : ¬ Faulty σ := fun ⟨i, hi⟩ => hi (h i)

/-- Without faults the program does not end with an error code; an assertion fails only
if `A`. -/
abbrev CalmP (A : Fs → Prop) (p : Prog α) (fs : Fs) : Prop :=
  SureOn IsNone (fun _ _ => True) (fun x fs => x = .abort ∧ A fs) p fs

/-- The limits of the file format: too many buckets, or the data file is too large. -/
def Limit (n : Nat) (fs : Fs) : Prop := n ≤ 2 ^ 32 → Big fs

/-- never -/
def Never (_ : Fs) : Prop := False

/-- The files hold the map `m`. -/
def HoldsM (c : Cfg) (cf : Conf) (m : Map) (D K : Bytes) : Prop :=
  ∃ recs B view, Db c cf D K recs B view ∧ ∀ k, k.length = cf.keySize → kvOf (pairsOf recs) k = m k

/-- one of two numbers of events -/
def Two (lo nx n : Nat) : Prop := n = lo ∨ n = nx

/-- The files hold the content of an earlier moment, after one of these numbers of events. -/
def Past (c : Cfg) (cf : Conf) (m : Map) (S : Nat → Prop) (tr : List Ev) (D K : Bytes) : Prop :=
  ∃ pre, pre <+: tr ∧ S pre.length ∧ HoldsM c cf (contents m pre) D K

/-- Recovery would restore the content of an earlier moment, after one of these numbers of events. -/
def SafeM (c : Cfg) (cf : Conf) (m : Map) (S : Nat → Prop) (tr : List Ev) (fs : Fs) : Prop :=
  ∃ L, Safe c cf L (Past c cf m S tr) fs

/-- Faults of the environment, and reaching the limits of the file format. -/
def Halt (x : Exc) : Prop := x = .crash ∨ x = .err .io ∨ x = .abort

/-- Exceptional ends of the flusher's programs. -/
def XM (c : Cfg) (cf : Conf) (m : Map) (S : Nat → Prop) (tr : List Ev) (x : Exc) (fs : Fs) : Prop :=
  SafeM c cf m S tr fs ∧ Halt x

section
variable {c : Cfg} {cf : Conf} {m : Map} {lo nx : Nat} {S : Nat → Prop} {tr tr' : List Ev}

theorem Past.mono (h : tr <+: tr') {D K : Bytes} (hp : Past c cf m S tr D K) : Past c cf m S tr' D K := by
  obtain ⟨pre, h1, h2⟩ := hp
  exact ⟨pre, h1.trans h, h2⟩

theorem SafeM.mono (h : tr <+: tr') {fs : Fs} (hs : SafeM c cf m S tr fs) : SafeM c cf m S tr' fs := by
  obtain ⟨L, hs⟩ := hs
  exact ⟨L, hs.mono (fun _ _ => Past.mono h)⟩

theorem XM.mono (h : tr <+: tr') {x : Exc} {fs : Fs} (hs : XM c cf m S tr x fs) : XM c cf m S tr' x fs :=
  ⟨hs.1.mono h, hs.2⟩

theorem xm_of {σ : Schedule} {L : Nat} {lim nb : Prop} {x : Exc} {w : World}
    (h : XP σ (Safe c cf L (Past c cf m S tr)) lim nb x w) : XM c cf m S tr x w.fs := by
  refine ⟨⟨L, h.1⟩, ?_⟩
  rcases h.2 with ⟨h, _⟩ | ⟨h, _⟩
  · rcases h with h | h
    · exact .inl h
    · exact .inr (.inl h)
  · exact .inr (.inr h)

theorem abort_of {σ : Schedule} (hσ : ∀ i, IsNone (σ i)) {P : Fs → Prop} {lim nb : Prop} {x : Exc} {w : World}
    (h : XP σ P lim nb x w) : x = .abort ∧ ¬ lim ∧ (nb → Big w.fs) := by
  rcases h.2 with ⟨_, h⟩ | h
  · exact absurd h (isNone_calm hσ)
  · exact h

/-- `ps` are the pairs of an earlier moment, after `lo` events. -/
def Known (cf : Conf) (m : Map) (lo : Nat) (tr : List Ev) (ps : List (Bytes × Bytes)) : Prop :=
  ∃ pre, pre <+: tr ∧ pre.length = lo ∧ ∀ k, k.length = cf.keySize → kvOf ps k = contents m pre k

theorem Known.mono (h : tr <+: tr') {ps : List (Bytes × Bytes)} (hk : Known cf m lo tr ps) : Known cf m lo tr' ps := by
  obtain ⟨pre, h1, h2⟩ := hk
  exact ⟨pre, h1.trans h, h2⟩

theorem Known.past {recs : List Rec} (hk : Known cf m lo tr (pairsOf recs)) (hS : S lo) {D K : Bytes} {B : Nat} {view : View}
    (h : Db c cf D K recs B view) : Past c cf m S tr D K := by
  obtain ⟨pre, h1, h0, h2⟩ := hk
  exact ⟨pre, h1, by rw [h0]; exact hS, recs, B, view, h, h2⟩

/-- What the first part of a flush achieves. -/
def Prepared (c : Cfg) (cf : Conf) (D0 K0 : Bytes) (recs : List Rec) (B0 : Nat) (view0 : View) (p0 : Pool)
    (x : Work) (fs : Fs) : Prop :=
  ∃ w1 w' rs view n, w'.fs = fs ∧
    WorkInv c cf B0 view0 w1 (D0 ++ encRecs (recsOf p0))
      (DataP D0 K0 (putLogHeader (cf.lh c.H K0.length D0.length))) n x w' rs view
      ((items c cf (recs ++ recsOf p0)).map (·.1)) ∧
    x.w.data = [] ∧ (∀ p ∈ placed D0.length p0, p.2 < 2 ^ 48) ∧ x.modulus ≤ 2 ^ 32 ∧
    x.c0.length ≤ 2 * p0.length

section prep
variable {s : Store} {fs : Fs} {D0 K0 : Bytes} {recs : List Rec} {B0 Bk : Nat} {view0 : View}

theorem Prepared.safe (hdb : Db c cf D0 K0 recs B0 view0) (hk : Known cf m lo tr (pairsOf recs)) (hS : S lo) {p0 : Pool}
    {x : Work} (h : Prepared c cf D0 K0 recs B0 view0 p0 x fs) : SafeM c cf m S tr fs := by
  obtain ⟨w1, w', rs, view, n, rfl, hW, _⟩ := h
  exact ⟨62, dataP_safe hdb (hk.past hS hdb) (Nat.le_refl _) hW.grown.inv⟩

theorem prep_sure (hdb : Db c cf D0 K0 recs B0 view0) (hk : Known cf m lo tr (pairsOf recs)) (hS : S lo) (hI : Idle D0 K0 fs)
    (hkh : s.kh = cf.kh c.H Bk) (hB : s.buckets = B0) (hM : s.modulus = ceilPow2 B0) (hec : s.ec = none)
    (hp : PoolOk c cf (pairsOf recs) s.p0) :
    Ensures (Prepared c cf D0 K0 recs B0 view0 s.p0) (XM c cf m S tr) (commitPrepareP c s) fs ∧
    CalmP (Limit (s.buckets + s.p0.length)) (commitPrepareP c s) fs := by
  constructor
  · refine .of_wp fun σ w _ hw => ?_
    subst hw
    rw [commitPrepareP_toM]
    refine wp_conseq (wp_commitPrepare (L := 62) hdb (hk.past hS hdb) (Nat.le_refl _) hI hkh hB hM hec hp
      (Q := fun a w => Prepared c cf D0 K0 recs B0 view0 s.p0 a w.fs) ?_) (fun _ _ h => h) (fun _ _ h => xm_of h)
    intro x w' w1 rs view n h1 h2 h3 h4 h5 h6 h7 h8 h9
    exact ⟨w1, w', rs, view, n, rfl, h1, h4, h5, h6, h8⟩
  · refine .of_wp fun σ w hσ hw => ?_
    subst hw
    rw [commitPrepareP_toM]
    refine wp_conseq (wp_commitPrepare (σ := σ) (L := 62) hdb (hk.past (m := m) (tr := tr) hS hdb) (Nat.le_refl _) hI hkh hB hM hec hp
      (Q := fun _ _ => True) ?_) (fun _ _ h => h)
      (fun _ _ h => ⟨(abort_of hσ h).1, by rw [hB]; exact (abort_of hσ h).2.2⟩)
    intros; trivial

/-- The flush of a store whose last flush failed. -/
theorem prep_dead (hs : SafeM c cf m S tr fs) (hec : s.ec = some .io) {kf : FileSt} (hkf : fs .key = some kf)
    (hcf : cf.Ok) (hkh : s.kh = cf.kh c.H Bk) :
    Ensures (fun _ _ => False) (XM c cf m S tr) (commitPrepareP c s) fs := by
  refine .of_wp fun σ w _ hw => ?_
  subst hw
  rw [commitPrepareP_toM]
  unfold commitPrepare
  have h104 := hcf.bs1
  obtain ⟨tmp, e1, e2, e3⟩ := ofMem_any (bs := cf.blockSize) (p := c.fresh cf.blockSize) (by simp; omega)
  apply wp_bind
  rw [hkh]
  apply wp_lift_ok e1
  apply wp_bind
  apply wp_fSize (by exact hkf)
  · simp only [hec]
    apply wp_fail
    exact ⟨hs, .inr (.inl rfl)⟩
  · intro x hx _
    refine ⟨hs, ?_⟩
    rcases hx with rfl | rfl
    · exact .inl rfl
    · exact .inr (.inl rfl)

/-- What publishing the new buckets means. -/
structure Published (c : Cfg) (cf : Conf) (m : Map) (S : Nat → Prop) (tr : List Ev) (D0 : Bytes) (recs : List Rec) (view0 : View)
    (B0 : Nat) (p0 : Pool) (x : Work) (fs : Fs) (D1 : Bytes) (recs1 : List Rec) (view1 : View) : Prop where
  pre : D0 <+: D1
  file : ∃ f, fs .dat = some f ∧ D1 <+: f.cur
  pairs : pairsOf recs1 = pairsOf recs ++ poolPairs p0
  dat : DatFile cf D1 recs1
  b1 : 1 ≤ x.buckets
  mod : IsModulus x.buckets x.modulus
  mle : x.modulus ≤ 2 ^ 32
  pow : x.modulus = ceilPow2 x.buckets
  filed : Filed D1 cf.cap x.buckets x.modulus view1 ((items c cf recs1).map (·.1))
  blob : ∀ n p, (n, p) ∈ x.c1 → Blob cf.blockSize p (view1 n).1 (view1 n).2
  nodup : x.c1.idx.Nodup
  old : ∀ n, n < x.buckets → n ∉ x.c1.idx → n < B0 ∧ view1 n = view0 n
  log : Ensures (fun _ fs' => SafeM c cf m S tr fs' ∧
      Ensures (fun _ fs'' => ∃ K, Idle D1 K fs'' ∧ Db c cf D1 K recs1 x.buckets view1) (XM c cf m S tr)
        (commitKeysP c cf.blockSize x.c1) fs' ∧
      CalmP Never (commitKeysP c cf.blockSize x.c1) fs')
    (XM c cf m S tr) (commitLogP c cf.blockSize x.c0) fs
  logCalm : CalmP Never (commitLogP c cf.blockSize x.c0) fs

theorem commitKeysP_toM (bs : Nat) (c1 : Cache) : (commitKeysP c bs c1).toM = keysPart c bs c1 := by
  unfold commitKeysP keysPart
  simp only [toM_bind', keyBlocksP_toM, toM_sync, toM_trunc]

theorem published (hdb : Db c cf D0 K0 recs B0 view0) (hk : Known cf m lo tr (pairsOf recs)) (hS : S lo) {p0 : Pool}
    (hp : PoolOk c cf (pairsOf recs) p0) (hne : p0 ≠ [])
    (hk1 : Known cf m nx tr (pairsOf recs ++ poolPairs p0)) (hS1 : S nx) {x : Work}
    (h : Prepared c cf D0 K0 recs B0 view0 p0 x fs) :
    ∃ D1 recs1 view1, Published c cf m S tr D0 recs view0 B0 p0 x fs D1 recs1 view1 := by
  obtain ⟨w1, w', rs, view, n, rfl, h1, h4, h5, h6, h8⟩ := h
  have hpub := publish hdb hp hne h1 h5 h6
  obtain ⟨df, hd, sd⟩ := h1.grown.inv.dat
  obtain ⟨kf, hkf, sk⟩ := h1.grown.inv.key
  obtain ⟨df', hd', hdc, _⟩ := h1.grown.winv.file
  rw [hd] at hd'; cases hd'
  rw [h4, List.append_nil] at hdc
  have hns : ∀ n ∈ (c.order x.c0).map (·.1), n < B0 := by
    intro n hn
    obtain ⟨y, hy, rfl⟩ := List.mem_map.mp hn
    exact (h1.caches.blob0 y.1 y.2 ((c.order_perm x.c0).mem_iff.mp hy)).1
  have hsp := h1.grown.spills
  have hpairs : pairsOf (recs ++ recsOf p0 ++ rs) = pairsOf recs ++ poolPairs p0 := by
    rw [pairsOf_append, pairsOf_append, pairsOf_spills hsp, pairsOf_recsOf, List.append_nil]
  have hpre : D0 <+: D0 ++ encRecs (recsOf p0) ++ encRecs rs := by
    rw [List.append_assoc]; exact List.prefix_append _ _
  have hL : (logBytes c cf K0.length D0.length view0 ((c.order x.c0).map (·.1))).length ≤ logMax cf p0.length := by
    refine log_length hdb hns ?_
    rw [List.length_map, (c.order_perm x.c0).length_eq]
    exact h8
  have hfit0 : ∀ m, m < B0 → (∀ e ∈ (view0 m).1, e.Fit) ∧ (view0 m).2 < 2 ^ 48 :=
    fun m hm => ⟨(hdb.filed m hm).fit, (hdb.filed m hm).lt48⟩
  have hfit : ∀ m, m < x.buckets → (∀ e ∈ (view m).1, e.Fit) ∧ (view m).2 < 2 ^ 48 :=
    fun m hm => ⟨(h1.filed m hm).fit, (h1.filed m hm).lt48⟩
  have hG := hk.past (m := m) (tr := tr) hS hdb
  have hk2 : Known cf m nx tr (pairsOf (recs ++ recsOf p0 ++ rs)) := by rw [hpairs]; exact hk1
  have hnew : ∀ K1, KeyFile c cf K1 x.buckets view →
      Db c cf (D0 ++ encRecs (recsOf p0) ++ encRecs rs) K1 (recs ++ recsOf p0 ++ rs) x.buckets view ∧
      Past c cf m S tr (D0 ++ encRecs (recsOf p0) ++ encRecs rs) K1 :=
    fun K1 hK => ⟨hpub K1 hK, hk2.past hS1 (hpub K1 hK)⟩
  have hok := recsOf_ok hp
  refine ⟨D0 ++ encRecs (recsOf p0) ++ encRecs rs, recs ++ recsOf p0 ++ rs, view, ?_⟩
  refine ⟨hpre, ⟨df, hd, by rw [hdc]; exact List.prefix_refl _⟩, hpairs, ⟨?_, ?_, ?_⟩, h1.b1, h1.mod, h6,
    IsModulus.eq_ceilPow2 h1.b1 (by have := h1.mod.2.2; omega) h1.mod, ?_,
    fun n p hm => (h1.caches.blob1 n p hm).2, h1.caches.nodup1, ?_, ?_, ?_⟩
  · rw [hdb.dat.eq, encRecs_append, encRecs_append]; simp
  · intro r hr
    rcases List.mem_append.mp hr with hr | hr
    · rcases List.mem_append.mp hr with hr | hr
      · exact hdb.dat.ok r hr
      · exact hok r hr
    · exact (hsp r hr).1
  · rw [hpairs]; exact hp.nodup
  · have : items c cf (recs ++ recsOf p0 ++ rs) = items c cf (recs ++ recsOf p0) := by
      rw [items, itemsOf_append, itemsOf_spills hsp, List.append_nil]; rfl
    rw [this]
    exact h1.filed
  · intro n hn hni
    have hnB : n < B0 := by
      by_cases h : n < B0
      · exact h
      · exact absurd (h1.caches.fresh n (by omega) hn) hni
    exact ⟨hnB, h1.caches.old n hnB hni⟩
  · refine .of_wp fun σ w _ hw => ?_
    rw [commitLogP_toM]
    refine wp_conseq (wp_logPart (L := logMax cf p0.length) (lim := True) (nb := True) hdb hG h1.caches hfit0 hL
      (by rw [hw]; exact hd) sd (by rw [hw]; exact hkf) sk (by rw [hw]; exact h1.grown.inv.log)
      (Q := fun _ w' => Logged c cf D0 K0 view0 x.c0 df kf w'.fs) (fun w' h _ => h)) ?_ (fun _ _ h => xm_of h)
    intro _ w2 hlg
    refine ⟨⟨_, hlg.safe hdb hG h1.caches hL sd sk⟩, ?_, ?_⟩
    · refine .of_wp fun σ w3 _ hw3 => ?_
      rw [commitKeysP_toM]
      refine wp_conseq (wp_keysPart (lim := True) (nb := True) hdb hG hnew h1.caches h1.b1 hfit hL sd hdc sk
        (by rw [hw3]; exact hlg)
        (Q := fun _ w' => ∃ K, Idle (D0 ++ encRecs (recsOf p0) ++ encRecs rs) K w'.fs ∧
          KeyFile c cf K x.buckets view) (fun w' K1 a b _ => ⟨K1, a, b⟩)) ?_ (fun _ _ h => xm_of h)
      rintro _ w4 ⟨K, a, b⟩
      exact ⟨K, a, hpub K b⟩
    · refine .of_wp fun σ w3 hσ hw3 => ?_
      rw [commitKeysP_toM]
      exact wp_conseq (wp_keysPart (σ := σ) (lim := True) (nb := True) hdb hG hnew h1.caches h1.b1 hfit hL sd hdc sk
        (by rw [hw3]; exact hlg) (Q := fun _ _ => True) (by intros; trivial)) (fun _ _ h => h)
        (fun _ _ h => absurd trivial (abort_of hσ h).2.1)
  · refine .of_wp fun σ w hσ hw => ?_
    rw [commitLogP_toM]
    exact wp_conseq (wp_logPart (σ := σ) (L := logMax cf p0.length) (lim := True) (nb := True) hdb hG h1.caches hfit0 hL
      (by rw [hw]; exact hd) sd (by rw [hw]; exact hkf) sk (by rw [hw]; exact h1.grown.inv.log)
      (Q := fun _ _ => True) (by intros; trivial)) (fun _ _ h => h)
      (fun _ _ h => absurd trivial (abort_of hσ h).2.1)

end prep

end

end NuDB
