import Verif.Proof.Insert
import Verif.Proof.Crash
/- First part of `commit`: log header, data records, overflow records. -/
namespace NuDB

open Spec

/-- The data records written for the elements of a pool. -/
def recsOf (p : Pool) : List Rec := List.map (fun it => Rec.data it.key it.data) p

/-- The pairs of a pool. -/
def poolPairs (p : Pool) : List (Bytes × Bytes) := List.map (fun it => (it.key, it.data)) p

theorem pairsOf_recsOf (p : Pool) : pairsOf (recsOf p) = poolPairs p := by
  induction p with
  | nil => rfl
  | cons it p ih =>
    simp only [recsOf, poolPairs, List.map_cons, pairsOf] at *
    rw [ih]

theorem pairsOf_spills {cf : Conf} {rs : List Rec} (h : Spills cf rs) : pairsOf rs = [] := by
  induction rs with
  | nil => rfl
  | cons r rs ih =>
    obtain ⟨_, es, s, rfl⟩ := h r (by simp)
    exact ih (fun r' hr' => h r' (by simp [hr']))

theorem itemsOf_spills {cf : Conf} {rs : List Rec} (h : Spills cf rs) (hash : Bytes → Nat) (o : Nat) :
    itemsOf hash o rs = [] := by
  induction rs generalizing o with
  | nil => rfl
  | cons r rs ih =>
    obtain ⟨_, es, s, rfl⟩ := h r (by simp)
    exact ih (fun r' hr' => h r' (by simp [hr'])) _

/-- What the pool of an open store looks like. -/
structure PoolOk (c : Cfg) (cf : Conf) (ps : List (Bytes × Bytes)) (p : Pool) : Prop where
  each : ∀ it ∈ p, it.hash = cf.hash c.H it.key ∧ it.key.length = cf.keySize ∧
    1 ≤ it.data.length ∧ it.data.length < 2 ^ 32
  nodup : ((ps ++ poolPairs p).map (·.1)).Nodup

/-- Elements with the offsets of their records. -/
def placed : Nat → Pool → List (Item × Nat)
  | _, [] => []
  | o, it :: rest => (it, o) :: placed (o + (dataRecord it.key it.data).length) rest

theorem placed_length (o : Nat) (p : Pool) : (placed o p).length = p.length := by
  induction p generalizing o with
  | nil => rfl
  | cons it p ih => simp [placed, ih]

theorem placed_mem {o : Nat} {p : Pool} {x : Item × Nat} (h : x ∈ placed o p) :
    x.1 ∈ p ∧ o ≤ x.2 ∧ x.2 + 6 + x.1.key.length + x.1.data.length ≤ o + (encRecs (recsOf p)).length := by
  induction p generalizing o with
  | nil => cases h
  | cons it p ih =>
    simp only [placed, List.mem_cons] at h
    rcases h with rfl | h
    · simp [recsOf, encRec, dataRecord]; omega
    · obtain ⟨h1, h2, h3⟩ := ih h
      refine ⟨by simp [h1], by omega, ?_⟩
      simp only [recsOf, List.map_cons, encRecs_cons, encRec, List.length_append] at h3 ⊢
      omega

theorem placed_entries {c : Cfg} {cf : Conf} {ps : List (Bytes × Bytes)} {p : Pool} {o : Nat}
    (h : ∀ it ∈ p, it.hash = cf.hash c.H it.key) :
    newEntries (placed o p) = (itemsOf (cf.hash c.H) o (recsOf p)).map (·.1) := by
  induction p generalizing o with
  | nil => rfl
  | cons it p ih =>
    have h1 := h it (by simp)
    have := ih (o := o + (dataRecord it.key it.data).length) (fun i hi => h i (by simp [hi]))
    simp only [newEntries, recsOf, placed, List.map_cons, itemsOf, encRec] at *
    rw [this, h1]

/-- The last record of a nonempty pool. -/
theorem placed_last {p : Pool} (hp : p ≠ []) (o : Nat) :
    ∃ x ∈ placed o p, o + (encRecs (recsOf p)).length = x.2 + 6 + x.1.key.length + x.1.data.length := by
  induction p generalizing o with
  | nil => exact absurd rfl hp
  | cons it p ih =>
    by_cases h : p = []
    · subst h
      exact ⟨(it, o), by simp [placed], by simp [recsOf, encRec, dataRecord]; omega⟩
    · obtain ⟨x, hx, e⟩ := ih h (o + (dataRecord it.key it.data).length)
      refine ⟨x, by simp [placed, hx], ?_⟩
      simp only [recsOf, List.map_cons, encRecs_cons, encRec, List.length_append] at e ⊢
      omega

section
variable {c : Cfg} {cf : Conf} {σ : Schedule} {lim nb : Prop}

theorem wp_appendData {P : Fs → Prop} (hA : DatFree P) {Q : List (Item × Nat) × Writer → World → Prop} :
    ∀ (p : Pool) (wr : Writer) (w : World) (V : Bytes), (∀ it ∈ p, it.data.length < 2 ^ 32 ∧ it.key.length < 2 ^ 16) →
    WInv wr .dat w.fs V → P w.fs →
    (∀ wr' w', WInv wr' .dat w'.fs (V ++ encRecs (recsOf p)) → P w'.fs → SameExcept .dat w.fs w'.fs →
      w'.out = w.out → Q (placed V.length p, wr') w') →
    wp σ (appendData p wr) Q (XP σ P lim nb) w := by
  intro p
  induction p generalizing Q with
  | nil =>
    intro wr w V _ hw hP hQ
    apply wp_ret
    exact hQ wr w (by simpa [recsOf] using hw) hP (SameExcept.refl _ _) rfl
  | cons it p ih =>
    intro wr w V hd hw hP hQ
    unfold appendData
    have h0 := hd it (by simp)
    apply wp_bind
    apply wp_lift_ok (assert_ok (by simp; omega))
    apply wp_bind
    apply wp_wappend hw hP hA trivial (by
      simp only [dataRecord, List.length_append, putU48_length]; omega)
    intro wr1 w1 h1 h2 h3 h4
    apply wp_bind
    apply ih wr1 w1 (V ++ dataRecord it.key it.data) (fun i hi => hd i (by simp [hi])) h1 h2
    intro wr2 w2 g1 g2 g3 g4
    apply wp_ret
    have := hQ wr2 w2 (by
      have e : V ++ dataRecord it.key it.data ++ encRecs (recsOf p) = V ++ encRecs (recsOf (it :: p)) := by
        simp [recsOf, encRec]
      rw [← e]; exact g1) g2 (h3.trans g3) (g4.trans h4)
    simpa [placed, hw.pos, List.length_append] using this

/-- Files while data and overflow records are written. -/
structure DataP (D0 K0 hdr : Bytes) (fs : Fs) : Prop where
  dat : ∃ f, fs .dat = some f ∧ ∀ v, Version f v → D0 <+: v
  key : ∃ f, fs .key = some f ∧ Stable f K0
  log : fs .log = some (FileSt.clean hdr)

theorem append_versions {f : FileSt} {D0 bs : Bytes} (h : ∀ v, Version f v → D0 <+: v) :
    ∀ v, Version (f.push (.write f.cur.length bs)) v → D0 <+: v := by
  intro v hv
  rcases version_push.mp hv with hv | rfl
  · exact h v hv
  · simp only [POp.apply, writeAt_end]
    exact (h _ (version_cur f)).trans (List.prefix_append _ _)

theorem datFree_dataP (D0 K0 hdr : Bytes) : DatFree (DataP D0 K0 hdr) where
  prefix_closed := fun _ _ _ => trivial
  step := by
    intro fs f bs hP hf _
    obtain ⟨f', e, h⟩ := hP.dat
    rw [hf] at e; cases e
    exact ⟨⟨_, Fs.set_same _ _ _, append_versions h⟩, by simpa using hP.key, by simpa using hP.log⟩

theorem dataP_safe {L : Nat} {G : Bytes → Bytes → Prop} {D0 K0 : Bytes} {recs : List Rec} {B : Nat}
    {view : View} (hdb : Db c cf D0 K0 recs B view) (hG : G D0 K0) (hL : 62 ≤ L) {fs : Fs}
    (h : DataP D0 K0 (putLogHeader (cf.lh c.H K0.length D0.length)) fs) : Safe c cf L G fs := by
  obtain ⟨df, hd, sd⟩ := h.dat
  obtain ⟨kf, hk, sk⟩ := h.key
  refine .long df kf _ D0 K0 hd hk h.log (by simp) hG ?_ ?_
  · intro l hl _
    rw [ordered_clean.mp hl]
    exact ⟨recs, B, view, [], [], hdb, by simp, by simp [logBytes], .inl rfl, by simpa using hL, sd,
      fun v hv => by rw [sk v hv]; exact agree_self _ _ _⟩
  · intro l hl h62
    rw [ordered_clean.mp hl] at h62
    simp at h62

/-- Files of an open store between commits. -/
structure Idle (D K : Bytes) (fs : Fs) : Prop where
  dat : ∃ f, fs .dat = some f ∧ Stable f D
  key : ∃ f, fs .key = some f ∧ Stable f K
  log : fs .log = some (FileSt.clean [])

theorem Idle.safe {L : Nat} {G : Bytes → Bytes → Prop} {D K : Bytes} (hG : G D K) {fs : Fs}
    (h : Idle D K fs) : Safe c cf L G fs := by
  obtain ⟨df, hd, sd⟩ := h.dat
  obtain ⟨kf, hk, sk⟩ := h.key
  refine .short df kf _ D K hd hk h.log (by simp) hG sd sk ⟨D, K, hG, ?_⟩
  intro l hl h62
  rw [ordered_clean.mp hl] at h62
  simp at h62

theorem ordered_fresh {bs l : Bytes} (h : Ordered ((FileSt.clean []).push (.write 0 bs)) l) :
    ∃ j, l = bs.take j := by
  rcases ordered_push_write h with h | ⟨j, h⟩
  · exact ⟨0, by rw [ordered_clean.mp h]; rfl⟩
  · refine ⟨j, ?_⟩
    rw [h]
    exact writeAt_end [] _

/-- Files while the log header is written. -/
theorem header_safe {L : Nat} {G : Bytes → Bytes → Prop} {D0 K0 : Bytes} {recs : List Rec} {B : Nat}
    {view : View} (hdb : Db c cf D0 K0 recs B view) (hG : G D0 K0) (hL : 62 ≤ L) {fs : Fs}
    (h : Idle D0 K0 fs) (k : Nat) :
    Safe c cf L G (fs.set .log (some ((FileSt.clean []).push (.write 0
      ((putLogHeader (cf.lh c.H K0.length D0.length)).take k))))) := by
  obtain ⟨df, hd, sd⟩ := h.dat
  obtain ⟨kf, hk, sk⟩ := h.key
  have hcur : ((FileSt.clean []).push (.write 0
      ((putLogHeader (cf.lh c.H K0.length D0.length)).take k))).cur =
      (putLogHeader (cf.lh c.H K0.length D0.length)).take k := by
    rw [cur_push]; exact writeAt_end [] _
  have himg : ∀ l, Ordered ((FileSt.clean []).push (.write 0
      ((putLogHeader (cf.lh c.H K0.length D0.length)).take k))) l → 62 ≤ l.length →
      Roll c cf L D0 K0 l df kf := by
    intro l hl h62
    obtain ⟨j, rfl⟩ := ordered_fresh hl
    rw [List.take_take] at h62 ⊢
    rw [List.take_of_length_le (by simp at h62 ⊢; omega)]
    exact ⟨recs, B, view, [], [], hdb, by simp, by simp [logBytes], .inl rfl, by simpa using hL,
      fun v hv => by rw [sd v hv]; exact List.prefix_refl _,
      fun v hv => by rw [sk v hv]; exact agree_self _ _ _⟩
  by_cases hk62 : k < 62
  · refine .short df kf _ D0 K0 (by simpa using hd) (by simpa using hk) (Fs.set_same _ _ _) ?_ hG sd sk ?_
    · rw [hcur]; simp; omega
    · exact ⟨D0, K0, hG, himg⟩
  · refine .long df kf _ D0 K0 (by simpa using hd) (by simpa using hk) (Fs.set_same _ _ _) ?_ hG himg ?_
    · rw [hcur]; simp; omega
    · intro l _ _; exact ⟨sd, sk⟩

/-- Space needed by a commit stays below the limits of the file format. -/
def Room (cf : Conf) (D0 : Bytes) (B0 : Nat) (recs : List Rec) (p : Pool) : Prop :=
  D0.length + (encRecs (recsOf p)).length +
    p.length * (((pairsOf recs).length + p.length + 1) * cf.recLen) + 8 < 2 ^ 48 ∧
  B0 + p.length ≤ 2 ^ 32

theorem recsOf_ok {ps : List (Bytes × Bytes)} {p : Pool} (h : PoolOk c cf ps p) :
    ∀ r ∈ recsOf p, r.Ok cf := by
  intro r hr
  obtain ⟨it, hit, rfl⟩ := List.mem_map.mp hr
  obtain ⟨_, h1, h2, h3⟩ := h.each it hit
  constructor
  · intro k v e; cases e; exact ⟨h1, h2, h3⟩
  · intro es s e; cases e
  · intro es s e; cases e

theorem wp_commitPrepare {s : Store} {w : World} {L : Nat} {G : Bytes → Bytes → Prop} {D0 K0 : Bytes}
    {recs : List Rec} {B0 Bk : Nat} {view0 : View}
    (hdb : Db c cf D0 K0 recs B0 view0) (hG : G D0 K0) (hL : 62 ≤ L) (hI : Idle D0 K0 w.fs)
    (hkh : s.kh = cf.kh c.H Bk) (hB : s.buckets = B0) (hM : s.modulus = ceilPow2 B0) (hec : s.ec = none)
    (hp : PoolOk c cf (pairsOf recs) s.p0)
    {Q : Work → World → Prop}
    (hQ : ∀ x w' w1 rs view n, WorkInv c cf B0 view0 w1 (D0 ++ encRecs (recsOf s.p0))
        (DataP D0 K0 (putLogHeader (cf.lh c.H K0.length D0.length))) n x w' rs view
        ((items c cf (recs ++ recsOf s.p0)).map (·.1)) →
      w'.fs .key = w.fs .key → w1.out = w.out → x.w.data = [] →
      (∀ p ∈ placed D0.length s.p0, p.2 < 2 ^ 48) → x.modulus ≤ 2 ^ 32 →
      (x.frac, x.buckets) = growSteps s.thresh s.p0.length (s.frac, s.buckets) →
      x.c0.length ≤ 2 * s.p0.length →
      (D0 ++ encRecs (recsOf s.p0) ++ encRecs rs).length ≤ D0.length + (encRecs (recsOf s.p0)).length +
        s.p0.length * (((pairsOf recs).length + s.p0.length + 1) * cf.recLen) → Q x w') :
    wp σ (commitPrepare c s) Q (XP σ (Safe c cf L G) (Room cf D0 B0 recs s.p0) (B0 + s.p0.length ≤ 2 ^ 32)) w := by
  obtain ⟨df, hd, sd⟩ := hI.dat
  obtain ⟨kf, hk, sk⟩ := hI.key
  have hlog := hI.log
  have hcf := hdb.conf
  have h104 := hcf.bs1
  unfold commitPrepare
  obtain ⟨tmp, e1, e2, e3⟩ := ofMem_any (bs := cf.blockSize) (p := c.fresh cf.blockSize) (by simp; omega)
  apply wp_bind
  rw [hkh]
  apply wp_lift_ok e1
  apply wp_bind
  apply wp_fSize (by exact hk) _ (by exact XP.fault (hI.safe hG))
  simp only [hec]
  apply wp_bind
  apply wp_fSize (by exact hd) _ (by exact XP.fault (hI.safe hG))
  simp only [sk.cur, sd.cur, Conf.logHeaderOf_kh]
  apply wp_bind
  apply wp_fAppend (by exact hlog) (by rfl)
  · apply wp_bind
    have hI2 := header_safe (c := c) (cf := cf) hdb hG hL hI
    have hall := hI2 62
    rw [List.take_of_length_le (by simp)] at hall
    apply wp_fSync (f := (FileSt.clean []).push (.write 0 (putLogHeader (cf.lh c.H K0.length D0.length)))) (by simp) _ (by exact XP.fault hall)
    apply wp_bind
    have hcur : ((FileSt.clean []).push (.write 0 (putLogHeader (cf.lh c.H K0.length D0.length)))).synced =
        FileSt.clean (putLogHeader (cf.lh c.H K0.length D0.length)) := by
      rw [synced_eq, cur_push]; exact congrArg _ (writeAt_end [] _)
    rw [hcur]
    generalize hfs1 : Fs.set _ .log (some (FileSt.clean (putLogHeader (cf.lh c.H K0.length D0.length)))) = fs1
    have hP1 : DataP D0 K0 (putLogHeader (cf.lh c.H K0.length D0.length)) fs1 := by
      rw [← hfs1]
      exact ⟨⟨df, by simpa using hd, fun v hv => by rw [sd v hv]; exact List.prefix_refl _⟩,
        ⟨kf, by simpa using hk, sk⟩, by simp⟩
    have hd1 : fs1 .dat = some df := by rw [← hfs1]; simpa using hd
    have hk1 : fs1 .key = some kf := by rw [← hfs1]; simpa using hk
    have hsafe : ∀ fs, DataP D0 K0 (putLogHeader (cf.lh c.H K0.length D0.length)) fs → Safe c cf L G fs :=
      fun fs h => dataP_safe hdb hG hL h
    apply wp_fSize (by exact hd1) _ (by exact XP.fault (hsafe _ hP1))
    apply wp_conseq (Q := Q) (X := XP σ (DataP D0 K0 (putLogHeader (cf.lh c.H K0.length D0.length)))
      (Room cf D0 B0 recs s.p0) (B0 + s.p0.length ≤ 2 ^ 32)) _ (fun _ _ h => h) (fun _ _ h => h.mono hsafe id id)
    apply wp_bind
    apply wp_appendData (datFree_dataP _ _ _) s.p0 _ _ df.cur (fun it hit => ⟨(hp.each it hit).2.2.2, by
        have := (hp.each it hit).2.1; have := hcf.key2; omega⟩)
      (winv_new hd1 (by decide)) hP1
    intro wr1 w1 hw1 hPw1 hs1 ho1
    simp only
    rw [sd.cur] at hw1 ⊢
    have hm := ceilPow2_isModulus hdb.b1 (by have := hdb.b2; omega)
    have hle : ceilPow2 B0 ≤ 2 ^ 32 := modulus_le hm hdb.b2
    apply wp_bind
    have hkw1 : w1.fs .key = some kf := by rw [hs1 .key (by decide)]; exact hk1
    refine wp_commitInserts (N := (pairsOf recs).length + s.p0.length) hcf rfl (datFree_dataP _ _ _)
      (show Whole cf (D0 ++ encRecs (recsOf s.p0)) from ⟨recs ++ recsOf s.p0, fun r hr => (List.mem_append.1 hr).elim (hdb.dat.ok r) (recsOf_ok hp r),
        by rw [hdb.dat.eq, encRecs_append, List.append_assoc]⟩)
      (by rw [sk.cur]; exact hdb.key) hdb.filed (placed D0.length s.p0) _ w1 [] view0
      ((items c cf recs).map (·.1)) 0 hkw1 ⟨Grown.refl hw1 hPw1 0, ?_, ?_, ?_, ?_, ?_, ?_⟩ ?_ ?_ ?_ ?_ ?_ ?_ ?_
    · simp only [hB]; exact caches_nil cf B0 view0
    · simp only [hB]; exact hdb.b1
    · simp only [hB, hM]; exact hm
    · simp only [hB, hM, encRecs_nil, List.append_nil]
      intro n hn
      exact (hdb.filed n hn).mono (List.prefix_append _ _)
    · exact e2
    · simp only [e3]; simp
    · intro p hpm
      obtain ⟨h1, h2, h3⟩ := placed_mem hpm
      have h4 := hp.each _ h1
      refine ⟨h4.2.2.2, by rw [h4.1]; exact hashKey_lt _ _ _, ?_, ?_⟩
      · rintro ⟨h5, _⟩
        omega
      · simp only [List.length_append]; omega
    · simp only [hM]; exact hle
    · rw [placed_length, List.length_map]
      have := congrArg List.length (itemsOf_pairs (cf.hash c.H) 92 recs)
      simp only [List.length_map] at this
      simp only [items]
      omega
    · rintro ⟨h5, _⟩
      rw [placed_length]
      simp only [encRecs_nil, List.append_nil, List.length_append]
      exact h5
    · rintro ⟨_, h6⟩
      rw [placed_length]
      simp only [hB]; exact h6
    · intro h6
      rw [placed_length]
      simp only [hB]; exact h6
    · intro x' w' rs' view' n' hx ho hmod hgr hkey hcl hll
      apply wp_bind
      apply wp_wflush hx.grown.winv hx.grown.inv (datFree_dataP _ _ _) trivial
      intro wr' w2 q1 q2 q3 q4 q5
      apply wp_ret
      refine hQ _ w2 w1 rs' view' n' ?_ ?_ ?_ q2 ho hmod ?_ ?_ ?_
      · refine ⟨⟨q1, q3, hx.grown.same.trans q4, q5.trans hx.grown.out, hx.grown.spills, hx.grown.len,
          hx.grown.small⟩, hx.caches, hx.b1, hx.mod, ?_, hx.tb, hx.tl⟩
        have e : (items c cf (recs ++ recsOf s.p0)).map (·.1) =
            (items c cf recs).map (·.1) ++ newEntries (placed D0.length s.p0) := by
          rw [placed_entries (ps := []) (fun it hit => (hp.each it hit).1), items, items, itemsOf_append, List.map_append]
          congr 3
          rw [hdb.dat.eq]; simp
        rw [e]
        exact hx.filed
      · rw [q4 .key (by decide), hkey, hk]
      · rw [ho1]; rfl
      · rw [hgr, placed_length]
      · rw [placed_length] at hcl; simpa using hcl
      · rw [placed_length] at hll
        simpa using hll
  · intro x k hx hfa
    exact ⟨header_safe hdb hG hL hI k, .inl ⟨hx, hfa⟩⟩

end

end NuDB
