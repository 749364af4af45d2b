import Verif.Proof.FailedRead
import Verif.Props.Log
/-
C08 is false for reads that fail.
-/
namespace NuDB

open Spec

section
variable {c : Cfg} {a : CreateArgs} {lf : Nat} {short : Prop}

/-- Bytes outside of the block that is replaced. -/
private theorem withBlock_get {bs n i : Nat} {K b : Bytes} (h : (n + 2) * bs ≤ K.length)
    (hi : i < (n + 1) * bs ∨ (n + 2) * bs ≤ i) : (withBlock bs K n b)[i]? = K[i]? := by
  have h1 : (resized K ((n + 1) * bs)) = K.take ((n + 1) * bs) := by
    unfold resized
    rw [show (n + 1) * bs - K.length = 0 by have := mul_succ_add n bs; omega]; simp
  have h2 : (resized K ((n + 1) * bs)).length = (n + 1) * bs := resized_length _ _
  have h3 : (resized b bs).length = bs := resized_length _ _
  have h4 := mul_succ_add n bs
  unfold withBlock
  rcases hi with hi | hi
  · rw [List.append_assoc, List.getElem?_append_left (by omega), h1, List.getElem?_take_of_lt hi]
  · rw [List.getElem?_append_right (by rw [List.length_append]; omega), List.length_append, h2, h3, List.getElem?_drop]
    congr 1; omega

private theorem withBlock_length {bs n : Nat} {K b : Bytes} (h : (n + 2) * bs ≤ K.length) :
    (withBlock bs K n b).length = K.length := by
  have h4 := mul_succ_add n bs
  unfold withBlock
  rw [List.length_append, List.length_append, resized_length, resized_length, List.length_drop]
  omega

private theorem prefix_of_get {b K : Bytes} {o : Nat} (h : ∀ j, j < b.length → K[o + j]? = b[j]?) : b <+: K.drop o := by
  rw [List.prefix_iff_getElem?]
  intro j hj
  rw [List.getElem?_drop, h j hj, List.getElem?_eq_getElem hj]

/-- Records of other buckets do not repair the block. -/
private theorem replay_wrong {cf : Conf} {D K K₁ : Bytes} {recs : List Rec} {B : Nat} {view : View}
    (hdb : Db c cf D K recs B view) {d Bk n : Nat} {b rest K' : Bytes} {r : Res Unit} (hBk : B ≤ Bk) (hd : D.length ≤ d)
    (hn : n < B) (hK₁ : K₁ = withBlock cf.blockSize K n b) (h : Replay cf.blockSize d Bk rest K₁ K' r) :
    ∀ (ns : List Nat), (∀ k ∈ ns, k < B) → n ∉ ns → Replay cf.blockSize d Bk (ns.flatMap (logRec view) ++ rest) K₁ K' r := by
  intro ns
  induction ns with
  | nil => intro _ _; exact h
  | cons k ns ih =>
    intro hns hnn
    have hk := hns k (by simp)
    have hok := hdb.filed k hk
    have hblk := hdb.block hk
    have h104 := hdb.conf.bs1
    have hlen : (encBkt (view k).1 (view k).2).length ≤ cf.blockSize := by
      have := hok.len; have := hdb.conf.cap_le
      simp only [encBkt_length, bucketSize] at *; omega
    have hw : withBlock cf.blockSize K₁ k (encBkt (view k).1 (view k).2) = K₁ := by
      rw [← writeAt_block hlen (by omega), encBkt_length]
      apply writeAt_own
      show encBlock cf.blockSize (view k).1 (view k).2 <+: _
      have hlenK : (n + 2) * cf.blockSize ≤ K.length := by
        rw [hdb.key.len]; exact Nat.mul_le_mul_right _ (by omega)
      apply prefix_of_get
      intro j hj
      rw [hblk.2] at hj
      rw [hK₁, withBlock_get hlenK]
      · have := hblk.1
        rw [List.prefix_iff_getElem?] at this
        have := this j (by rw [hblk.2]; exact hj)
        rw [List.getElem?_drop] at this
        rw [this, List.getElem?_eq_getElem (by rw [hblk.2]; exact hj)]
      · have hne : k ≠ n := by rintro rfl; exact hnn (by simp)
        rcases Nat.lt_or_gt_of_ne hne with h | h
        · left
          have h1 := mul_succ_add k cf.blockSize
          have h2 : (k + 2) * cf.blockSize ≤ (n + 1) * cf.blockSize := Nat.mul_le_mul_right _ (by omega)
          omega
        · right
          have h2 : (n + 2) * cf.blockSize ≤ (k + 1) * cf.blockSize := Nat.mul_le_mul_right _ (by omega)
          omega
    simp only [List.flatMap_cons, List.append_assoc]
    refine .record (frontRecord_logRec hdb hk _) (by have := hdb.b2; omega) hlen ?_ (by omega) ?_
    · unfold LinkOk
      rw [linkIn_encBkt hdb hk]
      by_cases h0 : (view k).2 = 0
      · exact .inl h0
      · right
        obtain ⟨Lc, hch, _⟩ := hok.chain
        have := hch.le_length h0
        have hcap : bucketBytes cf.blockSize = bucketSize cf.cap := by
          show 8 + 18 * ((cf.blockSize - 8) / 18) = bucketSize (bucketCapacity cf.blockSize)
          unfold bucketSize bucketCapacity keyHeaderSize
          rw [if_neg (by simp; omega)]
          omega
        omega
    · rw [hw]
      exact ih (fun j hj => hns j (by simp [hj])) (fun hj => hnn (by simp [hj]))

/-- C08 fails: the log of an interrupted commit ends in an incomplete record of bucket `n`.
An undisturbed `recover` restores the old files (`C45_torn_record`). But suppose that the
buffer of the reader (1024 blocks) ends between the number and the items of this record.
If the next read fails, `recover` writes the previous bucket in place of bucket `n`, before
it reports the error. A later undisturbed `recover` succeeds, but it does not repair the
block. -/
theorem C08_violated {t : List Label} {s : Store} {fs : Fs} {D K : Bytes} (hc : Creatable a lf)
    (hr : Reachable c a short t (some s, fs)) (he : s.ec = none)
    (hD : bytesOf fs .dat = some D) (hK : bytesOf fs .key = some K)
    {fs' : Fs} {rest : Bytes} {ns : List Nat} {m n : Nat}
    (hns : ∀ k ∈ n :: m :: ns, (k + 2) * a.blockSize ≤ K.length) (hn : n ∉ m :: ns)
    (hrest : rest <+: logRecord a.blockSize K n) (h16 : 16 ≤ rest.length) (hrest' : rest ≠ logRecord a.blockSize K n)
    (hend : ((ns ++ [m]).flatMap (logRecord a.blockSize K)).length + 8 ≤ 1024 * a.blockSize)
    (hend' : 1024 * a.blockSize < ((ns ++ [m]).flatMap (logRecord a.blockSize K)).length + 16)
    (hd : bytesOf fs' .dat = some D) (hk : bytesOf fs' .key = some K)
    (hl : bytesOf fs' .log =
      some (logHead c a K.length D.length ++ (ns ++ [m]).flatMap (logRecord a.blockSize K) ++ rest)) :
    ∃ e w' w'',
      recover c (fun i => if i = 12 + ns.length then .fail 0 else .none) ⟨fs', 0, []⟩ = (.error (.err e), w') ∧
      recover c calm ⟨w'.fs, 0, []⟩ = (.ok (), w'') ∧
      w''.fs .dat = some (FileSt.clean D) ∧
      w''.fs .key = some (FileSt.clean (withBlock a.blockSize K n ((logRecord a.blockSize K m).drop 8))) ∧
      w''.fs .log = none := by
  obtain ⟨st, _, hR⟩ := simulation hc hr
  cases hR with
  | @opened _ _ D0 K0 recs B view hS base hz hf =>
    obtain ⟨df, d1, d2⟩ := hS.idle.dat
    obtain ⟨kf, k1, k2⟩ := hS.idle.key
    obtain rfl : D0 = D := by simpa [bytesOf, d1, d2.cur] using hD
    obtain rfl : K0 = K := by simpa [bytesOf, k1, k2.cur] using hK
    have hdb := hS.db
    have hbs : (a.conf lf).blockSize = a.blockSize := rfl
    have hb0 : 104 ≤ a.blockSize := hc.block.1
    have hlt : ∀ m, (m + 2) * a.blockSize ≤ K0.length → m < B := by
      intro m hm
      rw [hdb.key.len, hbs] at hm
      have := Nat.le_of_mul_le_mul_right hm (by omega)
      omega
    have hnB := hlt n (hns n (by simp))
    have hmB := hlt m (hns m (by simp))
    have hnsB : ∀ k ∈ ns ++ [m], k < B := by
      intro k hk
      apply hlt k (hns k _)
      simp at hk ⊢
      rcases hk with h | h <;> simp [h]
    have hnn : n ∉ ns ++ [m] := by
      intro h; apply hn
      simp at h ⊢
      rcases h with h | h <;> simp [h]
    have hrec : ∀ m, m < B → logRecord a.blockSize K0 m = logRec view m := fun m hm => logRecord_eq (cf := a.conf lf) hdb hm
    have hrecs : (ns ++ [m]).flatMap (logRecord a.blockSize K0) = (ns ++ [m]).flatMap (logRec view) := by
      rw [List.flatMap_def, List.flatMap_def, List.map_congr_left (fun m hm => hrec m (hnsB m hm))]
    rw [hrec n hnB] at hrest hrest'
    rw [hrecs] at hl hend hend'
    have hlb : logHead c a K0.length D0.length = putLogHeader ((a.conf lf).lh c.H K0.length D0.length) := rfl
    rw [hlb, List.append_assoc] at hl
    have hlast : (ns ++ [m]).getLast (by simp) = m := by simp
    unfold bytesOf at hd hk hl
    cases hd1 : fs' .dat with
    | none => rw [hd1] at hd; cases hd
    | some df' =>
    cases hk1 : fs' .key with
    | none => rw [hk1] at hk; cases hk
    | some kf' =>
    cases hl1 : fs' .log with
    | none => rw [hl1] at hl; cases hl
    | some lf' =>
    rw [hd1] at hd; rw [hk1] at hk; rw [hl1] at hl
    obtain ⟨w', e1, e2⟩ := recover_fails (c := c) (σ := fun i => if i = 12 + ns.length then .fail 0 else .none) hdb
      (ns := ns ++ [m]) (by simp) hnsB hnB hrest h16 hend hend' hd1 hk1 hl1 (by simpa using hd) (by simpa using hk)
      (by simpa using hl) (by funext i; simp only [List.length_append, List.length_singleton]; congr 2; omega)
    rw [hlast] at e2
    refine ⟨.io, w', ?_⟩
    obtain ⟨kf₁, e3, e4⟩ := e2.key
    have hlenm : (encBkt (view m).1 (view m).2).length ≤ a.blockSize := by
      have := (hdb.filed m hmB).len; have := hdb.conf.cap_le
      simp only [encBkt_length, bucketSize, hbs] at *; omega
    have hbody : (logRecord a.blockSize K0 m).drop 8 = encBkt (view m).1 (view m).2 := by
      rw [hrec m hmB, logRec, List.drop_append_of_le_length (by simp), List.drop_of_length_le (by simp), List.nil_append]
    have hK₁ : kf₁.cur = withBlock a.blockSize K0 n ((logRecord a.blockSize K0 m).drop 8) := by
      rw [e4, hbody, ← writeAt_block hlenm (by omega), encBkt_length]; rfl
    have hlenK : (n + 2) * a.blockSize ≤ K0.length := hns n (by simp)
    have hag : Agree (a.conf lf).blockSize K0 [n] kf₁.cur := by
      rw [hK₁, hbs]
      refine ⟨by rw [withBlock_length hlenK]; exact Nat.le_refl _, fun i hi => ?_⟩
      by_cases h : i < (n + 1) * a.blockSize ∨ (n + 2) * a.blockSize ≤ i
      · exact .inl (withBlock_get hlenK h)
      · right
        exact ⟨n, by simp, by omega, by omega⟩
    obtain ⟨hv, q1, q2, hBk, q3, q4⟩ := log_valid (c := c) (L := lf'.cur) hdb (List.prefix_refl D0) hag (by simpa using hl)
    obtain ⟨hm, hs⟩ := hv.matching
    obtain ⟨K₃, r, w'', h1, h2, h3, _⟩ := C48_replay (c := c) (fs := w'.fs) (D := D0) (K := kf₁.cur) (L := lf'.cur)
      (by unfold bytesOf; rw [e2.dat, hd1]; exact hd) (by unfold bytesOf; rw [e3]; rfl)
      (by unfold bytesOf; rw [e2.log, hl1]; rfl) hm hs
    have hL : lf'.cur.drop 62 = (ns ++ [m]).flatMap (logRec view) ++ rest := by
      rw [Option.some.inj hl, List.drop_append_of_le_length (by simp), List.drop_of_length_le (by simp),
        List.nil_append]
    rw [q1, q2, hL] at h1
    have hstop : Replay (a.conf lf).blockSize D0.length (kf₁.cur.length / (a.conf lf).blockSize - 1) rest kf₁.cur kf₁.cur (.ok ()) := by
      obtain ⟨u, hu⟩ := hrest
      have hl0 : rest.length < (logRec view n).length := by
        rcases Nat.lt_or_ge rest.length (logRec view n).length with h | h
        · exact h
        · rw [← hu, List.length_append] at h
          have : u = [] := List.eq_nil_of_length_eq_zero (by omega)
          subst this; exact absurd (by simpa using hu) hrest'
      have hfr := frontRecord_logRec hdb hnB []
      rw [List.append_nil, ← hu] at hfr
      have hb8 : ∀ o k, o + k ≤ 16 → bytesAt (rest ++ u) o k = bytesAt rest o k := by
        intro o k h
        unfold bytesAt
        rw [List.drop_append_of_le_length (by omega), List.take_append_of_le_length (by rw [List.length_drop]; omega)]
      have hcnt : countIn ((rest ++ u).drop 8) = countIn (rest.drop 8) := by
        unfold countIn
        rw [bytesAt_drop, bytesAt_drop, hb8 _ _ (by omega)]
      have hsome := frontRecord_some hfr
      have hcount : 16 + 18 * countIn ((rest ++ u).drop 8) = (rest ++ u).length := by
        unfold frontRecord at hfr
        rw [hcnt] at hfr ⊢
        split at hfr
        · cases hfr
        · split at hfr
          · cases hfr
          · rename_i g1 g2
            simp only [Option.some.injEq, Prod.mk.injEq] at hfr
            have := congrArg List.length hfr.2.2
            rw [List.length_drop] at this
            simp only [List.length_nil] at this
            omega
      refine .stop ?_ ?_
      · unfold frontRecord
        rw [if_neg (by omega), if_pos]
        rw [← hcnt, hcount, hu]; exact hl0
      · intro _
        rw [← hb8 _ _ (by omega), ← hsome.2.2.1]
        have := hdb.b2; omega
    have h4 := replay_wrong hdb hBk (Nat.le_refl _) hnB hK₁ hstop (ns ++ [m]) hnsB hnn
    obtain ⟨rfl, rfl⟩ := h1.det h4
    obtain ⟨f1, f2, f3⟩ := h3 rfl
    refine ⟨w'', e1, h2, ?_, ?_, f3⟩
    · rw [f1, q4, resized_prefix (List.prefix_refl _)]
    · have : K0.length = kf₁.cur.length := by rw [hK₁, withBlock_length hlenK]
      rw [f2, q3, this, resized_prefix (List.prefix_refl _), hK₁]
  | failed h => rw [he] at h; cases h

end

/-- Keys go to the bucket that their first byte tells. -/
def spreadCfg : Cfg := { demoCfg with H := fun _ k => UInt64.ofNat ((k.headD 0).toNat * 2 ^ 16) }

/-- Eight pairs in buckets 0, 1 and 2; bucket 3 is empty. -/
def spreadOps : List Op :=
  [.open, .insert [1, 1] [10], .insert [2, 2] [20], .insert [0, 3] [30], .insert [4, 4] [40],
   .insert [8, 5] [50], .insert [5, 6] [60], .insert [6, 7] [70], .insert [4, 8] [80], .flush]

private def spreadAnswer (s : Store) (k : Bytes) (w : World) : Option Bytes :=
  match (fetch spreadCfg s k calm w).1 with
  | .ok v => some v
  | .error _ => none

private def missing (fs : Fs) (k : Bytes) : Bool :=
  match openStore spreadCfg calm ⟨fs, 0, []⟩ with
  | (.ok s, w) => match (fetch spreadCfg s k calm w).1 with
    | .error (.err .key_not_found) => true
    | _ => false
  | _ => false

private def pair (D K : Bytes) : Fs
  | .dat => some (FileSt.clean D)
  | .key => some (FileSt.clean K)
  | .log => none

private def files (D K L : Bytes) : Fs
  | .dat => some (FileSt.clean D)
  | .key => some (FileSt.clean K)
  | .log => some (FileSt.clean L)

private def test (s : Store) (w : World) : Bool :=
  match w.fs .dat, w.fs .key with
  | some d, some k =>
    s.ec == none && spreadAnswer s [2, 2] w == some [20] && k.cur.length == 5 * 104 &&
    (logRecord 104 k.cur 1).length == 52 && (logRecord 104 k.cur 2).length == 52 && (logRecord 104 k.cur 3).length == 16 &&
    missing (pair d.cur (withBlock 104 k.cur 2 ((logRecord 104 k.cur 3).drop 8))) [2, 2]
  | _, _ => false

/-- C08 fails for a database with 8 pairs: after the failed attempt and a successful one, a
pair that was there before the interrupted commit is gone. An undisturbed first attempt
restores the files. (The log contains many records of the same bucket. `commit` writes such
a record only once; this stands for a commit with several thousand buckets.) -/
theorem C08_witness : ∃ t s w D K, ∃ ns : List Nat, ∃ fs' w₀ σ e w' w'' s' w''',
    Reachable spreadCfg demoArgs False t (some s, w.fs) ∧ s.ec = none ∧
    bytesOf w.fs .dat = some D ∧ bytesOf w.fs .key = some K ∧
    (fetch spreadCfg s [2, 2] calm w).1 = .ok [20] ∧
    bytesOf fs' .dat = some D ∧ bytesOf fs' .key = some K ∧
    bytesOf fs' .log = some (logHead spreadCfg demoArgs K.length D.length ++ ns.flatMap (logRecord 104 K) ++
      (logRecord 104 K 2).take 16) ∧
    -- undisturbed
    recover spreadCfg calm ⟨fs', 0, []⟩ = (.ok (), w₀) ∧ bytesOf w₀.fs .dat = some D ∧ bytesOf w₀.fs .key = some K ∧
    -- one failure, then undisturbed
    (∃ i, σ = fun j => if j = i then .fail 0 else .none) ∧
    recover spreadCfg σ ⟨fs', 0, []⟩ = (.error (.err e), w') ∧
    recover spreadCfg calm ⟨w'.fs, 0, []⟩ = (.ok (), w'') ∧
    openStore spreadCfg calm ⟨w''.fs, 0, []⟩ = (.ok s', w''') ∧
    (fetch spreadCfg s' [2, 2] calm w''').1 = .error (.err .key_not_found) := by
  have h : demoTest spreadCfg demoArgs spreadOps test = true := by decide +kernel
  obtain ⟨rets, s, w, h1, h2⟩ := demo_test (by
    intro op h
    simp only [spreadOps, List.mem_cons, List.not_mem_nil, or_false] at h
    rcases h with h | h | h | h | h | h | h | h | h | h <;> subst h <;> simp [Op.Sound, demoArgs]) h
  unfold test at h2
  split at h2
  · rename_i d k e1 e2
    simp only [Bool.and_eq_true, beq_iff_eq] at h2
    obtain ⟨⟨⟨⟨⟨⟨a1, a2⟩, a3⟩, a4⟩, a5⟩, a6⟩, a7⟩ := h2
    have hD : bytesOf w.fs .dat = some d.cur := by simp [bytesOf, e1]
    have hK : bytesOf w.fs .key = some k.cur := by simp [bytesOf, e2]
    have hrep : ∀ j, ((List.replicate j 3).flatMap (logRecord 104 k.cur)).length = 16 * j := by
      intro j
      induction j with
      | zero => rfl
      | succ j ih => rw [List.replicate_succ, List.flatMap_cons, List.length_append, ih, a6]; omega
    obtain ⟨ns, hns0, hns1⟩ : ∃ ns : List Nat, (∀ j ∈ ns, j = 3) ∧ (ns.flatMap (logRecord 104 k.cur)).length = 16 * 6651 :=
      ⟨List.replicate 6651 3, fun j hj => (List.mem_replicate.mp hj).2, hrep 6651⟩
    have hlen : ((1 :: ns ++ [3]).flatMap (logRecord 104 k.cur)).length = 52 + 16 * 6652 := by
      rw [List.flatMap_append, List.length_append, List.flatMap_cons, List.length_append, hns1, a4, List.flatMap_singleton, a6]
    have hns : ∀ j ∈ 2 :: 3 :: 1 :: ns, (j + 2) * demoArgs.blockSize ≤ k.cur.length := by
      intro j hj
      have : j ≤ 3 := by
        simp only [List.mem_cons] at hj
        rcases hj with h | h | h | h
        · omega
        · omega
        · omega
        · have := hns0 j h; omega
      rw [a3]
      exact Nat.mul_le_mul_right 104 (by omega)
    have hrest : (logRecord 104 k.cur 2).take 16 ≠ logRecord 104 k.cur 2 := by
      intro h
      have := congrArg List.length h
      rw [List.length_take, a5] at this
      omega
    have hf : (fetch spreadCfg s [2, 2] calm w).1 = .ok [20] := by
      unfold spreadAnswer at a2
      split at a2
      · rename_i v e; rw [e]; simpa using a2
      · cases a2
    generalize hL : logHead spreadCfg demoArgs k.cur.length d.cur.length ++
          (1 :: ns ++ [3]).flatMap (logRecord 104 k.cur) ++ (logRecord 104 k.cur 2).take 16 = L
    obtain ⟨e, w', w'', q1, q2, q3, q4, q5⟩ := C08_violated (fs' := files d.cur k.cur L) (ns := 1 :: ns) (m := 3) (n := 2)
      demo_creatable h1 a1 hD hK hns
      (by
        intro h
        simp only [List.mem_cons] at h
        rcases h with h | h | h
        · cases h
        · cases h
        · cases hns0 _ h) (List.take_prefix 16 _)
      (by rw [List.length_take]; show 16 ≤ min 16 (logRecord 104 k.cur 2).length; rw [a5]; decide) hrest
      (by rw [show demoArgs.blockSize = 104 from rfl, hlen]; decide)
      (by rw [show demoArgs.blockSize = 104 from rfl, hlen]; decide) rfl rfl (by rw [← hL]; rfl)
    obtain ⟨w₀, p1, _, p2, p3⟩ := C45_torn_record (fs' := files d.cur k.cur L) (ns := 1 :: ns ++ [3]) (n := 2)
      demo_creatable h1 a1 hD hK (by
        intro j hj; apply hns
        simp only [List.cons_append, List.mem_cons, List.mem_append, List.not_mem_nil, or_false] at hj ⊢
        rcases hj with h | h | h | h <;> simp [h]) (List.take_prefix 16 _) hrest rfl rfl (by rw [← hL]; rfl) (List.prefix_refl _)
      (Nat.le_refl _) (fun _ _ => .inl rfl)
    have hfs : w''.fs = pair d.cur (withBlock 104 k.cur 2 ((logRecord 104 k.cur 3).drop 8)) := by
      funext p
      cases p
      · exact q3
      · exact q4
      · exact q5
    unfold missing at a7
    split at a7
    · rename_i s' w''' e'
      rw [← hfs] at e'
      refine ⟨_, s, w, d.cur, k.cur, 1 :: ns ++ [3], files d.cur k.cur L, w₀, _, e, w', w'', s', w''', h1, a1, hD, hK, hf,
        rfl, rfl, by rw [hL]; rfl, p1, p2, p3, ⟨_, rfl⟩, q1, q2, e', ?_⟩
      split at a7
      · assumption
      · cases a7
    · cases a7
  · cases h2

end NuDB
