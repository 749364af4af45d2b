import Verif.Proof.ReplayRecords
/-
C47, C48: `recover` with logs that were not written by `commit`, or only in part.
-/
namespace NuDB

open Spec

section
variable {c : Cfg} {σ : Schedule}

private theorem calm_upset {x : Exc} : ¬ Upset calm x := by
  rintro ⟨⟨i, h⟩, _⟩
  exact h rfl

/-- C48: files with arbitrary content. If the log has no record that violates an assertion or
is too long for a block (`Sane`), `recover` succeeds or reports an error, or the process is
killed. Missing: these two cases, for which the claim is false (`C48_undefined`,
`C48_abort`). -/
theorem C48_partial (c : Cfg) (σ : Schedule) (w : World)
    (hs : ∀ kf lf, w.fs .key = some kf → w.fs .log = some lf → Sane (blockSizeOf kf.cur) (lf.cur.drop 62)) :
    ∃ r w', recover c σ w = (r, w') ∧ (r = .ok () ∨ (∃ e, r = .error (.err e)) ∨ (r = .error .crash ∧ Disturbed σ)) := by
  have h := wp_recover_any (c := c) (σ := σ) (w := w)
  unfold wp at h
  generalize recover c σ w = p at *
  obtain ⟨r, w'⟩ := p
  refine ⟨r, w', rfl, ?_⟩
  cases r with
  | ok u => exact .inl rfl
  | error x =>
    rcases h with ⟨hf, rfl | ⟨e, rfl⟩⟩ | ⟨df, kf, lf, K', _, hk, hl, _, hr, _⟩ | ⟨⟨e, rfl⟩, _⟩
    · exact .inr (.inr ⟨rfl, hf⟩)
    · exact .inr (.inl ⟨e, rfl⟩)
    · rcases Sane.defined (hs kf lf hk hl) hr with h | h | h
      · cases h
      · exact .inr (.inl ⟨_, h⟩)
      · exact .inr (.inl ⟨_, h⟩)
    · exact .inr (.inl ⟨e, rfl⟩)

/-- C48: what `recover` does with a log whose header matches. `Replay` tells what becomes of
the key file, and whether an error is reported. Then data file and log are left alone, but
the records before the faulty one are in the key file. -/
theorem C48_replay {fs : Fs} {D K L : Bytes} (hd : bytesOf fs .dat = some D) (hk : bytesOf fs .key = some K)
    (hl : bytesOf fs .log = some L) (h : Matching c.H D K L) (hs : loggedKeySize L ≠ 0) :
    ∃ K' r w', Replay (blockSizeOf K) D.length (bucketsOf K) (L.drop 62) K K' r ∧
      recover c calm ⟨fs, 0, []⟩ = (r, w') ∧
      (r = .ok () → w'.fs .dat = some (FileSt.clean (resized D (loggedDatSize L))) ∧
        w'.fs .key = some (FileSt.clean (resized K' (loggedKeySize L))) ∧ w'.fs .log = none) ∧
      (r ≠ .ok () → w'.fs .dat = fs .dat ∧ bytesOf w'.fs .key = some K' ∧ w'.fs .log = fs .log) := by
  have hw := wp_recover_any (c := c) (σ := calm) (w := ⟨fs, 0, []⟩)
  unfold bytesOf at hd hk hl
  cases hd1 : fs .dat with
  | none => rw [hd1] at hd; cases hd
  | some df =>
  cases hk1 : fs .key with
  | none => rw [hk1] at hk; cases hk
  | some kf =>
  cases hl1 : fs .log with
  | none => rw [hl1] at hl; cases hl
  | some lf =>
  rw [hd1] at hd; rw [hk1] at hk; rw [hl1] at hl
  obtain rfl : df.cur = D := by simpa using hd
  obtain rfl : kf.cur = K := by simpa using hk
  obtain rfl : lf.cur = L := by simpa using hl
  have hv := h.valid hs
  have eK : (getLogHeader (slice lf.cur 0 62)).keyFileSize = loggedKeySize lf.cur := bytesAt_u64 (by omega) h.llen
  have eD : (getLogHeader (slice lf.cur 0 62)).datFileSize = loggedDatSize lf.cur := bytesAt_u64 (by omega) h.llen
  unfold wp at hw
  generalize recover c calm ⟨fs, 0, []⟩ = p at *
  obtain ⟨r, w'⟩ := p
  cases r with
  | ok u =>
    obtain ⟨df', kf', a1, a2, ⟨a3, _⟩ | ⟨lf', a3, ⟨a4, _⟩ | ⟨_, _, a4, _⟩ | ⟨_, K', b1, b2, b3, b4⟩⟩⟩ := hw
    · have : fs .log = none := a3
      rw [hl1] at this; cases this
    · have : fs .log = some lf' := a3
      rw [hl1] at this; cases this
      have := h.llen; omega
    · have : fs .log = some lf' := a3
      rw [hl1] at this; cases this
      exact absurd a4 hv.size
    · have h1 : fs .log = some lf' := a3
      have h2 : fs .dat = some df' := a1
      have h3 : fs .key = some kf' := a2
      rw [hl1] at h1; cases h1
      rw [hd1] at h2; cases h2
      rw [hk1] at h3; cases h3
      refine ⟨K', _, w', b1, rfl, fun _ => ⟨?_, ?_, b4⟩, fun h => absurd rfl h⟩
      · rw [b2, eD]
      · rw [b3, eK]
  | error x =>
    rcases hw with hu | ⟨df', kf', lf', K', a1, a2, a3, _, hr, hK⟩ | ⟨_, _, hn⟩
    · exact absurd hu calm_upset
    · have h1 : fs .log = some lf' := a3
      have h2 : fs .dat = some df' := a1
      have h3 : fs .key = some kf' := a2
      rw [hl1] at h1; cases h1
      rw [hd1] at h2; cases h2
      rw [hk1] at h3; cases h3
      obtain ⟨kf1, c1, c2⟩ := hK.key
      refine ⟨K', _, w', hr, rfl, (fun h => by cases h), fun _ => ⟨hK.dat.trans hd1, ?_, hK.log.trans hl1⟩⟩
      unfold bytesOf; rw [c1]; simp [c2]
    · exact absurd hv (hn df kf lf hd1 hk1 hl1)

/-- C48: if the headers do not match, an error is reported and nothing is changed. (A log in
which the size of the key file is zero is one of `rekey`; of this only signature and version
are mentioned here.) -/
theorem C48_refused {fs : Fs} {D K L : Bytes} (hd : bytesOf fs .dat = some D) (hk : bytesOf fs .key = some K)
    (hl : bytesOf fs .log = some L) (hK : 104 < K.length) (hL : 62 ≤ L.length)
    (h : (¬ Matching c.H D K L ∧ loggedKeySize L ≠ 0) ∨
      bytesAt L 0 8 ≠ [0x6e, 0x75, 0x64, 0x62, 0x2e, 0x6c, 0x6f, 0x67] ∨ value (bytesAt L 8 2) ≠ 2) :
    ∃ e w', recover c calm ⟨fs, 0, []⟩ = (.error (.err e), w') ∧ w'.fs = fs := by
  have hw := wp_recover_any (c := c) (σ := calm) (w := ⟨fs, 0, []⟩)
  unfold bytesOf at hd hk hl
  cases hd1 : fs .dat with
  | none => rw [hd1] at hd; cases hd
  | some df =>
  cases hk1 : fs .key with
  | none => rw [hk1] at hk; cases hk
  | some kf =>
  cases hl1 : fs .log with
  | none => rw [hl1] at hl; cases hl
  | some lf =>
  rw [hd1] at hd; rw [hk1] at hk; rw [hl1] at hl
  obtain rfl : df.cur = D := by simpa using hd
  obtain rfl : kf.cur = K := by simpa using hk
  obtain rfl : lf.cur = L := by simpa using hl
  have hv : ¬ ValidFor c df.cur kf.cur lf.cur := by
    intro hv
    obtain ⟨m, _⟩ := hv.matching
    rcases h with h | h | h
    · exact h.1 m
    · exact h m.lsig
    · exact h m.lver
  have eK : (getLogHeader (slice lf.cur 0 62)).keyFileSize = loggedKeySize lf.cur := bytesAt_u64 (by omega) hL
  unfold wp at hw
  generalize recover c calm ⟨fs, 0, []⟩ = p at *
  obtain ⟨r, w'⟩ := p
  cases r with
  | ok u =>
    exfalso
    obtain ⟨df', kf', a1, a2, ⟨a3, _⟩ | ⟨lf', a3, ⟨a4, _⟩ | ⟨_, a5, a4, _⟩ | ⟨b1, _⟩⟩⟩ := hw
    · have : fs .log = none := a3
      rw [hl1] at this; cases this
    · have : fs .log = some lf' := a3
      rw [hl1] at this; cases this
      omega
    · have : fs .log = some lf' := a3
      rw [hl1] at this; cases this
      rcases h with h | h | h
      · exact h.2 (eK.symm.trans a4)
      · rw [← slice_bytesAt (f := lf.cur) (n := 62) (by omega)] at h
        have : verifyLog c.H (getLogHeader (slice lf.cur 0 62)) = .error .not_log_file := if_pos h
        rw [this] at a5; cases a5
      · rw [← bytesAt_u16 (n := 62) (by omega) hL] at h
        unfold verifyLog at a5
        split at a5
        · cases a5
        · rw [if_pos (show (getLogHeader (slice lf.cur 0 62)).version ≠ currentVersion from h)] at a5; cases a5
    · have h1 : fs .log = some lf' := a3
      have h2 : fs .dat = some df' := a1
      have h3 : fs .key = some kf' := a2
      rw [hl1] at h1; cases h1
      rw [hd1] at h2; cases h2
      rw [hk1] at h3; cases h3
      exact hv b1
  | error x =>
    rcases hw with hu | ⟨df', kf', lf', K', a1, a2, a3, a4, _⟩ | ⟨⟨e, rfl⟩, a1 | ⟨kf', a1, a2⟩, _⟩
    · exact absurd hu calm_upset
    · have h1 : fs .log = some lf' := a3
      have h2 : fs .dat = some df' := a1
      have h3 : fs .key = some kf' := a2
      rw [hl1] at h1; cases h1
      rw [hd1] at h2; cases h2
      rw [hk1] at h3; cases h3
      exact absurd a4 hv
    · exact ⟨e, w', rfl, a1⟩
    · have h3 : fs .key = some kf' := a1
      rw [hk1] at h3; cases h3
      omega

/-- C48 fails: a record with more items than fit into a block is copied into the block all
the same, over the end of the memory. -/
theorem C48_undefined {fs : Fs} {D K L : Bytes} (hd : bytesOf fs .dat = some D) (hk : bytesOf fs .key = some K)
    (hl : bytesOf fs .log = some L) (h : Matching c.H D K L) (hs : loggedKeySize L ≠ 0)
    {n : Nat} {body rest : Bytes} (hf : frontRecord (L.drop 62) = some (n, body, rest)) (hn : n < 2 ^ 32)
    (hb : blockSizeOf K < body.length) : (recover c calm ⟨fs, 0, []⟩).1 = .error .ub := by
  obtain ⟨K', r, w', h1, h2, _⟩ := C48_replay hd hk hl h hs
  rw [h2]
  exact (h1.det (.overrun hf hn hb)).2

/-- C48 fails: a bucket number of 2^32 or more violates an assertion of the class that reads
numbers from a file; without assertions the upper half of the number is ignored. -/
theorem C48_abort {fs : Fs} {D K L : Bytes} (hd : bytesOf fs .dat = some D) (hk : bytesOf fs .key = some K)
    (hl : bytesOf fs .log = some L) (h : Matching c.H D K L) (hs : loggedKeySize L ≠ 0)
    (h8 : 70 ≤ L.length) (hn : 2 ^ 32 ≤ value (bytesAt L 62 8)) : (recover c calm ⟨fs, 0, []⟩).1 = .error .abort := by
  obtain ⟨K', r, w', h1, h2, _⟩ := C48_replay hd hk hl h hs
  rw [h2]
  refine (h1.det (.number ?_ ?_)).2
  · rw [List.length_drop]; omega
  · rw [bytesAt_drop]; exact hn

end

section
variable {c : Cfg} {a : CreateArgs} {lf : Nat} {short : Prop}

/-- Files of a database and a log of which an arbitrary part was replaced. -/
theorem log_valid {cf : Conf} {D K D' K' L rest : Bytes} {recs : List Rec} {B : Nat} {view : View}
    (hdb : Db c cf D K recs B view) {ns : List Nat} (hD : D <+: D') (hag : Agree cf.blockSize K ns K')
    (hL : L = putLogHeader (cf.lh c.H K.length D.length) ++ rest) :
    ValidFor c D' K' L ∧ blockSizeOf K' = cf.blockSize ∧ bucketsOf K' = K'.length / cf.blockSize - 1 ∧
      B ≤ K'.length / cf.blockSize - 1 ∧ loggedKeySize L = K.length ∧ loggedDatSize L = D.length := by
  have hcf := hdb.conf
  have hkl := hdb.klen
  have hdl := hdb.dlen
  have hdl' : 92 ≤ D'.length := by
    have := hD.length_le
    rw [hdb.dat.eq] at this
    simp at this; omega
  have hlh := get_lh (c := c) hcf hL hkl.2.1 (by omega)
  have h62 : 62 ≤ L.length := by rw [hL]; simp
  have hBk := hdb.buckets_le hag.le
  have hkh : getKeyHeader (slice K' 0 104) K'.length = cf.kh c.H (K'.length / cf.blockSize - 1) := by
    apply get_kh (B := B) hcf
    rw [agree_head hag hcf.bs1 (by omega), hdb.key.head]
  have h1B := hdb.b1
  have hkl' := hag.le
  have hbs : blockSizeOf K' = cf.blockSize := by
    have := (getKeyHeader_fields (K := K') (by omega)).1
    rw [hkh] at this
    exact this.symm
  refine ⟨⟨hdl', ?_, by omega, h62, ?_, ?_, ?_, ?_, ?_⟩, hbs, ?_, hBk, ?_, ?_⟩
  · rw [get_dh hdb.dat hcf hD]; exact verifyDat_ok hcf
  · rw [hlh]; exact verifyLog_ok hcf
  · rw [hlh]; show K.length ≠ 0; omega
  · rw [hkh]; exact verifyKey_ok hcf (by omega)
  · rw [hkh, get_dh hdb.dat hcf hD]; exact verifyDatKey_ok hcf (by omega)
  · rw [hkh, hlh]; exact verifyKeyLog_ok hcf
  · unfold bucketsOf; rw [hbs]
  · have : (getLogHeader (slice L 0 62)).keyFileSize = loggedKeySize L := bytesAt_u64 (by omega) h62
    rw [← this, hlh]; rfl
  · have : (getLogHeader (slice L 0 62)).datFileSize = loggedDatSize L := bytesAt_u64 (by omega) h62
    rw [← this, hlh]; rfl

theorem resized_prefix {f g : Bytes} (h : f <+: g) : resized g f.length = f := by
  obtain ⟨t, rfl⟩ := h
  unfold resized
  rw [List.take_append_of_le_length (Nat.le_refl _), List.take_of_length_le (Nat.le_refl _)]
  simp

/-- A log with some complete records and then something else. -/
private theorem recover_tail {t : List Label} {s : Store} {fs : Fs} {D K : Bytes} (hc : Creatable a lf)
    (hr : Reachable c a short t (some s, fs)) (he : s.ec = none)
    (hD : bytesOf fs .dat = some D) (hK : bytesOf fs .key = some K)
    {fs' : Fs} {D' K' rest : Bytes} {ns : List Nat}
    (hns : ∀ m ∈ ns, (m + 2) * a.blockSize ≤ K.length)
    (hd : bytesOf fs' .dat = some D') (hk : bytesOf fs' .key = some K')
    (hl : bytesOf fs' .log = some (logHead c a K.length D.length ++ ns.flatMap (logRecord a.blockSize K) ++ rest))
    (hD' : D <+: D') (hlen : K.length ≤ K'.length)
    (hK' : ∀ i, i < K.length → K'[i]? = K[i]? ∨ ∃ m ∈ ns, (m + 1) * a.blockSize ≤ i ∧ i < (m + 2) * a.blockSize) :
    ∃ K₂ Bk, K <+: K₂ ∧ 2 * a.blockSize ≤ K.length ∧ ∀ K₃ r, Replay a.blockSize D'.length Bk rest K₂ K₃ r →
      ∃ w', recover c calm ⟨fs', 0, []⟩ = (r, w') ∧ (r = .ok () → w'.fs .log = none ∧
        w'.fs .dat = some (FileSt.clean D) ∧ w'.fs .key = some (FileSt.clean (resized K₃ K.length))) := by
  obtain ⟨st, _, hR⟩ := simulation hc hr
  cases hR with
  | @opened _ _ D0 K0 recs B view hS base hz hf =>
    obtain ⟨df, d1, d2⟩ := hS.idle.dat
    obtain ⟨kf, k1, k2⟩ := hS.idle.key
    obtain rfl : D0 = D := by simpa [bytesOf, d1, d2.cur] using hD
    obtain rfl : K0 = K := by simpa [bytesOf, k1, k2.cur] using hK
    have hdb := hS.db
    have hbs : (a.conf lf).blockSize = a.blockSize := rfl
    have hb0 : 104 ≤ a.blockSize := hc.block.1
    have hlt : ∀ m, (m + 2) * a.blockSize ≤ K0.length → m < B := by
      intro m hm
      rw [hdb.key.len, hbs] at hm
      have := Nat.le_of_mul_le_mul_right hm (by omega)
      omega
    have hnsB : ∀ m ∈ ns, m < B := fun m hm => hlt m (hns m hm)
    have hrec : ∀ m, m < B → logRecord a.blockSize K0 m = logRec view m := fun m hm => logRecord_eq (cf := a.conf lf) hdb hm
    have hrecs : ns.flatMap (logRecord a.blockSize K0) = ns.flatMap (logRec view) := by
      rw [List.flatMap_def, List.flatMap_def, List.map_congr_left (fun m hm => hrec m (hnsB m hm))]
    rw [hrecs] at hl
    have hlb : logHead c a K0.length D0.length = putLogHeader ((a.conf lf).lh c.H K0.length D0.length) := rfl
    rw [hlb, List.append_assoc] at hl
    have hag : Agree (a.conf lf).blockSize K0 ns K' := ⟨hlen, hK'⟩
    obtain ⟨hv, e1, e2, hBk, e3, e4⟩ := log_valid hdb hD' hag rfl
    obtain ⟨hm, hs⟩ := hv.matching
    obtain ⟨K₃', r', w', h1, h2, h3, _⟩ := C48_replay hd hk hl hm hs
    rw [e1, e2, List.drop_append_of_le_length (by simp), List.drop_of_length_le (by simp), List.nil_append] at h1
    obtain ⟨K₂, g1, g2⟩ := replay_records hdb hBk hD'.length_le ns K' rest hnsB hag
    refine ⟨K₂, K'.length / a.blockSize - 1, g1, ?_, ?_⟩
    · rw [hdb.key.len, hbs]; exact Nat.mul_le_mul_right _ (by have := hdb.b1; omega)
    intro K₃ r hR
    obtain ⟨q1, q2⟩ := h1.det (g2 K₃ r hR)
    subst q1 q2
    refine ⟨w', h2, fun hok => ?_⟩
    obtain ⟨f1, f2, f3⟩ := h3 hok
    refine ⟨f3, ?_, ?_⟩
    · rw [f1, e4, resized_prefix hD']
    · rw [f2, e3]
  | failed h => rw [he] at h; cases h

/-- C47: after some complete records of the log there may be up to 15 zeros: `recover`
restores the files as they were before the commit. Missing: more zeros, for which the claim
is false (`C47_lost`, `C47_header`). -/
theorem C47_few_zeros_partial {t : List Label} {s : Store} {fs : Fs} {D K : Bytes} (hc : Creatable a lf)
    (hr : Reachable c a short t (some s, fs)) (he : s.ec = none)
    (hD : bytesOf fs .dat = some D) (hK : bytesOf fs .key = some K)
    {fs' : Fs} {D' K' : Bytes} {ns : List Nat} {z : Nat} (hz : z < 16)
    (hns : ∀ m ∈ ns, (m + 2) * a.blockSize ≤ K.length)
    (hd : bytesOf fs' .dat = some D') (hk : bytesOf fs' .key = some K')
    (hl : bytesOf fs' .log =
      some (logHead c a K.length D.length ++ ns.flatMap (logRecord a.blockSize K) ++ List.replicate z 0))
    (hD' : D <+: D') (hlen : K.length ≤ K'.length)
    (hK' : ∀ i, i < K.length → K'[i]? = K[i]? ∨ ∃ m ∈ ns, (m + 1) * a.blockSize ≤ i ∧ i < (m + 2) * a.blockSize) :
    ∃ w', recover c calm ⟨fs', 0, []⟩ = (.ok (), w') ∧ w'.fs .log = none ∧
      w'.fs .dat = some (FileSt.clean D) ∧ w'.fs .key = some (FileSt.clean K) := by
  obtain ⟨K₂, Bk, h1, _, h2⟩ := recover_tail hc hr he hD hK hns hd hk hl hD' hlen hK'
  obtain ⟨w', e, h3⟩ := h2 K₂ _ (.stop (by unfold frontRecord; rw [if_pos (by simpa using hz)]) (by
    intro _
    have : bytesAt (List.replicate z 0) 0 8 = List.replicate (min 8 z) 0 := by
      simp [bytesAt]
    rw [this]
    have : ∀ k, k ≤ 8 → value (List.replicate k 0) < 2 ^ 32 := by decide
    exact this _ (by omega)))
  obtain ⟨a1, a2, a3⟩ := h3 rfl
  rw [resized_prefix h1] at a3
  exact ⟨w', e, a1, a2, a3⟩

private theorem withBlock_zero {bs : Nat} {K b : Bytes} (h : 2 * bs ≤ K.length) :
    withBlock bs K 0 b = K.take bs ++ (resized b bs ++ K.drop (2 * bs)) := by
  unfold withBlock
  have : resized K ((0 + 1) * bs) = K.take bs := by
    unfold resized
    rw [show (0 + 1) * bs - K.length = 0 by omega, show (0 + 1) * bs = bs by omega]
    simp
  rw [this, List.append_assoc]

theorem resized_length (f : Bytes) (n : Nat) : (resized f n).length = n := by
  unfold resized
  simp; omega

private theorem withBlock_twice {bs : Nat} {K b : Bytes} (h : 2 * bs ≤ K.length) :
    withBlock bs (withBlock bs K 0 b) 0 b = withBlock bs K 0 b := by
  have h1 : (K.take bs).length = bs := by rw [List.length_take]; omega
  have h2 : (withBlock bs K 0 b).length = K.length := by
    rw [withBlock_zero h, List.length_append, List.length_append, resized_length, h1, List.length_drop]; omega
  rw [withBlock_zero (by rw [h2]; exact h), withBlock_zero h]
  rw [List.take_append_of_le_length (by omega), List.take_of_length_le (by omega)]
  congr 2
  rw [← List.append_assoc, List.drop_append, List.drop_of_length_le (by rw [List.length_append, resized_length]; omega),
    List.length_append, resized_length, h1, show 2 * bs - (bs + bs) = 0 by omega]
  rfl

private theorem frontRecord_zeros {z : Nat} (h : 16 ≤ z) :
    frontRecord (List.replicate z 0) = some (0, List.replicate 8 0, List.replicate (z - 16) 0) := by
  have hb : ∀ o n, o + n ≤ z → bytesAt (List.replicate z 0) o n = List.replicate n 0 := by
    intro o n h
    simp [bytesAt]; omega
  have hc : countIn ((List.replicate z 0).drop 8) = 0 := by
    unfold countIn
    rw [bytesAt_drop, hb _ _ (by omega)]
    decide
  unfold frontRecord
  rw [if_neg (by simpa using h), hc, if_neg (by simpa using h), hb _ _ (by omega), hb _ _ (by omega)]
  simp only [List.drop_replicate]
  rfl

private theorem replay_zeros {bs d Bk : Nat} (hbs : 104 ≤ bs) : ∀ (k z : Nat) (K : Bytes), z ≤ k → 2 * bs ≤ K.length → 16 ≤ z →
    Replay bs d Bk (List.replicate z 0) K (withBlock bs K 0 (List.replicate 8 0)) (.ok ()) := by
  intro k
  induction k with
  | zero => intro z K h1 _ h3; omega
  | succ k ih =>
    intro z K h1 h2 h3
    refine .record (frontRecord_zeros h3) (by decide) (by simp; omega) (.inl (by decide)) (by omega) ?_
    have h4 : 2 * bs ≤ (withBlock bs K 0 (List.replicate 8 0)).length := by
      rw [withBlock_zero h2, List.length_append, List.length_append, resized_length, List.length_take, List.length_drop]; omega
    by_cases hz : 16 ≤ z - 16
    · have := ih (z - 16) (withBlock bs K 0 (List.replicate 8 0)) (by omega) h4 hz
      rwa [withBlock_twice h2] at this
    · refine .stop (by unfold frontRecord; rw [if_pos (by simpa using hz)]) ?_
      intro _
      have : bytesAt (List.replicate (z - 16) 0) 0 8 = List.replicate (min 8 (z - 16)) 0 := by simp [bytesAt]
      rw [this]
      have : ∀ k, k ≤ 8 → value (List.replicate k 0) < 2 ^ 32 := by decide
      exact this _ (by omega)

/-- C47 fails: 16 or more zeros after some complete records of the log (or right after its
header) are taken for records of an empty bucket 0. `recover` reports no error, but what was
in bucket 0 before the commit is lost. -/
theorem C47_lost {t : List Label} {s : Store} {fs : Fs} {D K : Bytes} (hc : Creatable a lf)
    (hr : Reachable c a short t (some s, fs)) (he : s.ec = none)
    (hD : bytesOf fs .dat = some D) (hK : bytesOf fs .key = some K)
    {fs' : Fs} {D' K' : Bytes} {ns : List Nat} {z : Nat} (hz : 16 ≤ z)
    (hns : ∀ m ∈ ns, (m + 2) * a.blockSize ≤ K.length)
    (hd : bytesOf fs' .dat = some D') (hk : bytesOf fs' .key = some K')
    (hl : bytesOf fs' .log =
      some (logHead c a K.length D.length ++ ns.flatMap (logRecord a.blockSize K) ++ List.replicate z 0))
    (hD' : D <+: D') (hlen : K.length ≤ K'.length)
    (hK' : ∀ i, i < K.length → K'[i]? = K[i]? ∨ ∃ m ∈ ns, (m + 1) * a.blockSize ≤ i ∧ i < (m + 2) * a.blockSize) :
    ∃ w', recover c calm ⟨fs', 0, []⟩ = (.ok (), w') ∧ w'.fs .log = none ∧
      w'.fs .dat = some (FileSt.clean D) ∧
      w'.fs .key = some (FileSt.clean (withBlock a.blockSize K 0 (List.replicate 8 0))) := by
  obtain ⟨K₂, Bk, h1, h0, h2⟩ := recover_tail hc hr he hD hK hns hd hk hl hD' hlen hK'
  obtain ⟨w', e, h3⟩ := h2 _ _ (replay_zeros hc.block.1 z z K₂ (Nat.le_refl _) (by have := h1.length_le; omega) hz)
  obtain ⟨a1, a2, a3⟩ := h3 rfl
  refine ⟨w', e, a1, a2, ?_⟩
  rw [a3]
  have hp : withBlock a.blockSize K 0 (List.replicate 8 0) <+: withBlock a.blockSize K₂ 0 (List.replicate 8 0) := by
    obtain ⟨u, rfl⟩ := h1
    refine ⟨u, ?_⟩
    rw [withBlock_zero h0, withBlock_zero (by rw [List.length_append]; omega), List.take_append_of_le_length (by omega),
      List.drop_append_of_le_length h0]
    simp
  have hlen : (withBlock a.blockSize K 0 (List.replicate 8 0)).length = K.length := by
    rw [withBlock_zero h0, List.length_append, List.length_append, resized_length, List.length_take, List.length_drop]; omega
  rw [← hlen, resized_prefix hp]

/-- C47 fails: if the header of the log reads back as zeros, `recover` reports an error (and
so does `open`, until the user removes the log). -/
theorem C47_header {t : List Label} {s : Store} {fs : Fs} {K : Bytes} (hc : Creatable a lf)
    (hr : Reachable c a short t (some s, fs)) (he : s.ec = none) (hK : bytesOf fs .key = some K)
    {fs' : Fs} {D' : Bytes} {z : Nat} (hz : 62 ≤ z) (hd : bytesOf fs' .dat = some D') (hk : bytesOf fs' .key = some K)
    (hl : bytesOf fs' .log = some (List.replicate z 0)) :
    ∃ e w', recover c calm ⟨fs', 0, []⟩ = (.error (.err e), w') ∧ w'.fs = fs' := by
  refine C48_refused hd hk hl ?_ (by simpa using hz) (.inr (.inl ?_))
  · obtain ⟨st, _, hR⟩ := simulation hc hr
    cases hR with
    | @opened _ _ D0 K0 recs B view hS base hz hf =>
      obtain ⟨kf, k1, k2⟩ := hS.idle.key
      obtain rfl : K0 = K := by simpa [bytesOf, k1, k2.cur] using hK
      have := hS.db.klen.1; omega
    | failed h => rw [he] at h; cases h
  · have : bytesAt (List.replicate z 0) 0 8 = List.replicate 8 0 := by
      unfold bytesAt
      rw [List.drop_zero, List.take_replicate, Nat.min_eq_left (by omega)]
    rw [this]; decide

/-- The files of a database match every log that begins with the header `commit` writes. -/
theorem C48_own_log {t : List Label} {s : Store} {fs : Fs} {D K : Bytes} (hc : Creatable a lf)
    (hr : Reachable c a short t (some s, fs)) (he : s.ec = none)
    (hD : bytesOf fs .dat = some D) (hK : bytesOf fs .key = some K) (rest : Bytes) :
    Matching c.H D K (logHead c a K.length D.length ++ rest) ∧ blockSizeOf K = a.blockSize ∧
      loggedKeySize (logHead c a K.length D.length ++ rest) = K.length ∧
      loggedDatSize (logHead c a K.length D.length ++ rest) = D.length := by
  obtain ⟨st, _, hR⟩ := simulation hc hr
  cases hR with
  | @opened _ _ D0 K0 recs B view hS base hz hf =>
    obtain ⟨df, d1, d2⟩ := hS.idle.dat
    obtain ⟨kf, k1, k2⟩ := hS.idle.key
    obtain rfl : D0 = D := by simpa [bytesOf, d1, d2.cur] using hD
    obtain rfl : K0 = K := by simpa [bytesOf, k1, k2.cur] using hK
    obtain ⟨h1, h2, _, _, h3, h4⟩ := log_valid (L := logHead c a K0.length D0.length ++ rest) hS.db (List.prefix_refl _)
      (agree_self _ _ []) rfl
    exact ⟨h1.matching.1, h2, h3, h4⟩
  | failed h => rw [he] at h; cases h

end

namespace Spec

/-- Power failure: unsynced changes of all files are persisted in any order, and files may
have their new size but not yet their new content. -/
def UnorderedLoss (fs fs' : Fs) : Prop :=
  ∀ p, match fs p with
    | none => fs' p = none
    | some f => ∃ img, fs' p = some (FileSt.clean img) ∧ Unordered f img

end Spec

private theorem unordered_cur' (f : FileSt) : Unordered f f.cur where
  bytes i h := .inl ⟨f.cur, version_cur f, by simp [h]⟩
  lower := ⟨f.cur, version_cur f, Nat.le_refl _⟩
  upper := ⟨f.cur, version_cur f, Nat.le_refl _⟩

/-- Space was allocated at the end of the file, but not yet written. -/
private theorem unordered_allocated {f : FileSt} {bs : Bytes} (h : f.pend = [.write f.base.length bs]) :
    Unordered f (f.base ++ List.replicate bs.length 0) := by
  have h0 : Version f f.base := ⟨0, rfl⟩
  have h1 : Version f (f.base ++ bs) := by
    refine ⟨1, ?_⟩
    rw [h]
    simp only [List.take_succ_cons, List.take_zero, List.foldl_cons, List.foldl_nil, POp.apply]
    by_cases hb : bs = []
    · subst hb; simp
    · unfold writeAt
      rw [if_neg hb]
      unfold put
      simp
  refine ⟨?_, ⟨f.base, h0, by simp⟩, ⟨f.base ++ bs, h1, by simp⟩⟩
  intro i hi
  by_cases hlt : i < f.base.length
  · left
    refine ⟨f.base, h0, ?_⟩
    rw [List.getElem_append_left hlt, List.getElem?_eq_getElem hlt]
  · right
    refine ⟨f.base, h0, by omega, ?_⟩
    rw [List.getElem_append_right (by omega), List.getElem_replicate]

/-- Outcome of `fetch`. -/
private def fetched (c : Cfg) (s : Store) (k : Bytes) (w : World) : Option Bytes :=
  match (fetch c s k calm w).1 with
  | .ok v => some v
  | .error _ => none

private def unfound (c : Cfg) (fs : Fs) (k : Bytes) : Bool :=
  match openStore c calm ⟨fs, 0, []⟩ with
  | (.ok s, w) => match (fetch c s k calm w).1 with
    | .error (.err .key_not_found) => true
    | _ => false
  | _ => false

private def only (D K : Bytes) : Fs
  | .dat => some (FileSt.clean D)
  | .key => some (FileSt.clean K)
  | .log => none

private def witness (n : Nat) (head : Bytes → Bytes → Bytes) (s : Store) (w : World) : Bool :=
  let r := flush demoCfg s (faultAt n (.crash 0) w) w
  match w.fs .dat, w.fs .key, r.2.fs .dat, r.2.fs .key, r.2.fs .log with
  | some d, some k, some d', some k', some l' =>
    s.ec == none && crashed r && fetched demoCfg s [4, 6] w == some [60] && d.cur.isPrefixOf d'.cur && k'.cur == k.cur &&
    l'.base == head k.cur d.cur &&
    (match l'.pend with
    | [.write o bs] => o == l'.base.length && decide (62 ≤ bs.length)
    | _ => false) && unfound demoCfg (only d.cur (withBlock 104 k.cur 0 (List.replicate 8 0))) [4, 6]
  | _, _, _, _, _ => false

/-- C47 fails: 8 pairs are committed, and the machine dies during the next commit when the
log has been extended, but not yet synced. If the new part of the log reads back as zeros,
`recover` reports success, and pairs that were committed long before are gone. -/
theorem C47_witness : ∃ t s w w₁ fs' w' s' w'',
    Reachable demoCfg demoArgs False t (some s, w.fs) ∧ s.ec = none ∧
    (fetch demoCfg s [4, 6] calm w).1 = .ok [60] ∧
    flush demoCfg s (faultAt 10 (.crash 0) w) w = (.error .crash, w₁) ∧ UnorderedLoss w₁.fs fs' ∧
    recover demoCfg calm ⟨fs', 0, []⟩ = (.ok (), w') ∧
    openStore demoCfg calm ⟨w'.fs, 0, []⟩ = (.ok s', w'') ∧
    (fetch demoCfg s' [4, 6] calm w'').1 = .error (.err .key_not_found) := by
  have h : demoTest demoCfg demoArgs (demoOps.take 14)
      (witness 10 (fun K D => logHead demoCfg demoArgs K.length D.length)) = true := by decide +kernel
  obtain ⟨rets, s, w, h1, h2⟩ := demo_test (demoOps_sound 14) h
  unfold witness at h2
  dsimp only at h2
  split at h2
  · rename_i d k d' k' l' e1 e2 e3 e4 e5
    simp only [Bool.and_eq_true, beq_iff_eq] at h2
    obtain ⟨⟨⟨⟨⟨⟨⟨a1, a2⟩, a3⟩, a4⟩, a5⟩, a6⟩, a7⟩, a8⟩ := h2
    obtain ⟨w₁, hw⟩ := crashed_iff a2
    rw [hw] at e3 e4 e5
    split at a7
    · rename_i o bs hp
      simp only [Bool.and_eq_true, beq_iff_eq, decide_eq_true_eq] at a7
      obtain ⟨rfl, hlen⟩ := a7
      have hlog := unordered_allocated hp
      have hf : (fetch demoCfg s [4, 6] calm w).1 = .ok [60] := by
        unfold fetched at a3
        split at a3
        · rename_i v e; rw [e]; simpa using a3
        · cases a3
      obtain ⟨w', q1, q2, q3, q4⟩ := C47_lost (fs' := fun
          | .dat => some (FileSt.clean d'.cur)
          | .key => some (FileSt.clean k'.cur)
          | .log => some (FileSt.clean (l'.base ++ List.replicate bs.length 0)))
        (D := d.cur) (K := k.cur) (D' := d'.cur) (K' := k'.cur) (ns := []) (z := bs.length)
        demo_creatable h1 a1 (by simp [bytesOf, e1]) (by simp [bytesOf, e2]) (by omega) (by simp)
        (by simp [bytesOf]) (by simp [bytesOf]) (by simp [bytesOf, a6])
        (List.isPrefixOf_iff_prefix.mp a4) (by rw [a5]; exact Nat.le_refl _) (by intro i _; left; rw [a5])
      have hfs : w'.fs = only d.cur (withBlock 104 k.cur 0 (List.replicate 8 0)) := by
        funext p
        cases p
        · exact q3
        · exact q4
        · exact q2
      unfold unfound at a8
      split at a8
      · rename_i s' w'' e
        rw [← hfs] at e
        refine ⟨_, s, w, w₁, _, w', s', w'', h1, a1, hf, hw, ?_, q1, e, ?_⟩
        · intro p
          cases p
          · rw [e3]; exact ⟨_, rfl, unordered_cur' _⟩
          · rw [e4]; exact ⟨_, rfl, unordered_cur' _⟩
          · rw [e5]; exact ⟨_, rfl, hlog⟩
        · split at a8
          · assumption
          · cases a8
      · cases a8
    · cases a7
  · cases h2

/-- C47 fails: the same when the header of the log is lost. -/
theorem C47_header_witness : ∃ t s w w₁ fs' e w',
    Reachable demoCfg demoArgs False t (some s, w.fs) ∧ s.ec = none ∧
    flush demoCfg s (faultAt 3 (.crash 0) w) w = (.error .crash, w₁) ∧ UnorderedLoss w₁.fs fs' ∧
    recover demoCfg calm ⟨fs', 0, []⟩ = (.error (.err e), w') ∧ w'.fs = fs' := by
  have h : demoTest demoCfg demoArgs (demoOps.take 14) (witness 3 (fun _ _ => [])) = true := by decide +kernel
  obtain ⟨rets, s, w, h1, h2⟩ := demo_test (demoOps_sound 14) h
  unfold witness at h2
  dsimp only at h2
  split at h2
  · rename_i d k d' k' l' e1 e2 e3 e4 e5
    simp only [Bool.and_eq_true, beq_iff_eq] at h2
    obtain ⟨⟨⟨⟨⟨⟨⟨a1, a2⟩, a3⟩, a4⟩, a5⟩, a6⟩, a7⟩, a8⟩ := h2
    obtain ⟨w₁, hw⟩ := crashed_iff a2
    rw [hw] at e3 e4 e5
    split at a7
    · rename_i o bs hp
      simp only [Bool.and_eq_true, beq_iff_eq, decide_eq_true_eq] at a7
      obtain ⟨rfl, hlen⟩ := a7
      have hlog := unordered_allocated hp
      obtain ⟨e, w', q1, q2⟩ := C47_header (fs' := fun
          | .dat => some (FileSt.clean d'.cur)
          | .key => some (FileSt.clean k'.cur)
          | .log => some (FileSt.clean (l'.base ++ List.replicate bs.length 0)))
        (K := k.cur) (D' := d'.cur) (z := bs.length)
        demo_creatable h1 a1 (by simp [bytesOf, e2]) hlen
        (by simp [bytesOf]) (by simp [bytesOf, a5]) (by simp [bytesOf, a6])
      refine ⟨_, s, w, w₁, _, e, w', h1, a1, hw, ?_, q1, q2⟩
      intro p
      cases p
      · rw [e3]; exact ⟨_, rfl, unordered_cur' _⟩
      · rw [e4]; exact ⟨_, rfl, unordered_cur' _⟩
      · rw [e5]; exact ⟨_, rfl, hlog⟩
    · cases a7
  · cases h2

/-- The files `D`, `K`, `L`. -/
private def three (D K L : Bytes) : Fs
  | .dat => some (FileSt.clean D)
  | .key => some (FileSt.clean K)
  | .log => some (FileSt.clean L)

/-- The premises of the theorems above hold for a database with 8 pairs: a log with one
record of an empty bucket 0 is sane and gets applied; one with a record of six items leads to
undefined behaviour, since five fit into a block of 104 bytes; one with a large number to a
violated assertion. Another file header is refused. -/
example : ∃ t s fs D K, Creatable demoArgs 32768 ∧ Reachable demoCfg demoArgs False t (some s, fs) ∧ s.ec = none ∧
    bytesOf fs .dat = some D ∧ bytesOf fs .key = some K ∧
    (∃ L, Matching demoCfg.H D K L ∧ loggedKeySize L ≠ 0 ∧ Sane (blockSizeOf K) (L.drop 62) ∧
      (recover demoCfg calm ⟨three D K L, 0, []⟩).1 = .ok ()) ∧
    (∃ w', recover demoCfg calm ⟨three D K (logHead demoCfg demoArgs K.length D.length ++ List.replicate 15 0), 0, []⟩ =
      (.ok (), w') ∧ w'.fs .key = some (FileSt.clean K)) ∧
    (∃ L, Matching demoCfg.H D K L ∧ loggedKeySize L ≠ 0 ∧
      (recover demoCfg calm ⟨three D K L, 0, []⟩).1 = .error .ub) ∧
    (∃ L, Matching demoCfg.H D K L ∧ loggedKeySize L ≠ 0 ∧
      (recover demoCfg calm ⟨three D K L, 0, []⟩).1 = .error .abort) ∧
    (∃ L, ¬ Matching demoCfg.H D K L ∧ loggedKeySize L ≠ 0 ∧ 62 ≤ L.length ∧ 104 < K.length ∧
      ∃ e w, recover demoCfg calm ⟨three D K L, 0, []⟩ = (.error (.err e), w) ∧ w.fs = three D K L) := by
  obtain ⟨t, s, w, w₁, fs', w', s', w'', h1, h2, _⟩ := C47_witness
  obtain ⟨st, _, hR⟩ := simulation demo_creatable h1
  cases hR with
  | failed h => rw [h2] at h; cases h
  | @opened _ _ D K recs B view hS base hz hf =>
  obtain ⟨df, d1, d2⟩ := hS.idle.dat
  obtain ⟨kf, k1, k2⟩ := hS.idle.key
  have hD : bytesOf w.fs .dat = some D := by simp [bytesOf, d1, d2.cur]
  have hK : bytesOf w.fs .key = some K := by simp [bytesOf, k1, k2.cur]
  have own := C48_own_log demo_creatable h1 h2 hD hK
  have hkl := hS.db.klen.1
  have hdrop : ∀ r, (logHead demoCfg demoArgs K.length D.length ++ r).drop 62 = r := fun r => rfl
  have hk0 : ∀ r, loggedKeySize (logHead demoCfg demoArgs K.length D.length ++ r) ≠ 0 := by
    intro r; rw [(own r).2.2.1]; omega
  have hbs : blockSizeOf K = 104 := (own []).2.1
  have b1 : ∀ L, bytesOf (three D K L) .dat = some D := fun L => by simp [bytesOf, three]
  have b2 : ∀ L, bytesOf (three D K L) .key = some K := fun L => by simp [bytesOf, three]
  have b3 : ∀ L, bytesOf (three D K L) .log = some L := fun L => by simp [bytesOf, three]
  refine ⟨t, s, w.fs, D, K, demo_creatable, h1, h2, hD, hK, ?_, ?_, ?_, ?_, ?_⟩
  · refine ⟨_, (own (List.replicate 16 0)).1, hk0 _, ?_, ?_⟩
    · rw [hdrop, hbs]
      exact .record (frontRecord_zeros (Nat.le_refl _)) (by decide) (by decide) (.stop (by decide) (by simp))
    · obtain ⟨w3, q, _⟩ := C47_lost (ns := []) (z := 16) (D' := D) (K' := K)
        (fs' := three D K (logHead demoCfg demoArgs K.length D.length ++ List.replicate 16 0)) demo_creatable h1 h2 hD hK
        (Nat.le_refl _) (by simp) (b1 _) (b2 _) (by rw [b3]; simp) (List.prefix_refl _) (Nat.le_refl _) (fun i _ => .inl rfl)
      rw [q]
  · obtain ⟨w3, q, _, _, q'⟩ := C47_few_zeros_partial (ns := []) (z := 15) (D' := D) (K' := K)
      (fs' := three D K (logHead demoCfg demoArgs K.length D.length ++ List.replicate 15 0)) demo_creatable h1 h2 hD hK
      (by decide) (by simp) (b1 _) (b2 _) (by rw [b3]; simp) (List.prefix_refl _) (Nat.le_refl _) (fun i _ => .inl rfl)
    exact ⟨w3, q, q'⟩
  · refine ⟨_, (own (putU64 0 ++ putU16 6 ++ List.replicate 114 0)).1, hk0 _, ?_⟩
    refine C48_undefined (b1 _) (b2 _) (b3 _) (own _).1 (hk0 _) (n := 0) (body := putU16 6 ++ List.replicate 114 0) (rest := []) ?_ (by decide) ?_
    · rw [hdrop]; decide +kernel
    · rw [hbs]; decide
  · refine ⟨_, (own (putU64 (2 ^ 32))).1, hk0 _, ?_⟩
    refine C48_abort (b1 _) (b2 _) (b3 _) (own _).1 (hk0 _) (Nat.le_refl _) ?_
    have : bytesAt (logHead demoCfg demoArgs K.length D.length ++ putU64 (2 ^ 32)) 62 8 = putU64 (2 ^ 32) := rfl
    rw [this]; decide
  · have hn : ¬ Matching demoCfg.H D K (List.replicate 62 1) := by
      intro h; have := h.lsig; revert this; decide
    refine ⟨List.replicate 62 1, hn, by decide, by decide, by omega, ?_⟩
    exact C48_refused (b1 _) (b2 _) (b3 _) (by omega) (by decide) (.inl ⟨hn, by decide⟩)

end NuDB
