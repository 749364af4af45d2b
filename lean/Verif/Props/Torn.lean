import Verif.Props.Atomic
/-
C45: logs that end in the middle.
-/
namespace NuDB

open Spec

namespace Spec

/-- The log record of bucket `n` of the key file `K`: number of the bucket, then the used
part of its block (count, overflow link and 18 bytes per entry). -/
def logRecord (blockSize : Nat) (K : Bytes) (n : Nat) : Bytes :=
  putU64 n ++ slice K ((n + 1) * blockSize) (8 + 18 * getU16 (slice K ((n + 1) * blockSize) 2))

/-- A log header for files of the given lengths. -/
def logHead (c : Cfg) (a : CreateArgs) (keyLen datLen : Nat) : Bytes :=
  putLogHeader { type := logType, version := currentVersion, uid := a.uid, appnum := a.appnum,
                 keySize := a.keySize, salt := a.salt, pepper := pepper c.H a.salt,
                 blockSize := a.blockSize, keyFileSize := keyLen, datFileSize := datLen }

end Spec

section
variable {c : Cfg} {a : CreateArgs} {lf : Nat} {short : Prop}

theorem logRecord_eq {cf : Conf} {D K : Bytes} {recs : List Rec} {B : Nat} {view : View} (h : Db c cf D K recs B view)
    {n : Nat} (hn : n < B) : logRecord cf.blockSize K n = logRec view n := by
  have hb := h.key.blocks n hn
  have hok := h.filed n hn
  have hcap := h.conf.cap_le
  have hbs := h.conf.bs1
  have hbs2 := h.conf.bs2
  have h1 : bucketSize (view n).1.length ≤ bucketSize cf.cap := by
    have := hok.len; simp [bucketSize]; omega
  have key : ∀ m, m ≤ bucketSize (view n).1.length →
      slice K ((n + 1) * cf.blockSize) m = (encBkt (view n).1 (view n).2).take m := by
    intro m hm
    have : slice K ((n + 1) * cf.blockSize) m = slice (slice K ((n + 1) * cf.blockSize) cf.blockSize) 0 m := by
      rw [slice_slice (by omega)]; rfl
    rw [this, hb, encBlock, take_eq_slice', List.take_append_of_le_length (by simpa using hm)]
  have h2 : getU16 (slice K ((n + 1) * cf.blockSize) 2) = (view n).1.length := by
    rw [key 2 (by simp [bucketSize]; omega), encBkt, List.append_assoc,
      List.take_append_of_le_length (by simp), List.take_of_length_le (by simp)]
    apply getU16_putU16
    simp only [bucketSize] at h1 hcap
    omega
  unfold logRecord logRec
  rw [h2, key _ (by simp only [bucketSize]; omega), List.take_of_length_le (by simp only [encBkt_length, bucketSize]; omega)]

/-- C45: the log of a commit may break off in the middle of a record, the data file may have
grown and the buckets whose records are complete may have been overwritten: `recover`
restores the files as they were before the commit. -/
theorem C45_torn_record {t : List Label} {s : Store} {fs : Fs} {D K : Bytes} (hc : Creatable a lf)
    (hr : Reachable c a short t (some s, fs)) (he : s.ec = none)
    (hD : bytesOf fs .dat = some D) (hK : bytesOf fs .key = some K)
    {fs' : Fs} {D' K' rest : Bytes} {ns : List Nat} {n : Nat}
    (hns : ∀ m ∈ n :: ns, (m + 2) * a.blockSize ≤ K.length)
    (hrest : rest <+: logRecord a.blockSize K n) (hrest' : rest ≠ logRecord a.blockSize K n)
    (hd : fs' .dat = some (FileSt.clean D')) (hk : fs' .key = some (FileSt.clean K'))
    (hl : fs' .log = some (FileSt.clean
      (logHead c a K.length D.length ++ ns.flatMap (logRecord a.blockSize K) ++ rest)))
    (hD' : D <+: D') (hlen : K.length ≤ K'.length)
    (hK' : ∀ i, i < K.length → K'[i]? = K[i]? ∨ ∃ m ∈ ns, (m + 1) * a.blockSize ≤ i ∧ i < (m + 2) * a.blockSize) :
    ∃ w', recover c calm ⟨fs', 0, []⟩ = (.ok (), w') ∧ w'.fs .log = none ∧
      bytesOf w'.fs .dat = some D ∧ bytesOf w'.fs .key = some K := by
  obtain ⟨st, _, hR⟩ := simulation hc hr
  cases hR with
  | @opened _ _ D0 K0 recs B view hS base hz hf =>
    obtain ⟨df, d1, d2⟩ := hS.idle.dat
    obtain ⟨kf, k1, k2⟩ := hS.idle.key
    obtain rfl : D0 = D := by simpa [bytesOf, d1, d2.cur] using hD
    obtain rfl : K0 = K := by simpa [bytesOf, k1, k2.cur] using hK
    have hdb := hS.db
    have hbs : (a.conf lf).blockSize = a.blockSize := rfl
    have hb0 : 104 ≤ a.blockSize := hc.block.1
    have hlt : ∀ m, (m + 2) * a.blockSize ≤ K0.length → m < B := by
      intro m hm
      rw [hdb.key.len, hbs] at hm
      have := Nat.le_of_mul_le_mul_right hm (by omega)
      omega
    have hnsB : ∀ m ∈ ns, m < B := fun m hm => hlt m (hns m (by simp [hm]))
    have hnB : n < B := hlt n (hns n (by simp))
    have hrec : ∀ m, m < B → logRecord a.blockSize K0 m = logRec view m := fun m hm => logRecord_eq (cf := a.conf lf) hdb hm
    have hrecs : ns.flatMap (logRecord a.blockSize K0) = ns.flatMap (logRec view) := by
      rw [List.flatMap_def, List.flatMap_def, List.map_congr_left (fun m hm => hrec m (hnsB m hm))]
    rw [hrec n hnB] at hrest hrest'
    rw [hrecs] at hl
    have hlb : logHead c a K0.length D0.length ++ ns.flatMap (logRec view) =
        logBytes c (a.conf lf) K0.length D0.length view ns := rfl
    rw [hlb] at hl
    have htorn : Torn view B rest := by
      right
      refine ⟨n, hnB, hrest, ?_⟩
      rcases Nat.lt_or_ge rest.length (logRec view n).length with h | h
      · exact h
      · exact absurd (hrest.eq_of_length (Nat.le_antisymm hrest.length_le h)) hrest'
    have h62 : 62 ≤ (logBytes c (a.conf lf) K0.length D0.length view ns ++ rest).length := by
      simp [logBytes]
    have hsafe : Safe c (a.conf lf) (logBytes c (a.conf lf) K0.length D0.length view ns ++ rest).length
        (fun D K => D = D0 ∧ K = K0) fs' := by
      refine .long (FileSt.clean D') (FileSt.clean K') _ D0 K0 hd hk hl h62 ⟨rfl, rfl⟩ ?_ ?_
      · intro l hl _
        rw [ordered_clean] at hl
        subst hl
        refine ⟨recs, B, view, ns, rest, hdb, hnsB, rfl, htorn, Nat.le_refl _, ?_, ?_⟩
        · intro v hv; rw [version_clean.mp hv]; exact hD'
        · intro v hv; rw [version_clean.mp hv]; exact ⟨hlen, hK'⟩
      · intro l hl hlt
        rw [ordered_clean] at hl
        subst hl; omega
    obtain ⟨D1, K1, w', ⟨rfl, rfl⟩, e, hC, _⟩ := hsafe.recovers (by rintro _ _ ⟨rfl, rfl⟩; exact ⟨_, _, _, hdb⟩)
    obtain ⟨df', d1', d2'⟩ := hC.dat
    obtain ⟨kf', k1', k2'⟩ := hC.key
    exact ⟨w', e, hC.log, by simp [bytesOf, d1', d2'.cur], by simp [bytesOf, k1', k2'.cur]⟩
  | failed h => rw [he] at h; cases h

/-- C45: whatever part of the log of a commit is there, even if it ends in the middle of the
header, `recover` restores the files as they were before the commit. The data file may have
grown once the header is complete. -/
theorem C45_any_truncation {t : List Label} {s : Store} {fs : Fs} {D K : Bytes} (hc : Creatable a lf)
    (hr : Reachable c a short t (some s, fs)) (he : s.ec = none)
    (hD : bytesOf fs .dat = some D) (hK : bytesOf fs .key = some K)
    {fs' : Fs} {D' : Bytes} {ns : List Nat} (hns : ∀ m ∈ ns, (m + 2) * a.blockSize ≤ K.length)
    (len : Nat) (hd : fs' .dat = some (FileSt.clean D')) (hk : fs' .key = some (FileSt.clean K))
    (hl : fs' .log = some (FileSt.clean
      ((logHead c a K.length D.length ++ ns.flatMap (logRecord a.blockSize K)).take len)))
    (hD' : D' = D ∨ 62 ≤ len ∧ D <+: D') :
    ∃ w', recover c calm ⟨fs', 0, []⟩ = (.ok (), w') ∧ w'.fs .log = none ∧
      bytesOf w'.fs .dat = some D ∧ bytesOf w'.fs .key = some K := by
  obtain ⟨st, _, hR⟩ := simulation hc hr
  cases hR with
  | @opened _ _ D0 K0 recs B view hS base hz hf =>
    obtain ⟨df, d1, d2⟩ := hS.idle.dat
    obtain ⟨kf, k1, k2⟩ := hS.idle.key
    obtain rfl : D0 = D := by simpa [bytesOf, d1, d2.cur] using hD
    obtain rfl : K0 = K := by simpa [bytesOf, k1, k2.cur] using hK
    have hdb := hS.db
    have hbs : (a.conf lf).blockSize = a.blockSize := rfl
    have hb0 : 104 ≤ a.blockSize := hc.block.1
    have hlt : ∀ m, (m + 2) * a.blockSize ≤ K0.length → m < B := by
      intro m hm
      rw [hdb.key.len, hbs] at hm
      have := Nat.le_of_mul_le_mul_right hm (by omega)
      omega
    have hnsB : ∀ m ∈ ns, m < B := fun m hm => hlt m (hns m hm)
    have hrec : ∀ m, m < B → logRecord a.blockSize K0 m = logRec view m := fun m hm => logRecord_eq (cf := a.conf lf) hdb hm
    have hrecs : ns.flatMap (logRecord a.blockSize K0) = ns.flatMap (logRec view) := by
      rw [List.flatMap_def, List.flatMap_def, List.map_congr_left (fun m hm => hrec m (hnsB m hm))]
    rw [hrecs] at hl
    have hlb : logHead c a K0.length D0.length ++ ns.flatMap (logRec view) =
        logBytes c (a.conf lf) K0.length D0.length view ns := rfl
    rw [hlb] at hl
    generalize hlog : (logBytes c (a.conf lf) K0.length D0.length view ns).take len = log at hl
    have hpre : log <+: logBytes c (a.conf lf) K0.length D0.length view ns := by rw [← hlog]; exact List.take_prefix _ _
    have hsafe : Safe c (a.conf lf) log.length (fun D K => D = D0 ∧ K = K0) fs' := by
      by_cases h62 : 62 ≤ log.length
      · obtain ⟨ns', rest, b1, b2, b3⟩ := log_split hnsB hpre h62
        have hD' : D0 <+: D' := by
          rcases hD' with rfl | h
          · exact List.prefix_refl _
          · exact h.2
        refine .long (FileSt.clean D') (FileSt.clean K0) _ D0 K0 hd hk hl h62 ⟨rfl, rfl⟩ ?_ ?_
        · intro l hl _
          rw [ordered_clean] at hl
          subst hl
          refine ⟨recs, B, view, ns', rest, hdb, fun m hm => hnsB m (b1 m hm), b2, b3, Nat.le_refl _, ?_, ?_⟩
          · intro v hv; rw [version_clean.mp hv]; exact hD'
          · intro v hv; rw [version_clean.mp hv]; exact agree_self _ _ _
        · intro l hl hlt
          rw [ordered_clean] at hl
          subst hl; omega
      · have hD' : D' = D0 := by
          rcases hD' with rfl | h
          · rfl
          · exfalso
            apply h62
            rw [← hlog, List.length_take]
            have h1 := h.1
            have : 62 ≤ (logBytes c (a.conf lf) K0.length D0.length view ns).length := by simp [logBytes]
            omega
        subst hD'
        refine .short (FileSt.clean D') (FileSt.clean K0) _ D' K0 hd hk hl (by exact Nat.lt_of_not_le h62) ⟨rfl, rfl⟩
          (stable_clean _) (stable_clean _) ⟨_, _, ⟨rfl, rfl⟩, ?_⟩
        intro l hl hlt
        rw [ordered_clean] at hl
        subst hl; omega
    obtain ⟨D1, K1, w', ⟨rfl, rfl⟩, e, hC, _⟩ := hsafe.recovers (by rintro _ _ ⟨rfl, rfl⟩; exact ⟨_, _, _, hdb⟩)
    obtain ⟨df', d1', d2'⟩ := hC.dat
    obtain ⟨kf', k1', k2'⟩ := hC.key
    exact ⟨w', e, hC.log, by simp [bytesOf, d1', d2'.cur], by simp [bytesOf, k1', k2'.cur]⟩
  | failed h => rw [he] at h; cases h

/-- The premises of C45 hold for a log of buckets 0 and 0 that breaks off behind the number
of the second bucket, after garbage was written to bucket 0. -/
example : ∃ t s fs D K, Creatable demoArgs 32768 ∧ Reachable demoCfg demoArgs False t (some s, fs) ∧ s.ec = none ∧
    bytesOf fs .dat = some D ∧ bytesOf fs .key = some K ∧
    ∃ K' rest ns n, (∀ m ∈ n :: ns, (m + 2) * demoArgs.blockSize ≤ K.length) ∧ K' ≠ K ∧
      rest <+: logRecord demoArgs.blockSize K n ∧ rest ≠ logRecord demoArgs.blockSize K n ∧ rest.length = 8 ∧
      K.length ≤ K'.length ∧ (∀ i, i < K.length → K'[i]? = K[i]? ∨
        ∃ m ∈ ns, (m + 1) * demoArgs.blockSize ≤ i ∧ i < (m + 2) * demoArgs.blockSize) := by
  obtain ⟨t, s, w, w₁, h1, h2, _⟩ := demo_crash
  obtain ⟨st, _, hR⟩ := simulation demo_creatable h1
  cases hR with
  | @opened _ _ D K recs B view hS base hz hf =>
    obtain ⟨df, d1, d2⟩ := hS.idle.dat
    obtain ⟨kf, k1, k2⟩ := hS.idle.key
    have hlen := hS.db.key.len
    have hb1 := hS.db.b1
    have hbs : (demoArgs.conf 32768).blockSize = 104 := rfl
    rw [hbs] at hlen
    have h3 : (0 + 2) * demoArgs.blockSize ≤ K.length := by
      rw [hlen]; exact Nat.mul_le_mul_right _ (by omega)
    have h4 : 208 ≤ K.length := h3
    refine ⟨t, s, w.fs, D, K, demo_creatable, h1, h2, by simp [bytesOf, d1, d2.cur], by simp [bytesOf, k1, k2.cur],
      K.set 110 (K[110] + 1), putU64 0, [0], 0, ?_, ?_, List.prefix_append _ _, ?_, rfl, by simp, ?_⟩
    · intro m hm
      obtain rfl : m = 0 := by simpa using hm
      exact h3
    · intro e
      have : (K.set 110 (K[110] + 1))[110]? = K[110]? := by rw [e]
      rw [List.getElem?_set_self (by omega), List.getElem?_eq_getElem (by omega), Option.some.injEq] at this
      have h5 := congrArg UInt8.toNat this
      rw [UInt8.toNat_add] at h5
      have := K[110].toNat_lt
      rw [show (1 : UInt8).toNat = 1 from rfl] at h5
      omega
    · intro e
      have h5 := congrArg List.length e
      simp only [logRecord, List.length_append] at h5
      have h6 : (slice K ((0 + 1) * demoArgs.blockSize) (8 + 18 * getU16 (slice K ((0 + 1) * demoArgs.blockSize) 2))).length ≥ 1 := by
        rw [slice_length]
        show 1 ≤ min (8 + _) (K.length - 104)
        omega
      omega
    · intro i hi
      by_cases hi' : i = 110
      · right; exact ⟨0, by simp, by subst hi'; decide, by subst hi'; decide⟩
      · left; rw [List.getElem?_set_ne (by omega)]
  | failed h => rw [h2] at h; cases h

end

end NuDB
