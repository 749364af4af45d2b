import Verif.Props.Create
import Verif.Props.Codec
import Verif.Proof.Frame
import Verif.Spec.Layout
/-
C26: files that do not belong together.
-/
namespace NuDB

open Spec

namespace Spec

/-- The 8 bytes of a number, least significant first. -/
def littleEndian64 (n : Nat) : Bytes := (bigEndian 8 n).reverse

/-- Data file `D` and key file `K` are not a pair of files for this hash function. -/
inductive Foreign (H : Hasher) (D K : Bytes) : Prop
  /-- "nudb.dat" -/
  | datSignature (h : bytesAt D 0 8 ≠ [0x6e, 0x75, 0x64, 0x62, 0x2e, 0x64, 0x61, 0x74])
  | datVersion (h : value (bytesAt D 8 2) ≠ 2)
  /-- "nudb.key" -/
  | keySignature (h : bytesAt K 0 8 ≠ [0x6e, 0x75, 0x64, 0x62, 0x2e, 0x6b, 0x65, 0x79])
  | keyVersion (h : value (bytesAt K 8 2) ≠ 2)
  | uid (h : bytesAt D 10 8 ≠ bytesAt K 10 8)
  | appnum (h : bytesAt D 18 8 ≠ bytesAt K 18 8)
  | keySize (h : bytesAt D 26 2 ≠ bytesAt K 26 2)
  /-- The key file stores a hash of its salt. -/
  | hash (h : value (bytesAt K 36 8) ≠
      (H (UInt64.ofNat (value (bytesAt K 28 8))) (littleEndian64 (value (bytesAt K 28 8)))).toNat)

/-- The log of an interrupted `rekey`: it records that there was no key file. -/
def RekeyLog (L : Bytes) : Prop := 62 ≤ L.length ∧ value (bytesAt L 46 8) = 0

end Spec

section
variable {c : Cfg} {σ : Schedule}

private theorem slice_at {f : Bytes} {n o m : Nat} (h : o + m ≤ n) : slice (slice f 0 n) o m = bytesAt f o m := by
  unfold slice bytesAt
  rw [List.drop_zero, List.drop_take, List.take_take]
  congr 1
  omega

theorem le64_reverse (n : Nat) : le64 n = littleEndian64 n := by
  have h : ∀ s k, 2 ^ s = k → octet n s = UInt8.ofNat (n / k) := by
    intro s k h
    apply UInt8.toNat_inj.mp
    rw [octet_toNat, h]; simp
  unfold littleEndian64 le64
  simp only [bigEndian, List.reverse_cons, List.reverse_nil, List.nil_append, List.cons_append]
  rw [h 0 (256 ^ 0) rfl, h 8 (256 ^ 1) rfl, h 16 (256 ^ 2) rfl, h 24 (256 ^ 3) rfl, h 32 (256 ^ 4) rfl,
    h 40 (256 ^ 5) rfl, h 48 (256 ^ 6) rfl, h 56 (256 ^ 7) rfl]

private theorem bytesAt_length {f : Bytes} {o n : Nat} (h : o + n ≤ f.length) : (bytesAt f o n).length = n := by
  simp [bytesAt]; omega

/-- Headers that pass all tests do not belong to foreign files. -/
private theorem not_foreign {D K : Bytes} {n : Nat} (hD : 92 ≤ D.length) (hK : 104 ≤ K.length)
    (h1 : verifyDat (getDatHeader (slice D 0 92)) = .ok ())
    (h2 : verifyKey c.H (getKeyHeader (slice K 0 104) n) = .ok ())
    (h3 : verifyDatKey c.H (getDatHeader (slice D 0 92)) (getKeyHeader (slice K 0 104) n) = .ok ()) :
    ¬ Foreign c.H D K := by
  have v2 : ∀ f : Bytes, ∀ o, o + 2 ≤ f.length → getU16 (bytesAt f o 2) = value (bytesAt f o 2) :=
    fun f o h => C18_u16.reads _ (bytesAt_length h)
  have v8 : ∀ f : Bytes, ∀ o, o + 8 ≤ f.length → getU64 (bytesAt f o 8) = value (bytesAt f o 8) :=
    fun f o h => C18_u64.reads _ (bytesAt_length h)
  have i2 : ∀ x y : Bytes, x.length = 2 → y.length = 2 → getU16 x = getU16 y → x = y := by
    intro x y hx hy h
    rw [← (putU16_getU16 hx).1, ← (putU16_getU16 hy).1, h]
  have i8 : ∀ x y : Bytes, x.length = 8 → y.length = 8 → getU64 x = getU64 y → x = y := by
    intro x y hx hy h
    rw [← (putU64_getU64 hx).1, ← (putU64_getU64 hy).1, h]
  unfold verifyDat at h1
  split at h1
  · cases h1
  split at h1
  · cases h1
  rename_i a1 a2
  unfold verifyDatKey at h3
  rw [h2] at h3
  simp only [bind, Except.bind] at h3
  split at h3
  · cases h3
  split at h3
  · cases h3
  split at h3
  · cases h3
  rename_i b1 b2 b3
  unfold verifyKey at h2
  split at h2
  · cases h2
  split at h2
  · cases h2
  split at h2
  · cases h2
  split at h2
  · cases h2
  rename_i d1 d2 d3 d4
  simp only [Classical.not_not, getDatHeader, getKeyHeader, pepper] at a1 a2 b1 b2 b3 d1 d2 d4
  rw [slice_at (by omega)] at a1 a2 d1 d2
  rw [slice_at (by omega), slice_at (by omega)] at b1 b2 b3 d4
  intro hf
  cases hf with
  | datSignature h => exact h a1
  | datVersion h => exact h (by rw [← v2 _ _ (by omega)]; exact a2)
  | keySignature h => exact h d1
  | keyVersion h => exact h (by rw [← v2 _ _ (by omega)]; exact d2)
  | uid h => exact h (i8 _ _ (bytesAt_length (by omega)) (bytesAt_length (by omega)) b1.symm)
  | appnum h => exact h (i8 _ _ (bytesAt_length (by omega)) (bytesAt_length (by omega)) b2.symm)
  | keySize h => exact h (i2 _ _ (bytesAt_length (by omega)) (bytesAt_length (by omega)) b3.symm)
  | hash h =>
    apply h
    rw [← v8 _ _ (by omega), ← v8 _ _ (by omega), ← le64_reverse]
    exact d4

/-- An error code or death, with data and key file as before. -/
private def Refused (σ : Schedule) (fs₀ : Fs) (x : Exc) (w : World) : Prop :=
  ((x = .crash ∧ Faulty σ) ∨ ∃ e, x = .err e) ∧ w.fs .dat = fs₀ .dat ∧ w.fs .key = fs₀ .key

private theorem refused_io {fs₀ : Fs} {x : Exc} {w : World} (h1 : w.fs .dat = fs₀ .dat) (h2 : w.fs .key = fs₀ .key)
    (hx : IsFault x) (hf : Faulty σ) : Refused σ fs₀ x w :=
  ⟨hx.elim (fun e => .inl ⟨e, hf⟩) (fun e => .inr ⟨_, e⟩), h1, h2⟩

private theorem refused_read {fs₀ : Fs} {p : Path} {f : FileSt} {n : Nat} {w : World} {Q : Bytes → World → Prop} (hp : w.fs p = some f)
    (hn : n ≠ 0)
    (h1 : w.fs .dat = fs₀ .dat) (h2 : w.fs .key = fs₀ .key)
    (hQ : n ≤ f.cur.length → Q (slice f.cur 0 n) (w.tick w.fs)) : wp σ (fRead p 0 n) Q (Refused σ fs₀) w := by
  by_cases h : n ≤ f.cur.length
  · exact wp_fRead hp (by omega) (hQ h) (fun x hx hf => refused_io h1 h2 hx hf)
  · exact wp_fRead_short hp hn (by omega) ⟨.inr ⟨_, rfl⟩, h1, h2⟩ (fun x hx hf => refused_io h1 h2 hx hf)

private theorem refused_check {fs₀ : Fs} {r : Except Err Unit} {w : World} {Q : Unit → World → Prop}
    (h1 : w.fs .dat = fs₀ .dat) (h2 : w.fs .key = fs₀ .key) (hQ : r = .ok () → Q () w) : wp σ (M.check r) Q (Refused σ fs₀) w := by
  cases r with
  | ok a => exact hQ rfl
  | error e => exact ⟨.inr ⟨_, rfl⟩, h1, h2⟩

private theorem refused_clear {fs₀ : Fs} {lf : FileSt} {w : World} (hl : w.fs .log = some lf)
    (h1 : w.fs .dat = fs₀ .dat) (h2 : w.fs .key = fs₀ .key) :
    wp σ clearLog (fun _ w' => w'.fs .dat = fs₀ .dat ∧ w'.fs .key = fs₀ .key) (Refused σ fs₀) w := by
  unfold clearLog
  apply wp_bind
  apply wp_fTrunc hl _ (fun x hx hf => refused_io h1 h2 hx hf)
  apply wp_bind
  apply wp_fSync (f := lf.push (.trunc 0)) (by simp) _
    (fun x hx hf => refused_io (by simpa using h1) (by simpa using h2) hx hf)
  exact wp_fErase (f := (lf.push (.trunc 0)).synced) (by simp) ⟨by simpa using h1, by simpa using h2⟩
    (fun x hx hf => refused_io (by simpa using h1) (by simpa using h2) hx hf)

/-- `recover` on foreign files. -/
private theorem refused_recover {df kf : FileSt} {w : World} (hd : w.fs .dat = some df) (hk : w.fs .key = some kf)
    (hlen : 104 < kf.cur.length) (hfor : Foreign c.H df.cur kf.cur) (hlog : ∀ lf, w.fs .log = some lf → ¬ RekeyLog lf.cur) :
    wp σ (recover c) (fun _ w' => w'.fs .dat = w.fs .dat ∧ w'.fs .key = w.fs .key) (Refused σ w.fs) w := by
  have hX : ∀ (w' : World) (x : Exc), w'.fs = w.fs → IsFault x → Faulty σ → Refused σ w.fs x (w'.tick w'.fs) := by
    intro w' x h hx hf; exact refused_io (by simp [h]) (by simp [h]) hx hf
  unfold recover
  apply wp_bind
  apply wp_fOpen hd _ (fun x hx hf => hX w x rfl hx hf)
  apply wp_bind
  apply wp_fSize (by exact hd) _ (by exact fun x hx hf => hX w x rfl hx hf)
  apply wp_bind
  unfold readDatHeader
  apply wp_bind
  apply refused_read (by exact hd) (by decide) rfl rfl
  intro h92
  apply wp_ret
  apply wp_bind
  apply refused_check rfl rfl
  intro hv
  apply wp_bind
  apply wp_fOpen (by exact hk) _ (by exact fun x hx hf => hX w x rfl hx hf)
  apply wp_bind
  apply wp_fSize (by exact hk) _ (by exact fun x hx hf => hX w x rfl hx hf)
  rw [if_neg (by simp only [keyHeaderSize]; omega)]
  apply wp_bind
  apply wp_attempt
  cases hlg : w.fs .log with
  | none =>
    apply wp_fOpen_none (by exact hlg)
    · apply wp_ret; exact ⟨rfl, rfl⟩
    · intro x hx hf
      rcases hx with rfl | rfl
      · exact ⟨.inl ⟨rfl, hf⟩, rfl, rfl⟩
      · exact wp_fail ⟨.inr ⟨_, rfl⟩, rfl, rfl⟩
  | some lf =>
    apply wp_fOpen (by exact hlg)
    rotate_left
    · intro x hx hf
      rcases hx with rfl | rfl
      · exact ⟨.inl ⟨rfl, hf⟩, rfl, rfl⟩
      · exact wp_fail ⟨.inr ⟨_, rfl⟩, rfl, rfl⟩
    simp only
    apply wp_bind
    apply wp_fSize (by exact hlg) _ (by exact fun x hx hf => hX w x rfl hx hf)
    apply wp_bind
    apply wp_attempt
    unfold readLogHeader
    apply wp_bind
    by_cases h62 : 62 ≤ lf.cur.length
    · apply wp_fRead (by exact hlg) (by simpa [logHeaderSize] using h62)
      rotate_left
      · intro x hx hf
        rcases hx with rfl | rfl
        · exact ⟨.inl ⟨rfl, hf⟩, rfl, rfl⟩
        · exact wp_fail ⟨.inr ⟨_, rfl⟩, rfl, rfl⟩
      apply wp_ret
      simp only
      apply wp_bind
      apply refused_check rfl rfl
      intro hvl
      rw [if_neg (by
        intro h0
        apply hlog lf hlg
        refine ⟨h62, ?_⟩
        simp only [getLogHeader, logHeaderSize] at h0
        rw [slice_at (by omega)] at h0
        rw [← C18_u64.reads _ (bytesAt_length (by omega))]
        exact h0)]
      apply wp_bind
      unfold replayLog
      apply wp_bind
      unfold readKeyHeader
      apply wp_bind
      apply refused_read (by exact hk) (by decide) rfl rfl
      intro h104
      apply wp_bind
      apply wp_fSize (by exact hk) _ (by exact fun x hx hf => hX w x rfl hx hf)
      apply wp_ret
      apply wp_bind
      apply refused_check rfl rfl
      intro hvk
      apply wp_bind
      apply refused_check rfl rfl
      intro hvd
      exact absurd hfor (not_foreign h92 h104 hv hvk hvd)
    · apply wp_fRead_short (by exact hlg) (by decide) (by simp only [logHeaderSize]; omega)
      · simp only
        exact refused_clear (by exact hlg) rfl rfl
      · intro x hx hf
        rcases hx with rfl | rfl
        · exact ⟨.inl ⟨rfl, hf⟩, rfl, rfl⟩
        · exact wp_fail ⟨.inr ⟨_, rfl⟩, rfl, rfl⟩

/-- C26: `open` does not accept foreign files and does not change them, whatever else
happens. Assumed: the key file is longer than a header (a shorter one is taken for the remains of
an interrupted `rekey` and removed), and there is no log of an interrupted `rekey` (for the same
reason); see the theorems below. -/
theorem C26_open_rejects_partial {df kf : FileSt} {w : World} (σ : Schedule) (hd : w.fs .dat = some df) (hk : w.fs .key = some kf)
    (hfor : Foreign c.H df.cur kf.cur)
    (hlen : 104 < kf.cur.length) (hlog : ∀ lf, w.fs .log = some lf → ¬ RekeyLog lf.cur) :
    ∃ x w', openStore c σ w = (.error x, w') ∧ ((x = .crash ∧ Disturbed σ) ∨ ∃ e, x = .err e) ∧
      w'.fs .dat = w.fs .dat ∧ w'.fs .key = w.fs .key := by
  have key : wp σ (openStore c) (fun _ _ => False) (Refused σ w.fs) w := by
    unfold openStore
    apply wp_bind
    refine wp_post (refused_recover hd hk hlen hfor hlog) ?_
    rintro _ w1 ⟨h1, h2⟩
    have hX : ∀ (w' : World) (x : Exc), w'.fs .dat = w.fs .dat → w'.fs .key = w.fs .key → IsFault x → Faulty σ →
        Refused σ w.fs x (w'.tick w'.fs) := by
      intro w' x h h' hx hf; exact refused_io (by simp [h]) (by simp [h']) hx hf
    apply wp_bind
    apply wp_fOpen (by rw [h1]; exact hd) _ (fun x hx hf => hX w1 x h1 h2 hx hf)
    apply wp_bind
    apply wp_fOpen (by rw [tick_fs, h2]; exact hk) _ (by exact fun x hx hf => hX w1 x h1 h2 hx hf)
    apply wp_bind
    simp only [tick_fs]
    have hcr : wp σ (fCreate .log) (fun _ w' => w'.fs .dat = w.fs .dat ∧ w'.fs .key = w.fs .key)
        (Refused σ w.fs) ((w1.tick w1.fs).tick w1.fs) := by
      cases hl : w1.fs .log with
      | none =>
        apply wp_fCreate (by exact hl)
        · exact ⟨by simpa using h1, by simpa using h2⟩
        · intro x hx hf
          exact ⟨refused_io h1 h2 hx hf, refused_io (by simpa using h1) (by simpa using h2) hx hf⟩
      | some f =>
        apply wp_fCreate_some (by exact hl)
        · exact ⟨.inr ⟨_, rfl⟩, h1, h2⟩
        · intro x hx hf; exact refused_io h1 h2 hx hf
    refine wp_post hcr ?_
    rintro _ w2 ⟨h3, h4⟩
    apply wp_bind
    unfold readDatHeader
    apply wp_bind
    apply refused_read (by rw [h3]; exact hd) (by decide) (by exact h3) (by exact h4)
    intro h92
    apply wp_ret
    apply wp_bind
    apply refused_check (by exact h3) (by exact h4)
    intro hv
    apply wp_bind
    unfold readKeyHeader
    apply wp_bind
    apply refused_read (by rw [tick_fs, h4]; exact hk) (by decide) (by exact h3) (by exact h4)
    intro h104
    apply wp_bind
    apply wp_fSize (by simp only [tick_fs]; rw [h4]; exact hk) _ (by exact fun x hx hf => hX w2 x h3 h4 hx hf)
    apply wp_ret
    apply wp_bind
    apply refused_check (by exact h3) (by exact h4)
    intro hvk
    apply wp_bind
    apply refused_check (by exact h3) (by exact h4)
    intro hvd
    exact absurd hfor (not_foreign h92 h104 hv hvk hvd)
  unfold wp at key
  split at key
  · exact key.elim
  · rename_i x w' e
    exact ⟨x, w', e, key.1, key.2⟩

end

/-- The files of a new database. -/
def newFiles (a : CreateArgs) : Fs := (create demoCfg true a calm ⟨fun _ => none, 0, []⟩).2.fs

/-- Error of `open` on given files, and whether data and key file are left as they were. -/
def openVerdict (fs : Fs) : Option Exc × Bool :=
  let r := openStore demoCfg calm ⟨fs, 0, []⟩
  (match r.1 with | .ok _ => none | .error x => some x, r.2.fs .dat = fs .dat && r.2.fs .key = fs .key)

/-- The key file of another database. -/
def mixedFiles : Fs := fun p => if p = .key then newFiles { demoArgs with uid := 12 } .key else newFiles demoArgs p

/-- The premises of C26 hold for `mixedFiles`, where log file and hash function are in order. -/
example : openVerdict mixedFiles = (some (.err .uid_mismatch), true) ∧
    (∃ df kf, mixedFiles .dat = some df ∧ mixedFiles .key = some kf ∧ Foreign demoCfg.H df.cur kf.cur ∧ 104 < kf.cur.length ∧
      ∀ lf, mixedFiles .log = some lf → ¬ RekeyLog lf.cur) := by
  have h : (match mixedFiles .dat, mixedFiles .key, mixedFiles .log with
      | some df, some kf, some lf => bytesAt df.cur 10 8 ≠ bytesAt kf.cur 10 8 && 104 < kf.cur.length && lf.cur.length < 62
      | _, _, _ => false) = true := by decide +kernel
  refine ⟨by decide +kernel, ?_⟩
  split at h
  · rename_i df kf lf e1 e2 e3
    simp only [Bool.and_eq_true, decide_eq_true_eq] at h
    refine ⟨df, kf, e1, e2, .uid h.1.1, h.1.2, ?_⟩
    intro lf' h'
    rw [e3] at h'
    cases h'
    rintro ⟨h1, _⟩
    omega
  · cases h

/-- A key file shorter than a header is removed by `open`. -/
theorem C26_short_key_file : openVerdict (fun p => if p = .key then some (FileSt.clean [1, 2, 3]) else newFiles demoArgs p) =
    (some (.err .no_key_file), false) := by decide +kernel

/-- Log header of an interrupted `rekey` of the demonstration database. -/
def demoRekeyLog : LogHeader where
  type := logType
  version := 2
  uid := 11
  appnum := 7
  keySize := 2
  salt := 13
  pepper := pepper demoCfg.H 13
  blockSize := 104
  keyFileSize := 0
  datFileSize := 92

/-- The full claim of C26 is false: with the log of an interrupted `rekey` (of the same
application) the key file of another application is removed. -/
theorem C26_rekey_log : openVerdict (fun p => match p with
    | .dat => newFiles demoArgs .dat
    | .key => some (FileSt.clean (List.replicate 500 7))
    | .log => some (FileSt.clean (putLogHeader demoRekeyLog))) = (some (.err .no_such_file), false) := by decide +kernel

end NuDB
