import Verif.Spec.Damage
import Verif.Proof.Damage9
import Verif.Props.Demo
/-
C62: damaged files cannot make the store or `rekey` misuse memory.
C63: the same for `verify`, where it is false.
-/
namespace NuDB

open Spec

section
variable {σ : Schedule} {c : Cfg} {w : World}

theorem Mannered.of {P : Fs → Prop} {x : Exc} {w : World} (h : Tame σ P x w) : Mannered σ x w := ⟨h.1, h.2.1, h.2.2.1⟩

theorem dperform {op : Op} {so : Option Store} (h : ∀ s, so = some s → Kept' s w.fs) (ho : op = .open → Openable w.fs) :
    wp σ (perform c op so) (fun x w' => ∀ s, x.1 = some s → Kept' s w'.fs) (Mannered σ) w := by
  cases so with
  | none =>
    cases op with
    | «open» =>
      unfold perform
      apply wp_bind
      apply wp_attempt
      refine wp_conseq (dopen (ho rfl)) ?_ ?_
      · intro s w1 h1
        exact wp_ret (fun s' e => by cases e; exact h1)
      · intro x w1 hx
        cases x with
        | err e => exact wp_ret (fun s' e => by cases e)
        | _ => exact hx
    | _ => exact ⟨(fun h => by cases h), (fun h => by cases h), (fun h => by cases h)⟩
  | some s =>
    have hs := h s rfl
    cases op with
    | insert k v =>
      unfold perform
      apply wp_bind
      apply wp_attempt
      refine wp_conseq (dinsert hs) ?_ ?_
      · intro s' w1 ⟨_, h1⟩
        exact wp_ret (fun s' e => by cases e; exact h1)
      · intro x w1 hx
        cases x with
        | err e => exact wp_ret (fun s' e => by cases e; rw [hx.2.2.2]; exact hs)
        | _ => exact Mannered.of hx
    | fetch k =>
      unfold perform
      apply wp_bind
      apply wp_attempt
      refine wp_conseq (dfetch hs) ?_ ?_
      · intro v w1 h1
        exact wp_ret (fun s' e => by cases e; rw [h1]; exact hs)
      · intro x w1 hx
        cases x with
        | err e => exact wp_ret (fun s' e => by cases e; rw [hx.2.2.2]; exact hs)
        | _ => exact Mannered.of hx
    | flush =>
      unfold perform
      apply wp_bind
      refine wp_post (dflushStore hs) ?_
      intro s' w1 h1
      split <;> exact wp_ret (fun s' e => by cases e; exact h1)
    | close =>
      unfold perform
      apply wp_bind
      refine wp_post (dclose hs) ?_
      intro r w1 _
      split <;> exact wp_ret (fun s' e => by cases e)
    | «open» => exact ⟨(fun h => by cases h), (fun h => by cases h), (fun h => by cases h)⟩

theorem Abused.kept {so : Option Store} {fs : Fs} (h : Abused c so fs) : ∀ s, so = some s → Kept' s fs := by
  induction h with
  | closed => intro s e; cases e
  | @call so so' op ret σ w w' h ho hr ih =>
    have := dperform (σ := σ) (c := c) ih ho
    unfold wp at this
    rw [hr] at this
    exact this
  | @damage so fs p h hp f ih =>
    intro s e
    have k := ih s e
    refine ⟨k.cap, k.buckets, k.modulus, k.files.set _ _, fun he => ⟨(k.calm he).1, ?_⟩⟩
    obtain ⟨f', h1, h2⟩ := (k.calm he).2
    refine ⟨f', ?_, h2⟩
    rcases hp with rfl | rfl <;> simpa using h1

theorem Mannered.result {α : Type} {m : M α} {Q : α → World → Prop} (h : wp σ m Q (Mannered σ) w) :
    (m σ w).1 ≠ .error .ub ∧ (m σ w).1 ≠ .error .throw ∧ ((m σ w).1 = .error .crash → Disturbed σ) := by
  unfold wp at h
  rcases hr : m σ w with ⟨a | a, w'⟩
  · rw [hr] at h
    refine ⟨fun e => ?_, fun e => ?_, fun e => ?_⟩
    · cases e; exact h.1 rfl
    · cases e; exact h.2.1 rfl
    · cases e
      exact h.2.2 rfl
  · exact ⟨(fun e => by cases e), (fun e => by cases e), (fun e => by cases e)⟩

theorem ub_result {α : Type} {m : M α} (h : wp calm m (fun _ _ => False) (fun x _ => x = .ub) w) : (m calm w).1 = .error .ub := by
  unfold wp at h
  rcases hr : m calm w with ⟨a | a, w'⟩
  · rw [hr] at h
    cases h
    rfl
  · rw [hr] at h
    exact h.elim

theorem bytesOf_some {fs : Fs} {p : Path} {x : Bytes} (h : bytesOf fs p = some x) : ∃ f, fs p = some f ∧ f.cur = x := by
  unfold bytesOf at h
  cases hf : fs p with
  | none => rw [hf] at h; cases h
  | some f => rw [hf] at h; exact ⟨f, rfl, by simpa using h⟩

/-- **C62.** Whatever bytes the data file and the key file hold when a store is opened, whether or not there is a log
to recover from, and whatever somebody puts there while it is open: no call reads or writes outside the memory the store owns (`.ub`) or ends by the exception of
an exhausted stream (`.throw`), with arbitrary faults of the file system, too. A call returns a result or an error,
fails an assertion, does not end, or the process is killed from outside. -/
theorem C62_session {op : Op} {so : Option Store} (h : Abused c so w.fs) (ho : op = .open → Openable w.fs) :
    (perform c op so σ w).1 ≠ .error .ub ∧ (perform c op so σ w).1 ≠ .error .throw ∧
    ((perform c op so σ w).1 = .error .crash → Disturbed σ) :=
  Mannered.result (dperform (σ := σ) (c := c) (Abused.kept h) ho)

/-- **C62**, `rekey`. The same for `rekey` and data files with any content. -/
theorem C62_rekey {a : RekeyArgs} {num : Int} {den : Nat} (hb : 104 ≤ a.blockSize) (hl : a.load = .rat num den)
    (h0 : 0 < num) (h1 : num < den) :
    (rekey c a σ w).1 ≠ .error .ub ∧ (rekey c a σ w).1 ≠ .error .throw ∧ ((rekey c a σ w).1 = .error .crash → Disturbed σ) := by
  have hf : a.load.fixed = .ok (min (65536 * num.toNat / den) 65535) := by
    rw [hl]
    unfold Load.fixed
    dsimp only
    rw [if_neg (by omega)]
  exact Mannered.result (drekey hb ⟨_, hf⟩)

/-- **C63**, partial. `verify` stays within its memory if the counts of buckets and overflow records are not greater
than there is room for; otherwise it need not (see below). -/
theorem C63_verify_partial {n : Nat} {D K : Bytes} (hD : bytesOf w.fs .dat = some D) (hK : bytesOf w.fs .key = some K)
    (h : CountsFit D K) :
    (verify c n σ w).1 ≠ .error .ub ∧ (verify c n σ w).1 ≠ .error .throw ∧ ((verify c n σ w).1 = .error .crash → Disturbed σ) :=
  Mannered.result (dverify hD hK h)

/-- **C63** fails for `verify` with little memory: the entries of an overflow record with a great count are copied behind the
memory of the bucket. Here the data file has such a record after the header. -/
theorem C63_normal_violation {D K : Bytes} (hD : bytesOf w.fs .dat = some D) (hK : bytesOf w.fs .key = some K)
    (hh : Headed c.H D K) (h0 : value (bytesAt D 92 6) = 0) (h1 : value (bytesAt D 98 2) = 8 + 18 * roomOf K)
    (h2 : blockSizeOf K + 6 + keySizeOf K < 8 + 18 * value (bytesAt D 100 2))
    (h3 : 108 + 18 * value (bytesAt D 100 2) ≤ D.length) :
    (verify c 0 calm w).1 = .error .ub := by
  obtain ⟨df, hd, rfl⟩ := bytesOf_some hD
  obtain ⟨kf, hk, rfl⟩ := bytesOf_some hK
  have H := hh.heads
  generalize getKeyHeader (slice kf.cur 0 104) kf.cur.length = kh at H
  have hroom : roomOf kf.cur = bucketCapacity kh.blockSize := by rw [H.blockSize]; exact (roomOf_eq hh.block).symm
  refine ub_result (calm_verify (Q := fun _ _ => False) (X := fun x _ => x = .ub) hd hk H ?_)
  intro w' e
  rw [if_pos]
  · exact cverifyNormal (cap_pos H.h104) H.capacity (by rw [e]; exact hd) h0 (by rw [h1, hroom]) (by rw [H.blockSize, H.keySize]; exact h2) h3
  · unfold chooseNormal
    have : fastChunk kh 0 = 0 := by
      unfold fastChunk
      rw [if_neg (by omega)]
    simp [this]

/-- **C63** fails for `verify` with more memory: the binary search in a bucket with a great count reads behind the buffer.
Here the key file has one bucket without overflow records, and the data file has a value after the header. -/
theorem C63_fast_violation {D K : Bytes} {n : Nat} (hD : bytesOf w.fs .dat = some D) (hK : bytesOf w.fs .key = some K)
    (hh : Headed c.H D K) (h1 : K.length < 3 * blockSizeOf K) (hd : D.length < 2 ^ 63) (hn : 2 * blockSizeOf K + 8 ≤ n)
    (h2 : 1 ≤ value (bytesAt D 92 6)) (h3 : value (bytesAt D 92 6) < 2 ^ 32)
    (h4 : 98 + keySizeOf K + value (bytesAt D 92 6) ≤ D.length)
    (h5 : value (bytesAt K (blockSizeOf K + 2) 6) = 0)
    (h6 : 2 * blockSizeOf K < 26 + 18 * (value (bytesAt K (blockSizeOf K) 2) / 2)) :
    (verify c n calm w).1 = .error .ub := by
  obtain ⟨df, hd', rfl⟩ := bytesOf_some hD
  obtain ⟨kf, hk, rfl⟩ := bytesOf_some hK
  have H := hh.heads
  generalize getKeyHeader (slice kf.cur 0 104) kf.cur.length = kh at H
  have h104 := H.h104
  have hkl := hh.klen
  have hb : kh.buckets = 1 := by
    rw [H.buckets]
    unfold bucketsOf
    have e1 := hh.block
    have : kf.cur.length / blockSizeOf kf.cur = 2 := by
      apply Nat.le_antisymm
      · exact Nat.le_of_lt_succ ((Nat.div_lt_iff_lt_mul (by omega)).mpr h1)
      · exact (Nat.le_div_iff_mul_le (by omega)).mpr hkl
    omega
  have hm : kh.modulus = 1 := by rw [H.modulus, hb]; decide
  rw [← H.blockSize] at hkl hn h5 h6 h1
  rw [← H.keySize] at h4
  refine ub_result (calm_verify (Q := fun _ _ => False) (X := fun x _ => x = .ub) hd' hk H ?_)
  intro w' e
  rw [if_neg]
  · exact cverifyFast h104 (by rw [e]; exact hd') (by rw [e]; exact hk) hkl hb hm hn rfl h2 h3 h4 h5 h6
  · have hch : fastChunk kh n = 1 := by
      unfold fastChunk
      rw [if_pos (by omega), hb]
      have : 1 ≤ (n - kh.blockSize) / (kh.blockSize + 8) := (Nat.le_div_iff_mul_le (by omega)).mpr (by omega)
      omega
    have hbs := H.bs16
    have hlf : kh.loadFactor < 2 ^ 16 := by
      rw [H.head]
      exact getU16_lt (by rw [head_slice (by omega)]; exact bytesAt_len (by have := H.klen; omega))
    have hcap : kh.capacity < 2 ^ 16 := by
      have := (cap_room (cap_pos h104)).2
      rw [H.capacity]
      omega
    have hp : kh.buckets * kh.loadFactor * kh.capacity * kh.blockSize ≤ 1 * 2 ^ 16 * 2 ^ 16 * 2 ^ 16 := by
      rw [hb]
      exact Nat.mul_le_mul (Nat.mul_le_mul (Nat.mul_le_mul (Nat.le_refl _) (by omega)) (by omega)) (by omega)
    unfold chooseNormal fastPasses
    simp only [hch, Bool.or_eq_true, decide_eq_true_eq]
    rw [if_pos (by omega), hb]
    rw [hb] at hp
    generalize 1 * kh.loadFactor * kh.capacity * kh.blockSize = x at hp
    rw [show (1 + 1 - 1) / 1 = 1 from rfl, Nat.one_mul, Nat.mod_eq_of_lt (by omega), Nat.mod_eq_of_lt (by omega)]
    omega

/-- A lookup in a bucket that refers to an empty overflow record that refers to itself never ends: no number of rounds
is sufficient. -/
theorem C62_endless {D : Bytes} {kh : KeyHeader} {o : Nat} (hD : bytesOf w.fs .dat = some D) (hb : 104 ≤ kh.blockSize)
    (h0 : o ≠ 0) (h1 : value (bytesAt D o 2) = 0) (h2 : value (bytesAt D (o + 2) 6) = o) (h3 : o + kh.blockSize ≤ D.length)
    (hash : Nat) (key : Bytes) (rounds : Nat) {b : Bkt} (hs : b.size = 0) (hl : b.spill = o) :
    (fetchBucket c kh hash key rounds b calm w).1 = .error .hang := by
  obtain ⟨f, hf, rfl⟩ := bytesOf_some hD
  have h8 := cap_room (cap_pos hb)
  suffices h : wp calm (fetchBucket c kh hash key rounds b) (fun _ _ => False) (fun x _ => x = .hang) w by
    unfold wp at h
    rcases hr : fetchBucket c kh hash key rounds b calm w with ⟨a | a, w'⟩
    · rw [hr] at h
      cases h
      rfl
    · rw [hr] at h
      exact h.elim
  clear hD
  induction rounds generalizing b w with
  | zero => exact wp_raise rfl
  | succ n ih =>
    unfold fetchBucket
    apply wp_bind
    refine wp_lift_ok (a := 0) ?_ ?_
    · unfold Bkt.lowerBound Bkt.lbLoop
      rw [hs]
      rfl
    apply wp_bind
    unfold fetchScan
    rw [if_neg (by omega)]
    apply wp_ret
    dsimp only
    rw [if_neg (by omega)]
    apply wp_bind
    have hl' : (c.fresh kh.blockSize).length = kh.blockSize := fresh_length _ _
    have hof : ∀ p : Bytes, 8 ≤ p.length → Bkt.ofMem kh.blockSize p = .ok ⟨kh.blockSize, getU16 (slice p 0 2), getU48 (slice p 2 6), p⟩ := by
      intro p hp
      unfold Bkt.ofMem
      rw [peek_ok (by omega)]
      show (peek _ 2 6 >>= _) = _
      rw [peek_ok (by omega)]
      rfl
    refine wp_lift_ok (hof _ (by omega)) ?_
    apply wp_bind
    unfold Bkt.readFile
    have hbs : bucketSize (bucketCapacity kh.blockSize) = 8 + 18 * bucketCapacity kh.blockSize := by unfold bucketSize; omega
    have hsl : (slice f.cur b.spill (bucketSize (bucketCapacity kh.blockSize))).length = 8 + 18 * bucketCapacity kh.blockSize := by
      rw [slice_length_of_le (by omega), hbs]
    dsimp only
    apply wp_bind
    refine wp_fRead (f := f) hf (by omega) ?_ (fun x hx h => (not_faulty_calm h).elim)
    apply wp_bind
    refine wp_lift_ok (poke_ok (by omega)) ?_
    apply wp_bind
    have hpl : (put (c.fresh kh.blockSize) 0 (slice f.cur b.spill (bucketSize (bucketCapacity kh.blockSize)))).length = kh.blockSize := by
      rw [put_length (by omega), hl']
    refine wp_lift_ok (hof _ (by omega)) ?_
    have g : ∀ i m, i + m ≤ 8 → slice (put (c.fresh kh.blockSize) 0 (slice f.cur b.spill (bucketSize (bucketCapacity kh.blockSize)))) i m =
        bytesAt f.cur (o + i) m := by
      intro i m him
      have : slice (slice f.cur b.spill (bucketSize (bucketCapacity kh.blockSize))) i m = bytesAt f.cur (b.spill + i) m :=
        slice_slice (by omega)
      rw [← hl, ← this]
      unfold put
      rw [List.take_zero, List.nil_append]
      generalize slice f.cur b.spill (bucketSize (bucketCapacity kh.blockSize)) = y at hsl
      unfold slice
      rw [List.drop_append_of_le_length (by omega), List.take_append_of_le_length (by rw [List.length_drop]; omega)]
    have g1 : getU16 (slice (put (c.fresh kh.blockSize) 0 (slice f.cur b.spill (bucketSize (bucketCapacity kh.blockSize)))) 0 2) = 0 := by
      rw [g 0 2 (by omega), C18_u16.reads _ (bytesAt_len (by omega))]
      exact h1
    have g2 : getU48 (slice (put (c.fresh kh.blockSize) 0 (slice f.cur b.spill (bucketSize (bucketCapacity kh.blockSize)))) 2 6) = o := by
      rw [g 2 6 (by omega), C18_u48.reads _ (bytesAt_len (by omega))]
      exact h2
    rw [if_neg (by dsimp only; omega)]
    apply wp_ret
    exact ih (by exact g1) (by exact g2) (by exact hf)

end

/-- Files of a database with one bucket of 104 bytes: its count, its link, and what follows the header of the data file. -/
def oddKey (count link : Nat) : Bytes :=
  putKeyHeader ((demoArgs.conf 32768).kh demoCfg.H 1) ++ putU16 count ++ putU48 link ++ zeros 96

def oddDat (rest : Bytes) : Bytes := putDatHeader (demoArgs.conf 32768).dh ++ rest

def oddFs (D K : Bytes) : Fs
  | .dat => some (FileSt.clean D)
  | .key => some (FileSt.clean K)
  | .log => none

/-- An open store, and garbage in its data file. -/
example : ∃ s fs, Abused demoCfg (some s) fs ∧ s.ec = none ∧ bytesOf fs .dat = some [1, 2, 3] := by
  have h : (match perform demoCfg .open none calm ⟨oddFs (oddDat []) (oddKey 500 77), 0, []⟩ with
      | (.ok (some s, _), _) => s.ec == none
      | _ => false) = true := by decide +kernel
  split at h
  · rename_i s r w e
    refine ⟨s, w.fs.set .dat (some (FileSt.clean [1, 2, 3])), .damage (.call (.closed _) ?_ e) (.inl rfl) _, by simpa using h, rfl⟩
    intro _
    refine ⟨fun K hK => ?_, fun K L _ hL => by cases hL⟩
    have : oddKey 500 77 = K := Option.some.inj hK
    have hl : (oddKey 500 77).length = 208 := by decide +kernel
    rw [← this, hl]
    decide
  · cases h

/-- Files with a log that has one record with two items, then bytes that are no record. -/
example : Openable ((oddFs [1, 2, 3] (oddKey 500 77)).set .log (some (FileSt.clean
    (zeros 62 ++ (zeros 8 ++ (putU16 2 ++ putU48 9 ++ zeros 36)) ++ [4, 5])))) := by
  refine ⟨fun K hK => ?_, fun K L hK hL => ?_⟩
  · have : oddKey 500 77 = K := Option.some.inj hK
    have hl : (oddKey 500 77).length = 208 := by decide +kernel
    rw [← this, hl]
    decide
  · have hk : oddKey 500 77 = K := Option.some.inj hK
    have hl : zeros 62 ++ (zeros 8 ++ (putU16 2 ++ putU48 9 ++ zeros 36)) ++ [4, 5] = L := Option.some.inj hL
    rw [← hk, ← hl]
    exact .record (n := 0) (body := putU16 2 ++ putU48 9 ++ zeros 36) (rest := [4, 5]) (by decide +kernel) (by decide +kernel)
      (.stop (by decide +kernel))

/-- A lookup that does not end. -/
example : (match perform demoCfg .open none calm
      ⟨oddFs (oddDat (zeros 8 ++ putU16 0 ++ putU48 100 ++ zeros 96)) (oddKey 0 100), 0, []⟩ with
    | (.ok (some s, _), w) => (perform demoCfg (.fetch [1, 2]) (some s) calm w).1 = .error .hang
    | _ => False) := by
  have h : (match perform demoCfg .open none calm
      ⟨oddFs (oddDat (zeros 8 ++ putU16 0 ++ putU48 100 ++ zeros 96)) (oddKey 0 100), 0, []⟩ with
    | (.ok (some s, _), w) => (match (perform demoCfg (.fetch [1, 2]) (some s) calm w).1 with | .error .hang => true | _ => false)
    | _ => false) = true := by decide +kernel
  split at h
  · split at h
    · assumption
    · cases h
  · cases h

example : ∃ D : Bytes, value (bytesAt D 100 2) = 0 ∧ value (bytesAt D (100 + 2) 6) = 100 ∧ 100 + 104 ≤ D.length :=
  ⟨oddDat (zeros 8 ++ putU16 0 ++ putU48 100 ++ zeros 96), by decide +kernel, by decide +kernel, by decide +kernel⟩

theorem odd_headed {D K : Bytes} (hd : D.take 92 = putDatHeader (demoArgs.conf 32768).dh)
    (hk : K.take 104 = putKeyHeader ((demoArgs.conf 32768).kh demoCfg.H 1)) (hl : K.length = 208) : Headed demoCfg.H D K := by
  have d : ∀ o n, o + n ≤ 92 → bytesAt D o n = bytesAt (putDatHeader (demoArgs.conf 32768).dh) o n := by
    intro o n h
    rw [← hd]
    unfold bytesAt
    rw [List.drop_take, List.take_take, Nat.min_eq_left (by omega)]
  have k : ∀ o n, o + n ≤ 104 → bytesAt K o n = bytesAt (putKeyHeader ((demoArgs.conf 32768).kh demoCfg.H 1)) o n := by
    intro o n h
    rw [← hk]
    unfold bytesAt
    rw [List.drop_take, List.take_take, Nat.min_eq_left (by omega)]
  have hdl : 92 ≤ D.length := by
    have := congrArg List.length hd
    rw [List.length_take, show (putDatHeader (demoArgs.conf 32768).dh).length = 92 from rfl] at this
    omega
  refine ⟨hdl, ?_, ?_, ?_, ?_, ?_, ?_, ?_, ?_, ?_, ?_⟩
  · rw [d _ _ (by omega)]; decide +kernel
  · rw [d _ _ (by omega)]; decide +kernel
  · unfold blockSizeOf; rw [k _ _ (by omega), hl]; decide +kernel
  · rw [k _ _ (by omega)]; decide +kernel
  · rw [k _ _ (by omega)]; decide +kernel
  · unfold keySizeOf; rw [k _ _ (by omega)]; decide +kernel
  · unfold blockSizeOf; rw [k _ _ (by omega)]; decide +kernel
  · unfold loadFactorOf; rw [k _ _ (by omega)]; decide +kernel
  · unfold saltOf; rw [k _ _ (by omega), k _ _ (by omega)]; decide +kernel
  · rw [k _ _ (by omega), d _ _ (by omega)]; decide +kernel

/-- Files as in `C63_normal_violation`: an overflow record with 200 entries. -/
example : ∃ D K : Bytes, Headed demoCfg.H D K ∧ value (bytesAt D 92 6) = 0 ∧ value (bytesAt D 98 2) = 8 + 18 * roomOf K ∧
    blockSizeOf K + 6 + keySizeOf K < 8 + 18 * value (bytesAt D 100 2) ∧ 108 + 18 * value (bytesAt D 100 2) ≤ D.length :=
  ⟨oddDat (putU48 0 ++ putU16 98 ++ putU16 200 ++ putU48 0 ++ zeros 3600), oddKey 0 0,
    odd_headed (by decide +kernel) (by decide +kernel) (by decide +kernel), by decide +kernel, by decide +kernel, by decide +kernel,
    by decide +kernel⟩

/-- Files as in `C63_fast_violation`: a bucket with 1000 entries. -/
example : ∃ D K : Bytes, Headed demoCfg.H D K ∧ K.length < 3 * blockSizeOf K ∧ D.length < 2 ^ 63 ∧ 2 * blockSizeOf K + 8 ≤ 216 ∧
    1 ≤ value (bytesAt D 92 6) ∧ value (bytesAt D 92 6) < 2 ^ 32 ∧ 98 + keySizeOf K + value (bytesAt D 92 6) ≤ D.length ∧
    value (bytesAt K (blockSizeOf K + 2) 6) = 0 ∧ 2 * blockSizeOf K < 26 + 18 * (value (bytesAt K (blockSizeOf K) 2) / 2) :=
  ⟨oddDat [0, 0, 0, 0, 0, 1, 7, 7, 7], oddKey 1000 0,
    odd_headed (by decide +kernel) (by decide +kernel) (by decide +kernel), by decide +kernel, by decide +kernel, by decide +kernel,
    by decide +kernel, by decide +kernel, by decide +kernel, by decide +kernel, by decide +kernel⟩

/-- Files with counts as required by `C63_verify_partial`. Neither the link of the bucket nor the entries of the overflow
record refer to anything. -/
example : Headed demoCfg.H (oddDat (putU48 0 ++ putU16 98 ++ putU16 5 ++ zeros 96)) (oddKey 5 12345) ∧
    CountsFit (oddDat (putU48 0 ++ putU16 98 ++ putU16 5 ++ zeros 96)) (oddKey 5 12345) := by
  have hbs : blockSizeOf (oddKey 5 12345) = 104 := by decide +kernel
  have hroom : roomOf (oddKey 5 12345) = 5 := by decide +kernel
  have hB : bucketsOf (oddKey 5 12345) = 1 := by decide +kernel
  have hL : (oddDat (putU48 0 ++ putU16 98 ++ putU16 5 ++ zeros 96)).length = 198 := by decide +kernel
  have h1 : value (bytesAt (oddDat (putU48 0 ++ putU16 98 ++ putU16 5 ++ zeros 96)) 92 6) = 0 := by decide +kernel
  have h2 : value (bytesAt (oddDat (putU48 0 ++ putU16 98 ++ putU16 5 ++ zeros 96)) (92 + 8) 2) = 5 := by decide +kernel
  refine ⟨odd_headed (by decide +kernel) (by decide +kernel) (by decide +kernel), ?_, ?_⟩
  · intro o ho h0 hs
    clear h0
    rw [hroom] at hs ⊢
    generalize oddDat (putU48 0 ++ putU16 98 ++ putU16 5 ++ zeros 96) = D at *
    have key : o = 92 ∨ 198 ≤ o := by
      clear hs
      induction ho with
      | first => exact .inl rfl
      | value h hn ih => rcases ih with rfl | ih <;> omega
      | overflow h hn ih => rcases ih with rfl | ih <;> omega
    rcases key with rfl | key
    · omega
    · have : bytesAt D (o + 6) 2 = [] := by
        unfold bytesAt
        rw [List.drop_of_length_le (by omega)]
        rfl
      rw [this] at hs
      cases hs
  · intro n hn
    rw [hB] at hn
    obtain rfl : n = 0 := by omega
    rw [hroom, hbs]
    decide +kernel

end NuDB
