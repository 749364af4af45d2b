import Verif.Proof.Session
/- `create`. -/
namespace NuDB

open Spec

/-- The configuration `create` establishes. -/
def CreateArgs.conf (a : CreateArgs) (lf : Nat) : Conf :=
  { uid := a.uid, appnum := a.appnum, keySize := a.keySize, salt := a.salt, blockSize := a.blockSize,
    loadFactor := lf }

/-- Bytes of a new key file. -/
def newKey (H : Hasher) (cf : Conf) : Bytes :=
  putKeyHeader (cf.kh H 1) ++ zeros (cf.blockSize - 104) ++ zeros cf.blockSize

section
variable {c : Cfg} {cf : Conf} {σ : Schedule}

theorem newKey_length (h : cf.Ok) : (newKey c.H cf).length = 2 * cf.blockSize := by
  have := h.bs1
  have e : (putKeyHeader (cf.kh c.H 1)).length = 104 := rfl
  simp only [newKey, List.length_append, e, zeros_length]
  omega

theorem encBlock_empty {bs : Nat} (h : 8 ≤ bs) : encBlock bs [] 0 = zeros bs := by
  have e : encBkt [] 0 = zeros 8 := by decide
  rw [encBlock, e, List.length_nil, ← zeros_add]
  congr 1
  simp [bucketSize]; omega

theorem db_new (h : cf.Ok) : Db c cf (putDatHeader cf.dh) (newKey c.H cf) [] 1 (fun _ => ([], 0)) := by
  have h104 := h.bs1
  refine ⟨h, ⟨by simp, by simp, by simp [pairsOf]⟩, by simp, by omega, by omega, ⟨?_, ?_, ?_⟩, ?_⟩
  · rw [newKey_length h]
  · rw [newKey, List.append_assoc]; exact List.take_left' rfl
  · intro n hn
    have : n = 0 := by omega
    subst this
    rw [encBlock_empty (by omega), newKey]
    have e : (putKeyHeader (cf.kh c.H 1) ++ zeros (cf.blockSize - 104)).length = cf.blockSize := by
      have e : (putKeyHeader (cf.kh c.H 1)).length = 104 := rfl
      simp only [List.length_append, e, zeros_length]; omega
    have := slice_mid' (x := putKeyHeader (cf.kh c.H 1) ++ zeros (cf.blockSize - 104))
      (y := zeros cf.blockSize) (z := []) (o := (0 + 1) * cf.blockSize) (n := cf.blockSize) (by rw [e]; omega) (by simp)
    simpa using this
  · intro n hn
    simpa [items, itemsOf] using bucketOk_empty _ cf.cap

theorem wp_eraseQuiet {p : Path} {w : World} {Q : Unit → World → Prop} {X : Exc → World → Prop}
    (hQ : ∀ w', Q () w') (hX : ∀ w', Faulty σ → X .crash w') : wp σ (eraseQuiet p) Q X w := by
  unfold eraseQuiet
  apply wp_bind
  apply wp_attempt
  cases h : w.fs p with
  | none =>
    apply wp_fErase_none h
    · exact wp_ret (hQ _)
    · intro x hx hf
      rcases hx with rfl | rfl
      · exact hX _ hf
      · exact wp_ret (hQ _)
  | some f =>
    apply wp_fErase h
    · exact wp_ret (hQ _)
    · intro x hx hf
      rcases hx with rfl | rfl
      · exact hX _ hf
      · exact wp_ret (hQ _)

theorem keyHeaderBlock_ok (h : cf.Ok) {kh : KeyHeader} (hb : kh.blockSize = cf.blockSize) :
    keyHeaderBlock kh = .ok (putKeyHeader kh ++ zeros (cf.blockSize - 104)) := by
  have h1 := h.bs1
  have e : (putKeyHeader kh).length = 104 := rfl
  unfold keyHeaderBlock poke
  rw [if_pos (by rw [e, hb, zeros_length]; omega), hb]
  simp only [put, List.take_zero, List.nil_append, e]
  congr 2
  simp [zeros]

theorem padded_empty {bs : Nat} (h : 8 ≤ bs) (h2 : bs < 2 ^ 16) :
    (⟨bs, 0, 0, zeros bs⟩ : Bkt).padded = .ok (zeros bs) := by
  have r : Rep ⟨bs, 0, 0, zeros bs⟩ [] 0 := by
    refine ⟨rfl, rfl, ⟨zeros (bs - 8), ?_⟩, by simp, h2, by simp, by decide⟩
    have e : encBkt [] 0 = zeros 8 := by decide
    rw [e, ← zeros_add]; simp only; congr 1; omega
  rw [r.padded]
  congr 1
  exact encBlock_empty h

/-- `create` on a clean directory. -/
theorem wp_create {a : CreateArgs} {lf : Nat} {w : World} {asserts : Bool}
    (hcf : (a.conf lf).Ok) (hbad : a.load.bad = false) (hlf : a.load.fixed = .ok lf)
    (h1 : w.fs .dat = none) (h2 : w.fs .key = none) (h3 : w.fs .log = none)
    {Q : Unit → World → Prop}
    (hQ : ∀ w', Idle (putDatHeader (a.conf lf).dh) (newKey c.H (a.conf lf)) w'.fs → w'.out = w.out → Q () w') :
    wp σ (create c asserts a) Q (fun x _ => IsFault x ∧ Faulty σ) w := by
  have k1 := hcf.key1
  have k2 := hcf.key2
  have b1 := hcf.bs1
  have b2 := hcf.bs2
  have hcap := hcf.cap_pos
  simp only [CreateArgs.conf] at k1 k2 b1 b2
  unfold create
  rw [if_neg (by omega), if_neg (by omega), if_neg (by simp [hbad]),
    if_neg (by have : (a.conf lf).cap = bucketCapacity a.blockSize := rfl; omega)]
  apply wp_bind
  apply wp_attempt
  apply wp_fCreate h1
  rotate_left
  · intro x hx hf
    rcases hx with rfl | rfl
    · exact ⟨⟨.inl rfl, hf⟩, ⟨.inl rfl, hf⟩⟩
    · simp only
      exact ⟨wp_fail ⟨.inr rfl, hf⟩, wp_fail ⟨.inr rfl, hf⟩⟩
  simp only
  apply wp_bind
  apply wp_attempt
  apply wp_fCreate (by simpa using h2)
  rotate_left
  · have hE : ∀ w, Faulty σ → wp σ (do eraseQuiet .dat; M.fail .io) Q (fun x _ => IsFault x ∧ Faulty σ) w :=
      fun w hf => wp_bind (wp_eraseQuiet (fun _ => wp_fail ⟨.inr rfl, hf⟩) (fun _ hf => ⟨.inl rfl, hf⟩))
    intro x hx hf
    rcases hx with rfl | rfl
    · exact ⟨⟨.inl rfl, hf⟩, ⟨.inl rfl, hf⟩⟩
    · simp only
      exact ⟨hE _ hf, hE _ hf⟩
  simp only
  apply wp_bind
  apply wp_attempt
  apply wp_fCreate (by simpa using h3)
  rotate_left
  · have hE : ∀ w, Faulty σ → wp σ (do eraseQuiet .dat; eraseQuiet .key; M.fail .io) Q
        (fun x _ => IsFault x ∧ Faulty σ) w := fun w hf =>
      wp_bind (wp_eraseQuiet (fun _ => wp_bind (wp_eraseQuiet (fun _ => wp_fail ⟨.inr rfl, hf⟩)
        (fun _ hf => ⟨.inl rfl, hf⟩))) (fun _ hf => ⟨.inl rfl, hf⟩))
    intro x hx hf
    rcases hx with rfl | rfl
    · exact ⟨⟨.inl rfl, hf⟩, ⟨.inl rfl, hf⟩⟩
    · simp only
      exact ⟨hE _ hf, hE _ hf⟩
  simp only
  apply wp_bind
  apply wp_attempt
  have hE : ∀ w, Faulty σ → wp σ (do eraseQuiet .dat; eraseQuiet .key; eraseQuiet .log; M.fail .io) Q
      (fun x _ => IsFault x ∧ Faulty σ) w := fun w hf =>
    wp_bind (wp_eraseQuiet (fun _ => wp_bind (wp_eraseQuiet (fun _ =>
      wp_bind (wp_eraseQuiet (fun _ => wp_fail ⟨.inr rfl, hf⟩) (fun _ hf => ⟨.inl rfl, hf⟩)))
      (fun _ hf => ⟨.inl rfl, hf⟩))) (fun _ hf => ⟨.inl rfl, hf⟩))
  have hX : ∀ (x : Exc) (w : World), IsFault x → Faulty σ →
      (match x with
        | .err e => wp σ (match (Except.error e : Except Err Unit) with
          | .error e => do eraseQuiet .dat; eraseQuiet .key; eraseQuiet .log; M.fail e
          | .ok _ => M.ret ()) Q (fun x _ => IsFault x ∧ Faulty σ) w
        | x => IsFault x ∧ Faulty σ) := by
    intro x w hx hf
    rcases hx with rfl | rfl
    · exact ⟨.inl rfl, hf⟩
    · exact hE w hf
  generalize hfs : Fs.set (World.fs _) .log (some (FileSt.clean [])) = fs1
  have d1 : fs1 .dat = some (FileSt.clean []) := by rw [← hfs]; simp [Fs.set]
  have e1 : fs1 .key = some (FileSt.clean []) := by rw [← hfs]; simp [Fs.set]
  have l1 : fs1 .log = some (FileSt.clean []) := by rw [← hfs]; simp [Fs.set]
  unfold createBody
  apply wp_bind
  apply wp_lift_ok hlf
  apply wp_bind
  apply wp_lift_ok (assert_ok (by simp; right; omega))
  apply wp_bind
  apply wp_fAppend (by exact d1) (by simp)
  rotate_left
  · intro x k hx hf; exact hX x _ hx hf
  rw [if_neg (by simp only [CreateArgs.kh, keyHeaderSize]; omega)]
  apply wp_bind
  apply wp_lift_ok (keyHeaderBlock_ok hcf rfl)
  apply wp_bind
  have hblk : putKeyHeader (a.kh c.H lf) ++ zeros ((a.conf lf).blockSize - 104) =
      putKeyHeader ((a.conf lf).kh c.H 1) ++ zeros ((a.conf lf).blockSize - 104) := rfl
  rw [hblk]
  apply wp_fAppend (f := FileSt.clean []) (by simpa [Fs.set] using e1) (by simp)
  rotate_left
  · intro x k hx hf; exact hX x _ hx hf
  apply wp_bind
  apply wp_lift_ok (ofEmpty_ok (by simp))
  apply wp_bind
  apply wp_lift_ok (padded_empty (by omega) (by omega))
  apply wp_bind
  have hbl : (putKeyHeader ((a.conf lf).kh c.H 1) ++ zeros ((a.conf lf).blockSize - 104)).length = a.blockSize := by
    have e : (putKeyHeader ((a.conf lf).kh c.H 1)).length = 104 := rfl
    simp only [List.length_append, e, zeros_length]
    simp only [CreateArgs.conf]; omega
  have kc : ((FileSt.clean []).push (.write 0 (putKeyHeader ((a.conf lf).kh c.H 1) ++
      zeros ((a.conf lf).blockSize - 104)))).cur = putKeyHeader ((a.conf lf).kh c.H 1) ++
      zeros ((a.conf lf).blockSize - 104) := by
    rw [cur_push]; exact writeAt_end [] _
  apply wp_fAppend (f := (FileSt.clean []).push (.write 0 (putKeyHeader ((a.conf lf).kh c.H 1) ++
      zeros ((a.conf lf).blockSize - 104)))) (by simp only [tick_fs]; exact Fs.set_same _ _ _) (by rw [kc, hbl])
  rotate_left
  · intro x k hx hf; exact hX x _ hx hf
  apply wp_bind
  apply wp_fSync (f := (FileSt.clean []).push (.write 0 (putDatHeader a.dh))) (by simp [Fs.set])
  rotate_left
  · intro x hx hf; exact hX x _ hx hf
  apply wp_bind
  apply wp_fSync (f := ((FileSt.clean []).push (.write 0 (putKeyHeader ((a.conf lf).kh c.H 1) ++
      zeros ((a.conf lf).blockSize - 104)))).push (.write a.blockSize (zeros a.blockSize))) (by simp [Fs.set])
  rotate_left
  · intro x hx hf; exact hX x _ hx hf
  apply wp_fSync (f := FileSt.clean []) (by simpa [Fs.set] using l1)
  rotate_left
  · intro x hx hf; exact hX x _ hx hf
  simp only
  apply wp_ret
  apply hQ
  · refine ⟨⟨FileSt.clean (putDatHeader (a.conf lf).dh), ?_, stable_clean _⟩,
      ⟨FileSt.clean (newKey c.H (a.conf lf)), ?_, stable_clean _⟩, ?_⟩
    · simp only [tick_fs]
      rw [Fs.set_other _ _ (by decide), Fs.set_other _ _ (by decide), Fs.set_same, synced_eq, cur_push]
      congr 2
    · simp only [tick_fs]
      rw [Fs.set_other _ _ (by decide), Fs.set_same, synced_eq, cur_push, kc]
      congr 2
      simp only [POp.apply]
      rw [← hbl, writeAt_end, newKey, hbl]
      rfl
    · simp only [tick_fs]
      rw [Fs.set_same]; rfl
  · rfl

end

end NuDB
