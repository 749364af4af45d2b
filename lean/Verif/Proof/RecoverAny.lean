import Verif.Proof.Recover
import Verif.Spec.Log
/- `recover` with an arbitrary log. -/
namespace NuDB

open Spec

section pure

theorem slice_eq_bytesAt (f : Bytes) (o n : Nat) : slice f o n = bytesAt f o n := rfl

theorem bytesAt_len {f : Bytes} {o n : Nat} (h : o + n ≤ f.length) : (bytesAt f o n).length = n :=
  slice_length_of_le h

theorem bytesAt_drop (f : Bytes) (k o n : Nat) : bytesAt (f.drop k) o n = bytesAt f (k + o) n := slice_drop f o n k

theorem frontRecord_none {l : Bytes} (h : frontRecord l = none) :
    l.length < 16 ∨ l.length < 16 + 18 * countIn (l.drop 8) := by
  unfold frontRecord at h
  split at h
  · left; assumption
  · split at h
    · right; assumption
    · cases h

theorem frontRecord_some {l body rest : Bytes} {n : Nat} (h : frontRecord l = some (n, body, rest)) :
    16 ≤ l.length ∧ 16 + 18 * countIn (l.drop 8) ≤ l.length ∧ n = value (bytesAt l 0 8) ∧
      body = bytesAt l 8 (8 + 18 * countIn (l.drop 8)) ∧ rest = l.drop (16 + 18 * countIn (l.drop 8)) := by
  unfold frontRecord at h
  split at h
  · cases h
  · split at h
    · cases h
    · simp only [Option.some.injEq, Prod.mk.injEq] at h
      obtain ⟨rfl, rfl, rfl⟩ := h
      refine ⟨by omega, by omega, rfl, rfl, rfl⟩

theorem Replay.total (bs d B : Nat) : ∀ (k : Nat) (l K : Bytes), l.length ≤ k → ∃ K' r, Replay bs d B l K K' r := by
  intro k
  induction k with
  | zero =>
    intro l K h
    refine ⟨K, .ok (), .stop ?_ (by omega)⟩
    unfold frontRecord
    rw [if_pos (by omega)]
  | succ k ih =>
    intro l K h
    by_cases h1 : 8 ≤ l.length ∧ 2 ^ 32 ≤ value (bytesAt l 0 8)
    · exact ⟨K, _, .number h1.1 h1.2⟩
    · have h1' : 8 ≤ l.length → value (bytesAt l 0 8) < 2 ^ 32 := by omega
      cases hf : frontRecord l with
      | none => exact ⟨K, _, .stop hf h1'⟩
      | some x =>
        obtain ⟨n, body, rest⟩ := x
        obtain ⟨a1, a2, a3, a4, a5⟩ := frontRecord_some hf
        have hn : n < 2 ^ 32 := by rw [a3]; exact h1' (by omega)
        by_cases hb : body.length ≤ bs
        · by_cases hl : LinkOk bs d body
          · by_cases hi : n ≤ B
            · obtain ⟨K', r, hr⟩ := ih rest (withBlock bs K n body) (by rw [a5, List.length_drop]; omega)
              exact ⟨K', r, .record hf hn hb hl hi hr⟩
            · exact ⟨K, _, .index hf hn hb hl (by omega)⟩
          · exact ⟨K, _, .link hf hn hb hl⟩
        · exact ⟨K, _, .overrun hf hn (by omega)⟩

/-- Sane logs do not lead to undefined behaviour. -/
theorem Sane.defined {bs d B : Nat} {l K K' : Bytes} {r : Res Unit} (h : Sane bs l) (hr : Replay bs d B l K K' r) :
    r = .ok () ∨ r = .error (.err .invalid_log_spill) ∨ r = .error (.err .invalid_log_index) := by
  induction hr with
  | stop => exact .inl rfl
  | number h8 hn =>
    cases h with
    | stop _ h => exact absurd (h h8) (by omega)
    | record h h' =>
      rw [(frontRecord_some h).2.2.1] at h'; omega
  | overrun hf hn hb =>
    cases h with
    | stop h => rw [h] at hf; cases hf
    | record h _ hb' => rw [h] at hf; cases hf; omega
  | link => exact .inr (.inl rfl)
  | index => exact .inr (.inr rfl)
  | record hf _ _ _ _ _ ih =>
    cases h with
    | stop h => rw [h] at hf; cases hf
    | record h _ _ ht => rw [h] at hf; cases hf; exact ih ht

theorem writeAt_block {bs n : Nat} {K body : Bytes} (hb : body.length ≤ bs) (h0 : 0 < bs) :
    writeAt K ((n + 1) * bs) (body ++ zeros (bs - body.length)) = withBlock bs K n body := by
  have hl : (body ++ zeros (bs - body.length)).length = bs := by simp; omega
  have hr : body ++ zeros (bs - body.length) = resized body bs := by
    unfold resized; rw [List.take_of_length_le hb]; rfl
  unfold writeAt
  rw [if_neg (by intro h; rw [h] at hl; simp at hl; omega)]
  unfold put withBlock
  rw [hl, ← mul_succ_add, hr]
  congr 1
  · congr 1
    unfold resized
    rw [List.take_append]
    simp [zeros]
  · rw [List.drop_append]
    simp only [zeros_drop]
    rw [show (n + 1) * bs - K.length - ((n + 2) * bs - K.length) = 0 by
      have : (n + 1) * bs ≤ (n + 2) * bs := Nat.mul_le_mul_right _ (by omega)
      omega]
    simp

end pure

section
variable {c : Cfg} {σ : Schedule}

/-- The key file is all that changed. -/
structure KeyIs (fs₀ : Fs) (K : Bytes) (fs : Fs) : Prop where
  dat : fs .dat = fs₀ .dat
  log : fs .log = fs₀ .log
  key : ∃ kf, fs .key = some kf ∧ kf.cur = K

/-- An error code or death because of the environment. -/
def Disturbance (σ : Schedule) (fs₀ : Fs) (x : Exc) (w : World) : Prop :=
  Faulty σ ∧ (x = .crash ∨ ∃ e, x = .err e) ∧ ∃ K, KeyIs fs₀ K w.fs

theorem Disturbance.of {fs₀ : Fs} {K : Bytes} {x : Exc} {w : World} (hf : Faulty σ) (hx : IsFault x)
    (h : KeyIs fs₀ K w.fs) : Disturbance σ fs₀ x w := by
  refine ⟨hf, ?_, K, h⟩
  rcases hx with rfl | rfl
  · exact .inl rfl
  · exact .inr ⟨_, rfl⟩

/-- `recoverWrite` after a failing read: the bucket is not what the log says, but it fits. -/
theorem wp_recoverWrite_stale {kh : KeyHeader} {d n : Nat} {b : Bkt} {w : World} {fs₀ : Fs} {K : Bytes} {e : Err}
    {Q : LogStep → World → Prop} {X : Exc → World → Prop}
    (hb : b.p.length = b.bs) (hsz : 8 + 18 * b.size ≤ b.bs) (hK : KeyIs fs₀ K w.fs) (hf : Faulty σ)
    (hX : ∀ x w', Disturbance σ fs₀ x w' → X x w') :
    wp σ (do let _ ← recoverWrite kh d n b; M.fail e) Q X w := by
  have hK' := hK
  obtain ⟨kf, hk, _⟩ := hK.key
  apply wp_bind
  unfold recoverWrite
  split
  · exact wp_fail (hX _ _ ⟨hf, .inr ⟨_, rfl⟩, K, hK'⟩)
  split
  · exact wp_fail (hX _ _ ⟨hf, .inr ⟨_, rfl⟩, K, hK'⟩)
  apply wp_bind
  have hp : b.padded = .ok (put b.p b.actualSize (zeros (b.bs - b.actualSize))) := by
    unfold Bkt.padded
    rw [if_pos (by simp only [Bkt.actualSize, bucketSize]; omega)]
    apply poke_ok
    simp only [Bkt.actualSize, bucketSize, zeros_length]; omega
  apply wp_lift_ok hp
  have key : ∀ op, KeyIs fs₀ (POp.apply kf.cur op) (w.fs.set .key (some (kf.push op))) := by
    intro op
    exact ⟨by simpa using hK.dat, by simpa using hK.log, _, Fs.set_same _ _ _, cur_push _ _⟩
  apply wp_bind
  apply wp_fWrite hk
  · apply wp_ret
    exact wp_fail (hX _ _ ⟨hf, .inr ⟨_, rfl⟩, _, key _⟩)
  · intro x k hx _
    exact hX _ _ (Disturbance.of hf hx (key _))

/-- State of the loop in `recover`. -/
structure LoopInv (kh : KeyHeader) (lf : FileSt) (l : Bytes) (b : Bkt) (r : Reader) : Prop where
  rest : l = lf.cur.drop r.pos
  reader : RInv r lf.cur
  path : r.path = .log
  last : r.last = lf.cur.length
  bs : b.bs = kh.blockSize
  mem : b.p.length = kh.blockSize
  /-- the bucket is junk only in the first round, whose first read gets 16 bytes or all -/
  fits : 8 + 18 * b.size ≤ kh.blockSize ∨ (r.avail = 0 ∧ 16 ≤ r.buf.length)

/-- A round of the loop for an arbitrary log. -/
theorem wp_recoverStep_any {kh : KeyHeader} {d : Nat} {lf : FileSt} {fs₀ : Fs}
    (hcap : kh.capacity = bucketCapacity kh.blockSize) (hbs : 104 ≤ kh.blockSize) (hlog : fs₀ .log = some lf)
    {l K : Bytes} {b : Bkt} {r : Reader} {w : World} (hI : LoopInv kh lf l b r) (hK : KeyIs fs₀ K w.fs) :
    wp σ (recoverStep c kh d b r)
      (fun s w' => w'.out = w.out ∧ match s with
        | .done => Replay kh.blockSize d kh.buckets l K K (.ok ()) ∧ KeyIs fs₀ K w'.fs
        | .next b' r' => ∃ n body rest, frontRecord l = some (n, body, rest) ∧ n < 2 ^ 32 ∧
            body.length ≤ kh.blockSize ∧ LinkOk kh.blockSize d body ∧ n ≤ kh.buckets ∧
            LoopInv kh lf rest b' r' ∧ KeyIs fs₀ (withBlock kh.blockSize K n body) w'.fs)
      (fun x w' => (Replay kh.blockSize d kh.buckets l K K (.error x) ∧ KeyIs fs₀ K w'.fs) ∨ Disturbance σ fs₀ x w')
      w := by
  have hl := hI.rest
  have hlen : l.length = r.last - r.pos := by rw [hl, List.length_drop, hI.last]
  have hfile : w.fs r.path = some lf := by rw [hI.path, hK.log]; exact hlog
  have hshort : ∀ {w' : World}, l.length < 8 → w'.fs = w.fs → w'.out = w.out → w'.out = w.out ∧
      (Replay kh.blockSize d kh.buckets l K K (.ok ()) ∧ KeyIs fs₀ K w'.fs) := by
    intro w' h e1 e2
    refine ⟨e2, .stop ?_ (by omega), by rw [e1]; exact hK⟩
    unfold frontRecord
    rw [if_pos (by omega)]
  have hrp : r.pos ≤ r.last := by have := hI.reader.off; unfold Reader.pos; omega
  unfold recoverStep
  by_cases he : r.eof = true
  · rw [if_pos he]
    apply wp_ret
    refine hshort ?_ rfl rfl
    simp only [Reader.eof, ge_iff_le, decide_eq_true_eq] at he
    omega
  rw [if_neg he]
  apply wp_bind
  apply wp_attempt
  apply wp_prepare hfile hI.reader
  rotate_left
  · intro hS
    simp only
    apply wp_ret
    exact hshort (by omega) rfl rfl
  · intro x hx hfa _ _
    rcases hx with rfl | rfl
    · exact .inr (.of hfa (.inl rfl) hK)
    · exact wp_fail (.inr (.of hfa (.inr rfl) hK))
  intro r1 w1 n1 e1 e2
  simp only
  have hle1 := n1.le
  have h8 : 8 ≤ l.length := by omega
  have hnum : getU64 (slice lf.cur r.pos 8) = value (bytesAt l 0 8) := by
    rw [hl, bytesAt_drop, Nat.add_zero]
    exact C18_u64.reads _ (bytesAt_len (by have := hI.last; omega))
  rw [hnum]
  apply wp_bind
  apply wp_assert
  rotate_left
  · intro h
    refine .inl ⟨.number h8 ?_, by rw [e1]; exact hK⟩
    simp at h; omega
  intro hn
  have hn : value (bytesAt l 0 8) < 2 ^ 32 := by simp at hn; omega
  have hfile1 : w1.fs r1.path = some lf := by rw [n1.path, e1]; exact hfile
  have hK1 : KeyIs fs₀ K w1.fs := by rw [e1]; exact hK
  have hstop : ∀ {w' : World}, frontRecord l = none → w'.fs = w.fs → w'.out = w.out → w'.out = w.out ∧
      (Replay kh.blockSize d kh.buckets l K K (.ok ()) ∧ KeyIs fs₀ K w'.fs) := by
    intro w' h e1 e2
    exact ⟨e2, .stop h (fun _ => hn), by rw [e1]; exact hK⟩
  apply wp_bind
  apply wp_attempt
  unfold Bkt.readHead
  apply wp_bind
  apply wp_prepare hfile1 n1.inv
  rotate_left
  · intro hS
    simp only
    apply wp_ret
    refine hstop ?_ e1 e2
    unfold frontRecord
    rw [if_pos (by have := n1.pos; have := n1.last; omega)]
  · intro x hx hfa hav hin
    rcases hx with rfl | rfl
    · exact .inr (.of hfa (.inl rfl) hK1)
    · simp only
      apply wp_recoverWrite_stale (K := K) (fs₀ := fs₀) (by rw [hI.mem, hI.bs]) ?_ (by exact hK1) hfa
        (by exact fun _ _ h => Or.inr h)
      rw [hI.bs]
      rcases hI.fits with h | ⟨h1, h2⟩
      · exact h
      · -- the first read got enough
        exfalso
        have hp1 : r1.pos = r1.offset - r1.avail := rfl
        have := n1.inv.avail
        have := n1.last
        rcases n1.full with h | h | h <;> omega
  intro r2 w2 n2 g1 g2
  have hle2 := n2.le
  have hpos1 := n1.pos
  have hlast1 := n1.last
  have hpos2 := n2.pos
  have hlast2 := n2.last
  have h16 : 16 ≤ l.length := by omega
  have hF : r.last = lf.cur.length := hI.last
  have hsl : slice lf.cur r1.pos 8 = bytesAt l 8 8 := by
    rw [hl, bytesAt_drop, hpos1]; rfl
  rw [hsl]
  have hcnt : getU16 (slice (bytesAt l 8 8) 0 2) = countIn (l.drop 8) := by
    unfold countIn
    rw [bytesAt_drop, show slice (bytesAt l 8 8) 0 2 = bytesAt l (8 + 0) 2 from slice_slice (by omega)]
    exact C18_u16.reads _ (bytesAt_len (by omega))
  have hlink : getU48 (slice (bytesAt l 8 8) 2 6) = linkIn (l.drop 8) := by
    unfold linkIn
    rw [bytesAt_drop, show slice (bytesAt l 8 8) 2 6 = bytesAt l (8 + 2) 6 from slice_slice (by omega)]
    exact C18_u48.reads _ (bytesAt_len (by omega))
  have hc16 : countIn (l.drop 8) < 2 ^ 16 := by
    rw [← hcnt]; exact getU16_lt (slice_length_of_le (by rw [bytesAt_len (by omega)]; omega))
  have hl48 : linkIn (l.drop 8) < 2 ^ 48 := by
    rw [← hlink]; exact getU48_lt (slice_length_of_le (by rw [bytesAt_len (by omega)]; omega))
  have hraw : putU16 (countIn (l.drop 8)) ++ putU48 (linkIn (l.drop 8)) = bytesAt l 8 8 := by
    rw [← hcnt, ← hlink,
      (putU16_getU16 (slice_length_of_le (by rw [bytesAt_len (by omega)]; omega))).1,
      (putU48_getU48 (slice_length_of_le (by rw [bytesAt_len (by omega)]; omega))).1]
    rw [← slice_split, Nat.add_comm]
    have := slice_full (bytesAt l 8 8)
    rwa [bytesAt_len (by omega)] at this
  simp only [hcnt, hlink]
  apply wp_bind
  have hup := update_ok (b := { b with size := countIn (l.drop 8), spill := linkIn (l.drop 8) }) (hd := b.p.take 8)
    (rest := b.p.drop 8) (by simp) (by rw [List.length_take, hI.mem]; omega) hc16 hl48
  apply wp_lift_ok hup
  apply wp_ret
  simp only [hraw]
  have hK2 : KeyIs fs₀ K w2.fs := by rw [g1]; exact hK1
  have hfile2 : w2.fs r2.path = some lf := by rw [n2.path, g1]; exact hfile1
  apply wp_bind
  apply wp_attempt
  unfold Bkt.readBody
  apply wp_bind
  apply wp_prepare hfile2 n2.inv
  rotate_left
  · intro hS
    simp only at hS ⊢
    apply wp_ret
    refine hstop ?_ (by rw [g1, e1]) (by rw [g2, e2])
    unfold frontRecord
    rw [if_neg (by omega), if_pos (by omega)]
  · intro x hx hfa hav hin
    simp only at hin
    have hrec : frontRecord l = some (value (bytesAt l 0 8), bytesAt l 8 (8 + 18 * countIn (l.drop 8)),
        l.drop (16 + 18 * countIn (l.drop 8))) := by
      unfold frontRecord
      rw [if_neg (by omega), if_neg (by omega)]
    have hbl := bytesAt_len (f := l) (o := 8) (n := 8 + 18 * countIn (l.drop 8)) (by omega)
    rcases hx with rfl | rfl
    · exact .inr (.of hfa (.inl rfl) hK2)
    · simp only
      by_cases hfit : 8 + 18 * countIn (l.drop 8) ≤ kh.blockSize
      · apply wp_recoverWrite_stale (K := K) (fs₀ := fs₀) ?_ (by rw [hI.bs]; exact hfit) (by exact hK2) hfa
          (by exact fun _ _ h => Or.inr h)
        rw [hI.bs]; simp only [List.length_append, List.length_drop, hI.mem]; rw [bytesAt_len (by omega)]; omega
      · apply wp_bind
        unfold recoverWrite
        split
        · exact wp_fail (.inr ⟨hfa, .inr ⟨_, rfl⟩, K, by exact hK2⟩)
        split
        · exact wp_fail (.inr ⟨hfa, .inr ⟨_, rfl⟩, K, by exact hK2⟩)
        apply wp_bind
        apply wp_lift_error (x := .ub)
        · unfold Bkt.padded
          rw [if_neg (by simp only [Bkt.actualSize, bucketSize]; rw [hI.bs]; omega)]
        · exact .inl ⟨.overrun hrec hn (by omega), by exact hK2⟩
  intro r3 w3 n3 k1 k2
  have hle3 := n3.le
  have hpos3 := n3.pos
  have hlast3 := n3.last
  simp only at hle3 hpos3
  have hrec : frontRecord l = some (value (bytesAt l 0 8), bytesAt l 8 (8 + 18 * countIn (l.drop 8)),
      l.drop (16 + 18 * countIn (l.drop 8))) := by
    unfold frontRecord
    rw [if_neg (by omega), if_neg (by omega)]
  have hbl := bytesAt_len (f := l) (o := 8) (n := 8 + 18 * countIn (l.drop 8)) (by omega)
  have hK3 : KeyIs fs₀ K w3.fs := by rw [k1]; exact hK2
  have hes : slice lf.cur r2.pos (countIn (l.drop 8) * 18) = bytesAt l 16 (18 * countIn (l.drop 8)) := by
    rw [hl, bytesAt_drop, hpos2, hpos1, Nat.mul_comm]; rfl
  have hbody : bytesAt l 8 8 ++ bytesAt l 16 (18 * countIn (l.drop 8)) = bytesAt l 8 (8 + 18 * countIn (l.drop 8)) :=
    (slice_split l 8 8 _).symm
  have hel : (bytesAt l 16 (18 * countIn (l.drop 8))).length = 18 * countIn (l.drop 8) := bytesAt_len (by omega)
  simp only [hes]
  apply wp_bind
  have h8l : (bytesAt l 8 8).length = 8 := bytesAt_len (by omega)
  by_cases hfit : 8 + 18 * countIn (l.drop 8) ≤ kh.blockSize
  rotate_left
  · apply wp_lift_error (x := .ub)
    · unfold poke
      rw [if_neg (by simp only [List.length_append, List.length_drop, hI.mem, h8l, hel]; omega)]
    · exact .inl ⟨.overrun hrec hn (by omega), by exact hK3⟩
  have hpk : poke (bytesAt l 8 8 ++ b.p.drop 8) 8 (bytesAt l 16 (18 * countIn (l.drop 8))) =
      .ok (bytesAt l 8 8 ++ (bytesAt l 16 (18 * countIn (l.drop 8)) ++ (b.p.drop 8).drop (18 * countIn (l.drop 8)))) := by
    have e : b.p.drop 8 = (b.p.drop 8).take (18 * countIn (l.drop 8)) ++ (b.p.drop 8).drop (18 * countIn (l.drop 8)) :=
      (List.take_append_drop _ _).symm
    rw [congrArg (fun q => poke (bytesAt l 8 8 ++ q) 8 (bytesAt l 16 (18 * countIn (l.drop 8)))) e]
    exact poke_mid (by rw [h8l]) (by rw [hel, List.length_take, List.length_drop, hI.mem]; omega)
  apply wp_lift_ok hpk
  apply wp_ret
  simp only
  rw [← List.append_assoc, hbody]
  have hcl : linkIn (bytesAt l 8 (8 + 18 * countIn (l.drop 8))) = linkIn (l.drop 8) := by
    unfold linkIn
    rw [bytesAt_drop, show bytesAt (bytesAt l 8 _) 2 6 = bytesAt l (8 + 2) 6 from slice_slice (by omega)]
  have hcapb : bucketSize kh.capacity = bucketBytes kh.blockSize := by
    have e : bucketCapacity kh.blockSize = (kh.blockSize - (2 + 6)) / (6 + 6 + 6) := by
      unfold bucketCapacity
      apply if_neg
      show ¬ ((decide (kh.blockSize < 104) || decide (kh.blockSize < 8)) = true)
      simp; omega
    rw [hcap, e]
    unfold bucketBytes bucketSize
    omega
  apply wp_bind
  unfold recoverWrite
  split
  · rename_i hs
    refine wp_fail (.inl ⟨.link hrec hn (by omega) ?_, hK3⟩)
    unfold LinkOk
    rw [hcl]
    simp only [hcapb] at hs
    omega
  rename_i hs
  have hlo : LinkOk kh.blockSize d (bytesAt l 8 (8 + 18 * countIn (l.drop 8))) := by
    unfold LinkOk
    rw [hcl]
    simp only [hcapb] at hs
    omega
  split
  · rename_i hi
    exact wp_fail (.inl ⟨.index hrec hn (by omega) hlo hi, hK3⟩)
  rename_i hi
  obtain ⟨kf, hk, hkc⟩ := hK3.key
  apply wp_bind
  have hpad : Bkt.padded ⟨b.bs, countIn (l.drop 8), linkIn (l.drop 8),
      bytesAt l 8 (8 + 18 * countIn (l.drop 8)) ++ (b.p.drop 8).drop (18 * countIn (l.drop 8))⟩ =
      .ok (bytesAt l 8 (8 + 18 * countIn (l.drop 8)) ++
        zeros (kh.blockSize - (bytesAt l 8 (8 + 18 * countIn (l.drop 8))).length)) := by
    unfold Bkt.padded
    rw [if_pos (by simp only [Bkt.actualSize, bucketSize]; rw [hI.bs]; omega)]
    have e : ∀ x y : Bytes, x ++ y = x ++ (y ++ []) := by simp
    rw [e, poke_mid (by rw [hbl]; simp only [Bkt.actualSize, bucketSize]; omega)
      (by simp only [zeros_length, List.length_drop, hI.mem, Bkt.actualSize, bucketSize]; rw [hI.bs]; omega)]
    rw [List.append_nil, hbl, hI.bs]
    congr 3
    simp only [Bkt.actualSize, bucketSize]; omega
  apply wp_lift_ok hpad
  apply wp_bind
  apply wp_fWrite hk
  · apply wp_ret
    apply wp_ret
    refine ⟨by simp only [tick_out]; rw [k2, g2, e2], _, _, _, hrec, hn, by omega, hlo, by omega, ?_, ?_⟩
    · refine ⟨?_, n3.inv, by rw [n3.path, n2.path, n1.path, hI.path], by omega, hI.bs, ?_, .inl hfit⟩
      · rw [hl, List.drop_drop, hpos3, hpos2, hpos1, ← hl]
        congr 1; omega
      · simp only [List.length_append, zeros_length, hbl]; omega
    · refine ⟨by simpa using hK3.dat, by simpa using hK3.log, _, by simp only [tick_fs]; exact Fs.set_same _ _ _, ?_⟩
      rw [cur_push, hkc]
      exact writeAt_block (by omega) (by omega)
  · intro x k hx hfa
    refine .inr (.of (K := _) hfa hx ⟨by simpa using hK3.dat, by simpa using hK3.log, _, by simp only [tick_fs]; exact Fs.set_same _ _ _, rfl⟩)

/-- The record loop for an arbitrary log. -/
theorem wp_recoverLoop_any {kh : KeyHeader} {d : Nat} {lf : FileSt} {fs₀ : Fs}
    (hcap : kh.capacity = bucketCapacity kh.blockSize) (hbs : 104 ≤ kh.blockSize) (hlog : fs₀ .log = some lf) :
    ∀ (fuel : Nat) (l K : Bytes) (b : Bkt) (r : Reader) (w : World), LoopInv kh lf l b r → l.length < fuel →
    KeyIs fs₀ K w.fs →
    wp σ (recoverLoop c kh d fuel b r)
      (fun _ w' => w'.out = w.out ∧ ∃ K', Replay kh.blockSize d kh.buckets l K K' (.ok ()) ∧ KeyIs fs₀ K' w'.fs)
      (fun x w' => (∃ K', Replay kh.blockSize d kh.buckets l K K' (.error x) ∧ KeyIs fs₀ K' w'.fs) ∨
        Disturbance σ fs₀ x w') w := by
  intro fuel
  induction fuel with
  | zero => intro l K b r w _ h; omega
  | succ fuel ih =>
    intro l K b r w hI hf hK
    unfold recoverLoop
    apply wp_bind
    refine wp_conseq (wp_recoverStep_any hcap hbs hlog hI hK) ?_ ?_
    · rintro s w1 ⟨ho, h⟩
      cases s with
      | done => exact wp_ret ⟨ho, K, h⟩
      | next b' r' =>
        obtain ⟨n, body, rest, h1, h2, h3, h4, h5, h6, h7⟩ := h
        have h8 := frontRecord_some h1
        refine wp_conseq (ih rest _ b' r' w1 h6 (by rw [h8.2.2.2.2, List.length_drop]; omega) h7) ?_ ?_
        · rintro _ w2 ⟨e, K', a1, a2⟩
          exact ⟨by rw [e, ho], K', .record h1 h2 h3 h4 h5 a1, a2⟩
        · rintro x w2 (⟨K', a1, a2⟩ | h)
          · exact .inl ⟨K', .record h1 h2 h3 h4 h5 a1, a2⟩
          · exact .inr h
    · rintro x w1 (h | h)
      · exact .inl ⟨K, h⟩
      · exact .inr h

/-- Reading a header. -/
theorem wp_fRead_any {p : Path} {f : FileSt} {n : Nat} {w : World} {Q : Bytes → World → Prop} {X : Exc → World → Prop}
    (hp : w.fs p = some f) (hn : n ≠ 0) (hQ : n ≤ f.cur.length → Q (slice f.cur 0 n) (w.tick w.fs))
    (hS : f.cur.length < n → X (.err .short_read) (w.tick w.fs))
    (hX : ∀ x, IsFault x → Faulty σ → X x (w.tick w.fs)) : wp σ (fRead p 0 n) Q X w := by
  by_cases h : n ≤ f.cur.length
  · exact wp_fRead hp (by omega) (hQ h) hX
  · exact wp_fRead_short hp hn (by omega) (hS (by omega)) hX

theorem wp_check_free {r : Except Err Unit} {w : World} {Q : Unit → World → Prop} {X : Exc → World → Prop}
    (hQ : r = .ok () → Q () w) (hX : ∀ e, X (.err e) w) : wp σ (M.check r) Q X w := by
  cases r with
  | ok a => exact hQ rfl
  | error e => exact hX e

theorem slice_bytesAt {f : Bytes} {n o m : Nat} (h : o + m ≤ n) : slice (slice f 0 n) o m = bytesAt f o m := by
  have := slice_slice (p := f) (o := 0) (n := n) (o' := o) (n' := m) h
  rwa [Nat.zero_add] at this

theorem bucketsOfSize_eq {n bs : Nat} (h : 0 < bs) : bucketsOfSize n bs = n / bs - 1 := by
  unfold bucketsOfSize
  split
  · rename_i hn
    have := Nat.sub_mul_div n bs 1
    rw [Nat.mul_one] at this
    exact this
  · rename_i hn
    rcases Nat.lt_or_ge n bs with h1 | h1
    · rw [Nat.div_eq_of_lt h1]
    · have : n = bs := by omega
      rw [this, Nat.div_self h]

/-- The key file header, in terms of the bytes. -/
theorem getKeyHeader_fields {K : Bytes} (h : 104 ≤ K.length) :
    (getKeyHeader (slice K 0 104) K.length).blockSize = blockSizeOf K ∧
    (getKeyHeader (slice K 0 104) K.length).capacity = bucketCapacity (blockSizeOf K) ∧
    (getKeyHeader (slice K 0 104) K.length).buckets = bucketsOfSize K.length (blockSizeOf K) ∧
    (getKeyHeader (slice K 0 104) K.length).keySize = keySizeOf K ∧
    (getKeyHeader (slice K 0 104) K.length).salt = saltOf K ∧
    (getKeyHeader (slice K 0 104) K.length).loadFactor = loadFactorOf K := by
  have v2 : ∀ o, o + 2 ≤ 104 → getU16 (slice (slice K 0 104) o 2) = value (bytesAt K o 2) := by
    intro o ho
    rw [slice_bytesAt ho]; exact C18_u16.reads _ (bytesAt_len (by omega))
  have v8 : ∀ o, o + 8 ≤ 104 → getU64 (slice (slice K 0 104) o 8) = value (bytesAt K o 8) := by
    intro o ho
    rw [slice_bytesAt ho]; exact C18_u64.reads _ (bytesAt_len (by omega))
  unfold blockSizeOf keySizeOf saltOf loadFactorOf
  rw [← v2 44 (by omega), ← v2 26 (by omega), ← v8 28 (by omega), ← v2 46 (by omega)]
  exact ⟨rfl, rfl, rfl, rfl, rfl, rfl⟩

/-- Killed, or an error because of the environment. -/
def Upset (σ : Schedule) (x : Exc) : Prop := Faulty σ ∧ (x = .crash ∨ ∃ e, x = .err e)

theorem Upset.fault {x : Exc} (hx : IsFault x) (hf : Faulty σ) : Upset σ x := by
  rcases hx with rfl | rfl
  · exact ⟨hf, .inl rfl⟩
  · exact ⟨hf, .inr ⟨_, rfl⟩⟩

theorem wp_clearLog_any {w : World} {lf : FileSt} (hl : w.fs .log = some lf) :
    wp σ clearLog (fun _ w' => w'.fs .dat = w.fs .dat ∧ w'.fs .key = w.fs .key ∧ w'.fs .log = none)
      (fun x _ => Upset σ x) w := by
  unfold clearLog
  apply wp_bind
  apply wp_fTrunc hl _ (fun x hx hf => .fault hx hf)
  apply wp_bind
  apply wp_fSync (f := lf.push (.trunc 0)) (by simp) _ (fun x hx hf => .fault hx hf)
  exact wp_fErase (f := (lf.push (.trunc 0)).synced) (by simp) ⟨by simp, by simp, by simp⟩
    (fun x hx hf => .fault hx hf)

theorem wp_truncFiles_any {w : World} {lh : LogHeader} {df kf lf : FileSt} (hd : w.fs .dat = some df)
    (hk : w.fs .key = some kf) (hl : w.fs .log = some lf) :
    wp σ (truncFiles lh) (fun _ w' => w'.fs .dat = some (FileSt.clean (resized df.cur lh.datFileSize)) ∧
        (if lh.keyFileSize = 0 then w'.fs .key = none
          else w'.fs .key = some (FileSt.clean (resized kf.cur lh.keyFileSize))) ∧ w'.fs .log = none)
      (fun x _ => Upset σ x) w := by
  unfold truncFiles
  apply wp_bind
  apply wp_fTrunc hd _ (fun x hx hf => .fault hx hf)
  apply wp_bind
  apply wp_fSync (f := df.push (.trunc lh.datFileSize)) (by simp) _ (fun x hx hf => .fault hx hf)
  have e : ∀ (f : FileSt) (n : Nat), (f.push (.trunc n)).synced = FileSt.clean (resized f.cur n) := by
    intro f n; rw [synced_eq, cur_push]; rfl
  by_cases h0 : lh.keyFileSize = 0
  · rw [if_neg (by simpa using h0)]
    apply wp_bind
    apply wp_fErase (f := kf) (by simpa using hk) _ (fun x hx hf => .fault hx hf)
    refine wp_post (wp_clearLog_any (lf := lf) (by simpa using hl)) ?_
    rintro _ w' ⟨a1, a2, a3⟩
    refine ⟨?_, ?_, a3⟩
    · rw [a1]; simp [e]
    · rw [if_pos h0, a2]; simp
  · rw [if_pos (by simpa using h0)]
    apply wp_bind
    apply wp_fTrunc (f := kf) (by simpa using hk) _ (fun x hx hf => .fault hx hf)
    apply wp_bind
    apply wp_fSync (f := kf.push (.trunc lh.keyFileSize)) (by simp) _ (fun x hx hf => .fault hx hf)
    refine wp_post (wp_clearLog_any (lf := lf) (by simpa using hl)) ?_
    rintro _ w' ⟨a1, a2, a3⟩
    refine ⟨?_, ?_, a3⟩
    · rw [a1]; simp [e]
    · rw [if_neg h0, a2]; simp [e]

/-- The headers of key file and log pass all tests. -/
def Checked (c : Cfg) (dh : DatHeader) (lh : LogHeader) (kh : KeyHeader) : Prop :=
  verifyKey c.H kh = .ok () ∧ verifyDatKey c.H dh kh = .ok () ∧ verifyKeyLog c.H kh lh = .ok ()

theorem wp_replayLog_any {dh : DatHeader} {lh : LogHeader} {df kf lf : FileSt} {w : World}
    (hk : w.fs .key = some kf) (hl : w.fs .log = some lf) (h62 : 62 ≤ lf.cur.length) (hkl : 104 ≤ kf.cur.length) :
    wp σ (replayLog c dh lh df.cur.length lf.cur.length)
      (fun _ w' => Checked c dh lh (getKeyHeader (slice kf.cur 0 104) kf.cur.length) ∧
        ∃ K', Replay (blockSizeOf kf.cur) df.cur.length (bucketsOf kf.cur) (lf.cur.drop 62) kf.cur K' (.ok ()) ∧
        KeyIs w.fs K' w'.fs)
      (fun x w' => ((∃ e, x = .err e) ∧ w'.fs = w.fs ∧ ¬ Checked c dh lh (getKeyHeader (slice kf.cur 0 104) kf.cur.length)) ∨
        (Checked c dh lh (getKeyHeader (slice kf.cur 0 104) kf.cur.length) ∧
          ∃ K', Replay (blockSizeOf kf.cur) df.cur.length (bucketsOf kf.cur) (lf.cur.drop 62) kf.cur K' (.error x) ∧
          KeyIs w.fs K' w'.fs) ∨ Disturbance σ w.fs x w') w := by
  have hK : KeyIs w.fs kf.cur w.fs := ⟨rfl, rfl, kf, hk, rfl⟩
  unfold replayLog
  apply wp_bind
  unfold readKeyHeader
  apply wp_bind
  apply wp_fRead (by exact hk) (by simp only [keyHeaderSize]; omega) _ (fun x hx hf => .inr (.inr (.of hf hx hK)))
  apply wp_bind
  apply wp_fSize (by exact hk) _ (fun x hx hf => .inr (.inr (.of hf hx (by exact hK))))
  apply wp_ret
  simp only [keyHeaderSize]
  have hkh := getKeyHeader_fields hkl
  generalize getKeyHeader (slice kf.cur 0 104) kf.cur.length = kh at *
  obtain ⟨f1, f2, f3, f4, f5, f6⟩ := hkh
  apply wp_bind
  cases hv1 : verifyKey c.H kh with
  | error e => exact .inl ⟨⟨e, rfl⟩, rfl, fun h => by rw [h.1] at hv1; cases hv1⟩
  | ok u1 =>
  apply wp_check_ok rfl
  apply wp_bind
  cases hv2 : verifyDatKey c.H dh kh with
  | error e => exact .inl ⟨⟨e, rfl⟩, rfl, fun h => by rw [h.2.1] at hv2; cases hv2⟩
  | ok u2 =>
  apply wp_check_ok rfl
  apply wp_bind
  cases hv3 : verifyKeyLog c.H kh lh with
  | error e => exact .inl ⟨⟨e, rfl⟩, rfl, fun h => by rw [h.2.2] at hv3; cases hv3⟩
  | ok u3 =>
  apply wp_check_ok rfl
  have hcap : 1 ≤ bucketCapacity kh.blockSize := by
    unfold verifyKey at hv1
    split at hv1
    · cases hv1
    split at hv1
    · cases hv1
    split at hv1
    · cases hv1
    split at hv1
    · cases hv1
    split at hv1
    · cases hv1
    split at hv1
    · cases hv1
    rw [f1, ← f2]; omega
  have h104 : 104 ≤ kh.blockSize := by
    apply Decidable.byContradiction
    intro hlt
    have : bucketCapacity kh.blockSize = 0 := by
      unfold bucketCapacity
      apply if_pos
      show ((decide (kh.blockSize < 104) || decide (kh.blockSize < 8)) = true)
      simp; omega
    omega
  obtain ⟨b, e1, e2, e3⟩ := ofMem_any (bs := kh.blockSize) (p := c.fresh kh.blockSize) (by simp; omega)
  apply wp_bind
  apply wp_lift_ok e1
  have hB : kh.buckets = bucketsOf kf.cur := by
    rw [f3, bucketsOfSize_eq (by omega)]; rfl
  rw [← f1, ← hB]
  refine wp_conseq (wp_recoverLoop_any (fs₀ := w.fs) (lf := lf) (by rw [f2, f1]) h104 hl _ (lf.cur.drop 62) kf.cur b _ _ ?_ ?_ (by exact hK))
    ?_ ?_
  · refine ⟨rfl, rinv_new c .log (Nat.le_refl _) h62, rfl, rfl, e2, by rw [e3]; simp, .inr ⟨rfl, ?_⟩⟩
    simp only [Reader.new, fresh_length]; omega
  · rw [List.length_drop]; omega
  · rintro _ w' ⟨_, h⟩; exact ⟨⟨hv1, hv2, hv3⟩, h⟩
  · rintro x w' (h | h)
    · exact .inr (.inl ⟨⟨hv1, hv2, hv3⟩, h⟩)
    · exact .inr (.inr h)

/-- All tests of the headers succeed, and the log is not that of `rekey`. -/
structure ValidFor (c : Cfg) (D K L : Bytes) : Prop where
  dlen : 92 ≤ D.length
  dat : verifyDat (getDatHeader (slice D 0 92)) = .ok ()
  klen : 104 < K.length
  llen : 62 ≤ L.length
  log : verifyLog c.H (getLogHeader (slice L 0 62)) = .ok ()
  size : (getLogHeader (slice L 0 62)).keyFileSize ≠ 0
  check : Checked c (getDatHeader (slice D 0 92)) (getLogHeader (slice L 0 62)) (getKeyHeader (slice K 0 104) K.length)

/-- The log was applied: the files have the sizes recorded there. -/
def Applied (D K L : Bytes) (fs' : Fs) : Prop :=
  ∃ K', Replay (blockSizeOf K) D.length (bucketsOf K) (L.drop 62) K K' (.ok ()) ∧
    fs' .dat = some (FileSt.clean (resized D (getLogHeader (slice L 0 62)).datFileSize)) ∧
    fs' .key = some (FileSt.clean (resized K' (getLogHeader (slice L 0 62)).keyFileSize)) ∧ fs' .log = none

/-- What can come of `recover` when it succeeds. -/
def Success (c : Cfg) (fs fs' : Fs) : Prop :=
  ∃ df kf, fs .dat = some df ∧ fs .key = some kf ∧
    ((fs .log = none ∧ fs' = fs) ∨
    ∃ lf, fs .log = some lf ∧
      ((lf.cur.length < 62 ∧ fs' .dat = fs .dat ∧ fs' .key = fs .key ∧ fs' .log = none) ∨
      (62 ≤ lf.cur.length ∧ verifyLog c.H (getLogHeader (slice lf.cur 0 62)) = .ok () ∧
        (getLogHeader (slice lf.cur 0 62)).keyFileSize = 0 ∧ fs' .key = none ∧ fs' .log = none) ∨
      (ValidFor c df.cur kf.cur lf.cur ∧ Applied df.cur kf.cur lf.cur fs')))

/-- What can come of `recover` when it does not succeed. -/
def Refusal (c : Cfg) (σ : Schedule) (fs : Fs) (x : Exc) (fs' : Fs) : Prop :=
  Upset σ x ∨
  (∃ df kf lf K', fs .dat = some df ∧ fs .key = some kf ∧ fs .log = some lf ∧ ValidFor c df.cur kf.cur lf.cur ∧
    Replay (blockSizeOf kf.cur) df.cur.length (bucketsOf kf.cur) (lf.cur.drop 62) kf.cur K' (.error x) ∧
    KeyIs fs K' fs') ∨
  ((∃ e, x = .err e) ∧ (fs' = fs ∨ ∃ kf, fs .key = some kf ∧ kf.cur.length ≤ 104) ∧
    ∀ df kf lf, fs .dat = some df → fs .key = some kf → fs .log = some lf →
    ¬ ValidFor c df.cur kf.cur lf.cur)

/-- `recover` on arbitrary files. -/
theorem wp_recover_any {w : World} : wp σ (recover c)
    (fun _ w' => Success c w.fs w'.fs)
    (fun x w' => Refusal c σ w.fs x w'.fs) w := by
  have hf : ∀ x fs', IsFault x → Faulty σ → Refusal c σ w.fs x fs' := fun x _ hx hf => .inl (.fault hx hf)
  unfold recover
  apply wp_bind
  cases hd : w.fs .dat with
  | none =>
    refine wp_fOpen_none hd (.inr (.inr ⟨⟨_, rfl⟩, .inl rfl, ?_⟩)) (fun x hx h => hf x _ hx h)
    intro df kf lf h; rw [hd] at h; cases h
  | some df =>
  have he : ∀ e fs', (fs' = w.fs ∨ ∃ kf, w.fs .key = some kf ∧ kf.cur.length ≤ 104) → (∀ kf lf, w.fs .key = some kf → w.fs .log = some lf → ¬ ValidFor c df.cur kf.cur lf.cur) →
      Refusal c σ w.fs (.err e) fs' := by
    intro e fs' hu h
    refine .inr (.inr ⟨⟨_, rfl⟩, hu, ?_⟩)
    intro df' kf lf h1 h2 h3
    rw [hd] at h1; cases h1
    exact h kf lf h2 h3
  apply wp_fOpen hd _ (fun x hx h => hf x _ hx h)
  apply wp_bind
  apply wp_fSize (by exact hd) _ (fun x hx h => hf x _ hx h)
  apply wp_bind
  unfold readDatHeader
  apply wp_bind
  apply wp_fRead_any (by exact hd) (by decide) _
    (fun h => he _ _ (.inl rfl) (fun _ _ _ _ hv => by have := hv.dlen; simp only [datHeaderSize] at h; omega)) (fun x hx h => hf x _ hx h)
  intro h92
  apply wp_ret
  apply wp_bind
  simp only [datHeaderSize]
  cases hv : verifyDat (getDatHeader (slice df.cur 0 92)) with
  | error e => exact he _ _ (.inl rfl) (fun _ _ _ _ hv' => by have := hv'.dat; rw [hv] at this; cases this)
  | ok u =>
  apply wp_check_ok rfl
  apply wp_bind
  cases hk : w.fs .key with
  | none =>
    exact wp_fOpen_none (by exact hk) (he _ _ (.inl rfl) (fun _ _ h => by rw [hk] at h; cases h)) (fun x hx h => hf x _ hx h)
  | some kf =>
  have he' : ∀ e fs', (fs' = w.fs ∨ ∃ kf, w.fs .key = some kf ∧ kf.cur.length ≤ 104) → (∀ lf, w.fs .log = some lf → ¬ ValidFor c df.cur kf.cur lf.cur) →
      Refusal c σ w.fs (.err e) fs' := by
    intro e fs' hu h
    apply he _ _ hu
    intro kf' lf h1 h2
    rw [hk] at h1; cases h1
    exact h lf h2
  apply wp_fOpen (by exact hk) _ (fun x hx h => hf x _ hx h)
  apply wp_bind
  apply wp_fSize (by exact hk) _ (fun x hx h => hf x _ hx h)
  split
  · -- the key file is too short
    rename_i hkl
    have hbad : ∀ lf, w.fs .log = some lf → ¬ ValidFor c df.cur kf.cur lf.cur := by
      intro lf _ hv
      have := hv.klen
      simp only [keyHeaderSize] at hkl
      omega
    apply wp_bind
    unfold eraseFile
    apply wp_bind
    apply wp_attempt
    have hrest : ∀ (w' : World) (Q : Unit → World → Prop), w'.fs .key = some kf →
        wp σ (do fErase .key; M.fail .no_key_file : M Unit) Q (fun x w' => Refusal c σ w.fs x w'.fs) w' := by
      intro w' Q h'
      apply wp_bind
      apply wp_fErase h' _ (fun x hx h => hf x _ hx h)
      exact wp_fail (he' _ _ (.inr ⟨kf, hk, by simp only [keyHeaderSize] at hkl; exact hkl⟩) hbad)
    cases hl : w.fs .log with
    | none =>
      apply wp_fErase_none (by exact hl)
      · simp only
        apply wp_ret
        apply hrest
        exact hk
      · intro x hx h
        rcases hx with rfl | rfl
        · exact hf _ _ (.inl rfl) h
        · exact wp_fail (hf _ _ (.inr rfl) h)
    | some lf =>
      apply wp_fErase (by exact hl)
      · simp only
        apply wp_ret
        apply hrest
        simpa using hk
      · intro x hx h
        rcases hx with rfl | rfl
        · exact hf _ _ (.inl rfl) h
        · exact wp_fail (hf _ _ (.inr rfl) h)
  rename_i hkl
  simp only [keyHeaderSize] at hkl
  apply wp_bind
  apply wp_attempt
  cases hl : w.fs .log with
  | none =>
    apply wp_fOpen_none (by exact hl)
    · simp only
      apply wp_ret
      exact ⟨df, kf, hd, hk, .inl ⟨hl, rfl⟩⟩
    · intro x hx h
      rcases hx with rfl | rfl
      · exact hf _ _ (.inl rfl) h
      · exact wp_fail (hf _ _ (.inr rfl) h)
  | some lf =>
  have he2 : ∀ e fs', fs' = w.fs → ¬ ValidFor c df.cur kf.cur lf.cur → Refusal c σ w.fs (.err e) fs' := by
    intro e fs' hu h
    apply he' _ _ (.inl hu)
    intro lf' h2
    rw [hl] at h2; cases h2
    exact h
  apply wp_fOpen (by exact hl)
  rotate_left
  · intro x hx h
    rcases hx with rfl | rfl
    · exact hf _ _ (.inl rfl) h
    · exact wp_fail (hf _ _ (.inr rfl) h)
  simp only
  apply wp_bind
  apply wp_fSize (by exact hl) _ (fun x hx h => hf x _ hx h)
  apply wp_bind
  apply wp_attempt
  unfold readLogHeader
  apply wp_bind
  have hclear : ∀ (w' : World), w'.fs = w.fs → lf.cur.length < 62 →
      wp σ clearLog (fun _ w' => Success c w.fs w'.fs) (fun x w' => Refusal c σ w.fs x w'.fs) w' := by
    intro w' h hn
    refine wp_conseq (wp_clearLog_any (by rw [h]; exact hl)) ?_ (fun x w' h => .inl h)
    rintro _ w'' ⟨h1, h2, h3⟩
    rw [h] at h1 h2
    exact ⟨df, kf, hd, hk, .inr ⟨lf, hl, .inl ⟨hn, h1, h2, h3⟩⟩⟩
  apply wp_fRead_any (by exact hl) (by decide)
  rotate_left
  · intro h
    simp only [logHeaderSize] at h
    apply hclear
    · rfl
    · omega
  · intro x hx h
    rcases hx with rfl | rfl
    · exact hf _ _ (.inl rfl) h
    · exact wp_fail (hf _ _ (.inr rfl) h)
  intro h62
  simp only [logHeaderSize] at h62
  apply wp_ret
  simp only
  apply wp_bind
  rw [show logHeaderSize = 62 from rfl]
  cases hvl : verifyLog c.H (getLogHeader (slice lf.cur 0 62)) with
  | error e => exact he2 _ _ rfl (fun hv' => by have := hv'.log; rw [hvl] at this; cases this)
  | ok u =>
  apply wp_check_ok rfl
  by_cases h0 : (getLogHeader (slice lf.cur 0 62)).keyFileSize = 0
  · rw [if_pos h0]
    refine wp_conseq (wp_truncFiles_any (by exact hd) (by exact hk) (by exact hl)) ?_ (fun x w' h => .inl h)
    rintro _ w'' ⟨_, a2, a3⟩
    rw [if_pos h0] at a2
    exact ⟨df, kf, hd, hk, .inr ⟨lf, hl, .inr (.inl ⟨h62, hvl, h0, a2, a3⟩)⟩⟩
  · rw [if_neg h0]
    apply wp_bind
    refine wp_conseq (wp_replayLog_any (by exact hk) (by exact hl) h62 (by omega)) ?_ ?_
    · rintro _ w1 ⟨hchk, K', hr, hK⟩
      obtain ⟨kf1, hk1, hkc⟩ := hK.key
      refine wp_conseq (wp_truncFiles_any (by rw [hK.dat]; exact hd) hk1 (by rw [hK.log]; exact hl)) ?_ (fun x w' h => .inl h)
      rintro _ w2 ⟨a1, a2, a3⟩
      rw [if_neg h0, hkc] at a2
      exact ⟨df, kf, hd, hk, .inr ⟨lf, hl, .inr (.inr ⟨⟨h92, hv, by omega, h62, hvl, h0, hchk⟩, K', hr, a1, a2, a3⟩)⟩⟩
    · rintro x w1 (⟨⟨e, rfl⟩, hu, hn⟩ | ⟨hchk, K', hr, hK⟩ | ⟨h1, h2, _⟩)
      · exact he2 _ _ hu (fun hv => hn hv.check)
      · exact .inr (.inl ⟨df, kf, lf, K', hd, hk, hl, ⟨h92, hv, by omega, h62, hvl, h0, hchk⟩, hr, hK⟩)
      · exact .inl ⟨h1, h2⟩

end

end NuDB
