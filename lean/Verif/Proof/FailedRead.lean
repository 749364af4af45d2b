import Verif.Proof.ReplayRecords
/- `recover` on a log that does not fit into the buffer, with one failing read. -/
namespace NuDB

open Spec

section
variable {c : Cfg} {σ : Schedule} {w : World} {X : Exc → World → Prop}

theorem wp_undisturbed {α : Type} {ok : Fs → Except Exc α × Fs} {part : Fs → Nat → Fs} {Q : α → World → Prop} {a : α}
    {fs' : Fs} (hσ : σ w.clock = .none) (h : ok w.fs = (.ok a, fs')) (hQ : Q a (w.tick fs')) :
    wp σ (fileOp ok part) Q X w := by
  unfold wp fileOp
  rw [hσ]
  simp only [h]
  exact hQ

theorem wp_failing {α : Type} {ok : Fs → Except Exc α × Fs} {part : Fs → Nat → Fs} {Q : α → World → Prop} {k : Nat}
    (hσ : σ w.clock = .fail k) (hX : X (.err .io) (w.tick (part w.fs k))) :
    wp σ (fileOp ok part) Q X w := by
  unfold wp fileOp
  rw [hσ]
  exact hX

/-- `prepare` when the bytes are in the buffer. -/
theorem wp_prepare_memory {r : Reader} {F : Bytes} {n : Nat} {Q : Bytes × Reader → World → Prop} (hr : RInv r F)
    (hn : n ≤ r.avail)
    (hQ : ∀ r', RInv r' F → r'.path = r.path → r'.last = r.last → r'.offset = r.offset → r'.pos = r.pos + n →
      r'.buf.length = r.buf.length → Q (slice F r.pos n, r') w) :
    wp σ (r.prepare c n) Q X w := by
  have hdata := hr.data
  have h2 := hr.off
  have h3 := hr.avail
  have h4 := hr.room
  have hpos : r.pos = r.offset - r.avail := rfl
  unfold Reader.prepare
  rw [if_neg (by omega)]
  apply wp_bind
  apply wp_ret
  apply wp_bind
  apply wp_lift_ok (peek_ok (by omega))
  apply wp_ret
  have hout : slice r.buf r.used n = slice F r.pos n := by
    have e : slice _ 0 n = slice _ 0 n := congrArg (fun x => slice x 0 n) hdata
    rw [slice_slice (by omega), slice_slice (by omega)] at e
    simpa [hpos] using e
  rw [hout]
  refine hQ _ ⟨hr.last, h2, by simp; omega, by simp; omega, ?_⟩ rfl rfl rfl ?_ rfl
  · have e : slice _ n (r.avail - n) = slice _ n (r.avail - n) := congrArg (fun x => slice x n (r.avail - n)) hdata
    rw [slice_slice (by omega), slice_slice (by omega)] at e
    simp only
    rw [e]; congr 1; omega
  · simp only [Reader.pos]; omega

/-- `prepare` when the read fails. -/
theorem wp_prepare_failing {r : Reader} {F : Bytes} {n k : Nat} {Q : Bytes × Reader → World → Prop} (hr : RInv r F)
    (hn : r.avail < n) (hl : r.pos + n ≤ r.last) (hσ : σ w.clock = .fail k) (hX : X (.err .io) (w.tick w.fs)) :
    wp σ (r.prepare c n) Q X w := by
  have h3 := hr.avail
  have h4 := hr.room
  have hpos : r.pos = r.offset - r.avail := rfl
  unfold Reader.prepare
  rw [if_pos hn, if_neg (by omega)]
  apply wp_bind
  apply wp_lift_ok (peek_ok h4)
  apply wp_bind
  have hol : (slice r.buf r.used r.avail).length = r.avail := slice_length_of_le h4
  apply wp_lift_ok (poke_ok (by rw [hol]; split <;> simp <;> omega))
  apply wp_bind
  exact wp_failing hσ hX

/-- The first `prepare`. -/
theorem wp_prepare_first {p : Path} {f : FileSt} {o N n : Nat} {Q : Bytes × Reader → World → Prop}
    (hf : w.fs p = some f) (hN : n ≤ N) (h0 : 0 < n) (hl : o + N ≤ f.cur.length) (hσ : σ w.clock = .none)
    (hQ : ∀ r', RInv r' f.cur → r'.path = p → r'.last = f.cur.length → r'.offset = o + N → r'.pos = o + n →
      r'.buf.length = N → Q (slice f.cur o n, r') (w.tick w.fs)) :
    wp σ ((Reader.new c p o f.cur.length N).prepare c n) Q X w := by
  unfold Reader.prepare
  have e0 : (Reader.new c p o f.cur.length N).avail = 0 := rfl
  have e1 : (Reader.new c p o f.cur.length N).offset = o := rfl
  have e2 : (Reader.new c p o f.cur.length N).last = f.cur.length := rfl
  have e3 : (Reader.new c p o f.cur.length N).buf = c.fresh N := rfl
  have e4 : (Reader.new c p o f.cur.length N).used = 0 := rfl
  have e5 : (Reader.new c p o f.cur.length N).path = p := rfl
  rw [if_pos (by rw [e0]; exact h0), if_neg (by rw [e0, e1, e2]; omega)]
  apply wp_bind
  apply wp_lift_ok (peek_ok (by rw [e4, e0]; simp))
  rw [e3, if_neg (by rw [fresh_length]; omega), e0, e4, e1, e2, e5]
  apply wp_bind
  have hz : (slice (c.fresh N) 0 0).length = 0 := by simp [slice]
  apply wp_lift_ok (poke_ok (by rw [hz]; simp))
  apply wp_bind
  have hl0 : (put (c.fresh N) 0 (slice (c.fresh N) 0 0)).length = N := by rw [put_length (by rw [hz]; simp)]; simp
  have hmin : min ((put (c.fresh N) 0 (slice (c.fresh N) 0 0)).length - 0) (f.cur.length - o) = N := by
    rw [hl0]; omega
  simp only [hmin]
  unfold fRead
  apply wp_undisturbed (a := slice f.cur o N) (fs' := w.fs) hσ
  · simp only [hf]; rw [if_pos (.inr hl)]
  apply wp_bind
  have hsl : (slice f.cur o N).length = N := slice_length_of_le hl
  have hk : 0 + (slice f.cur o N).length ≤ (put (c.fresh N) 0 (slice (c.fresh N) 0 0)).length := by rw [hsl, hl0]; omega
  apply wp_lift_ok (poke_ok hk)
  apply wp_bind
  apply wp_ret
  have hbuf : put (put (c.fresh N) 0 (slice (c.fresh N) 0 0)) 0 (slice f.cur o N) = slice f.cur o N := by
    have : ∀ q : Bytes, q.length = N → put q 0 (slice f.cur o N) = slice f.cur o N := by
      intro q hq
      unfold put
      rw [List.take_zero, List.nil_append, List.drop_of_length_le (by omega), List.append_nil]
    exact this _ hl0
  rw [hbuf]
  apply wp_bind
  apply wp_lift_ok (peek_ok (by simp only [hsl]; omega))
  apply wp_ret
  have hout : slice (slice f.cur o N) 0 n = slice f.cur o n := by rw [slice_slice (by omega)]; rfl
  simp only [hout]
  refine hQ _ ⟨Nat.le_refl _, hl, by simp; omega, by simp only [hsl]; omega, ?_⟩ rfl rfl rfl ?_ hsl
  · simp only [Nat.zero_add]
    rw [slice_slice (by omega)]; congr 1; omega
  · simp only [Reader.pos]; omega

/-- The reader has read `N` bytes after the header of the log, of which `u` are used up. -/
structure LogAt (r : Reader) (F : Bytes) (N u : Nat) : Prop where
  inv : RInv r F
  path : r.path = .log
  last : r.last = F.length
  offset : r.offset = 62 + N
  pos : r.pos = 62 + u
  le : u ≤ N

theorem LogAt.avail {r : Reader} {F : Bytes} {N u : Nat} (h : LogAt r F N u) : r.avail = N - u := by
  have h1 := h.pos
  have h2 := h.inv.avail
  have h3 := h.offset
  have : r.pos = r.offset - r.avail := rfl
  have := h.le
  omega

theorem wp_prepare_loaded {r : Reader} {F : Bytes} {N u n : Nat} {Q : Bytes × Reader → World → Prop}
    (hr : LogAt r F N u) (hn : u + n ≤ N) (hQ : ∀ r', LogAt r' F N (u + n) → Q (slice F (62 + u) n, r') w) :
    wp σ (r.prepare c n) Q X w := by
  apply wp_prepare_memory hr.inv (by rw [hr.avail]; omega)
  intro r' h1 h2 h3 h4 h5 h6
  rw [hr.pos]
  exact hQ r' ⟨h1, h2.trans hr.path, h3.trans hr.last, h4.trans hr.offset, by rw [h5, hr.pos]; omega, hn⟩

/-- The rest of a round of the record loop, for a record in the buffer. -/
theorem wp_record_loaded {cf : Conf} {D K : Bytes} {recs : List Rec} {B Bk size : Nat} {view : View}
    (hdb : Db c cf D K recs B view) (hBk : B ≤ Bk) (hsize : D.length ≤ size) {n : Nat} (hn : n < B)
    {b : Bkt} (hb : b.bs = cf.blockSize) (hbl : b.p.length = cf.blockSize) {r : Reader} {F t : Bytes} {N u : Nat}
    (hr : LogAt r F N u) (hd : F.drop (62 + u) = encBkt (view n).1 (view n).2 ++ t)
    (hu : u + bucketSize (view n).1.length ≤ N) {kf : FileSt} (hk : w.fs .key = some kf) (hK : kf.cur = K)
    (hσ : σ w.clock = .none) {Q : LogStep → World → Prop}
    (hQ : ∀ b' r' kf', LogAt r' F N (u + bucketSize (view n).1.length) → Rep b' (view n).1 (view n).2 →
      b'.bs = cf.blockSize → kf'.cur = K → Q (.next b' r') (w.tick (w.fs.set .key (some kf')))) :
    wp σ (do
      match ← M.attempt (b.readHead c r) with
      | .error .short_read => M.ret .done
      | .error e => do
        let _ ← recoverWrite (cf.kh c.H Bk) size n b
        M.fail e
      | .ok (b, r) =>
        match ← M.attempt (b.readBody c r) with
        | .error .short_read => M.ret .done
        | .error e => do
          let _ ← recoverWrite (cf.kh c.H Bk) size n b
          M.fail e
        | .ok (b, r) => do
          let b ← recoverWrite (cf.kh c.H Bk) size n b
          M.ret (.next b r) : M LogStep) Q X w := by
  have hcf := hdb.conf
  have h104 := hcf.bs1
  have hok := hdb.filed n hn
  have hes : (view n).1.length < 2 ^ 16 := by
    have h1 := hok.len
    have h2 := hcf.cap_le
    have h3 := hcf.bs2
    simp only [bucketSize] at h2; omega
  simp only [bucketSize] at hu
  apply wp_bind
  apply wp_attempt
  unfold Bkt.readHead
  apply wp_bind
  apply wp_prepare_loaded hr (by omega)
  intro r1 h1
  have hsl : slice F (62 + u) 8 = putU16 (view n).1.length ++ putU48 (view n).2 := by
    have : slice F (62 + u) 8 = (F.drop (62 + u)).take 8 := rfl
    rw [this, hd, encBkt, List.append_assoc, List.take_append_of_le_length (by simp), List.take_of_length_le (by simp)]
  simp only [hsl]
  apply wp_bind
  have e1 : slice (putU16 (view n).1.length ++ putU48 (view n).2) 0 2 = putU16 (view n).1.length := rfl
  have e2 : slice (putU16 (view n).1.length ++ putU48 (view n).2) 2 6 = putU48 (view n).2 := rfl
  rw [e1, e2, getU16_putU16 hes, getU48_putU48 hok.lt48]
  apply wp_lift_ok (update_ok (hd := b.p.take 8) (rest := b.p.drop 8) (by simp) (by simp; omega) hes hok.lt48)
  apply wp_ret
  simp only
  apply wp_bind
  apply wp_attempt
  unfold Bkt.readBody
  apply wp_bind
  apply wp_prepare_loaded h1 (by simp only; omega)
  intro r2 h2
  have hd2 : slice F (62 + (u + 8)) ((view n).1.length * 18) = encEntries (view n).1 := by
    have : slice F (62 + (u + 8)) ((view n).1.length * 18) = ((F.drop (62 + u)).drop 8).take ((view n).1.length * 18) := by
      rw [List.drop_drop]; rfl
    rw [this, hd, encBkt, List.append_assoc, List.drop_append_of_le_length (by simp), List.drop_of_length_le (by simp),
      List.nil_append, List.take_append_of_le_length (by simp), List.take_of_length_le (by simp)]
  simp only [hd2]
  apply wp_bind
  have hq : (view n).1.length * 18 ≤ (b.p.drop 8).length := by
    have := hcf.cap_le; have := hok.len
    simp only [bucketSize, List.length_drop] at *; omega
  have e : putU16 (view n).1.length ++ putU48 (view n).2 ++ b.p.drop 8 =
      (putU16 (view n).1.length ++ putU48 (view n).2) ++
        ((b.p.drop 8).take ((view n).1.length * 18) ++ (b.p.drop 8).drop ((view n).1.length * 18)) := by
    rw [List.take_append_drop]
  rw [e]
  apply wp_lift_ok (poke_mid (by rfl) (by rw [List.length_take]; simp only [encEntries_length]; omega))
  apply wp_ret
  simp only
  generalize hb3 : (Bkt.mk b.bs (view n).1.length (view n).2 _) = b3
  have k5 : Rep b3 (view n).1 (view n).2 := by
    subst hb3
    refine ⟨rfl, rfl, ⟨(b.p.drop 8).drop ((view n).1.length * 18), ?_⟩, ?_, by simp only [hb]; exact hcf.bs2, hok.fit, hok.lt48⟩
    · simp [encBkt]
    · simp [hb] at hq ⊢; omega
  have k6 : b3.bs = cf.blockSize := by rw [← hb3]; exact hb
  apply wp_bind
  unfold recoverWrite
  have hsp : ¬ (b3.spill ≠ 0 ∧ b3.spill + bucketSize (cf.kh c.H Bk).capacity > size) := by
    rintro ⟨q1, q2⟩
    obtain ⟨Lc, hch, _⟩ := hok.chain
    rw [k5.spill] at q1 q2
    have := hch.le_length q1
    have q3 : (cf.kh c.H Bk).capacity = cf.cap := rfl
    rw [q3] at q2
    omega
  rw [if_neg hsp, if_neg (by show ¬ n > Bk; omega)]
  have hblk := hdb.block hn
  have hpad := k5.padded
  rw [k6] at hpad
  have hpr : Rep { b3 with p := encBkt (view n).1 (view n).2 ++ zeros (cf.blockSize - bucketSize (view n).1.length) }
      (view n).1 (view n).2 := by
    rw [← k6]; exact k5.pad
  apply wp_bind
  apply wp_lift_ok hpad
  apply wp_bind
  unfold fWrite
  apply wp_undisturbed (a := ()) hσ
  · simp only [hk]; rfl
  · apply wp_ret
    apply wp_ret
    have : bucketSize (view n).1.length = 8 + (view n).1.length * 18 := by simp only [bucketSize]
    rw [this] at hQ
    refine hQ _ r2 _ (by rw [← Nat.add_assoc]; exact h2) hpr k6 ?_
    rw [cur_push, hK]
    exact writeAt_own hblk.1

/-- Files after the wrong block was written. -/
structure Wrong (cf : Conf) (K : Bytes) (view : View) (n m : Nat) (fs fs' : Fs) : Prop where
  dat : fs' .dat = fs .dat
  log : fs' .log = fs .log
  key : ∃ kf, fs' .key = some kf ∧
    kf.cur = writeAt K ((n + 1) * cf.blockSize) (encBlock cf.blockSize (view m).1 (view m).2)

theorem Wrong.of_set {cf : Conf} {K : Bytes} {view : View} {n m : Nat} {fs fs' : Fs} {kf : FileSt}
    (h : Wrong cf K view n m (fs.set .key (some kf)) fs') : Wrong cf K view n m fs fs' :=
  ⟨h.dat, h.log, h.key⟩

/-- The last, incomplete record: its number is in the buffer, the rest is not, and the read fails. -/
theorem wp_record_fails {cf : Conf} {D K : Bytes} {recs : List Rec} {B Bk size : Nat} {view : View}
    (hdb : Db c cf D K recs B view) (hBk : B ≤ Bk) (hsize : D.length ≤ size) {n m : Nat} (hn : n < B) (hm : m < B)
    {b : Bkt} (hb : b.bs = cf.blockSize) (hrep : Rep b (view m).1 (view m).2) {r : Reader} {F : Bytes} {N u : Nat}
    (hr : LogAt r F N u) (h1 : u ≤ N) (h2 : N < u + 8) (hl : 62 + u + 8 ≤ F.length)
    {kf : FileSt} (hk : w.fs .key = some kf) (hK : kf.cur = K)
    (hσ : σ w.clock = .fail 0) (hσ' : σ (w.clock + 1) = .none) {Q : LogStep → World → Prop}
    (hX : ∀ w', Wrong cf K view n m w.fs w'.fs → X (.err .io) w') :
    wp σ (do
      match ← M.attempt (b.readHead c r) with
      | .error .short_read => M.ret .done
      | .error e => do
        let _ ← recoverWrite (cf.kh c.H Bk) size n b
        M.fail e
      | .ok (b, r) =>
        match ← M.attempt (b.readBody c r) with
        | .error .short_read => M.ret .done
        | .error e => do
          let _ ← recoverWrite (cf.kh c.H Bk) size n b
          M.fail e
        | .ok (b, r) => do
          let b ← recoverWrite (cf.kh c.H Bk) size n b
          M.ret (.next b r) : M LogStep) Q X w := by
  have hok := hdb.filed m hm
  apply wp_bind
  apply wp_attempt
  unfold Bkt.readHead
  apply wp_bind
  apply wp_prepare_failing hr.inv (by rw [hr.avail]; omega) (by rw [hr.pos, hr.last]; omega) hσ
  simp only
  apply wp_bind
  unfold recoverWrite
  have hsp : ¬ (b.spill ≠ 0 ∧ b.spill + bucketSize (cf.kh c.H Bk).capacity > size) := by
    rintro ⟨q1, q2⟩
    obtain ⟨Lc, hch, _⟩ := hok.chain
    rw [hrep.spill] at q1 q2
    have := hch.le_length q1
    have q3 : (cf.kh c.H Bk).capacity = cf.cap := rfl
    rw [q3] at q2
    omega
  rw [if_neg hsp, if_neg (by show ¬ n > Bk; omega)]
  have hpad := hrep.padded
  rw [hb] at hpad
  apply wp_bind
  apply wp_lift_ok hpad
  apply wp_bind
  unfold fWrite
  apply wp_undisturbed (a := ()) hσ'
  · simp only [tick_fs, hk]; rfl
  · apply wp_ret
    apply wp_fail
    apply hX
    refine ⟨rfl, rfl, _, rfl, ?_⟩
    rw [cur_push, hK]
    rfl

/-- The record loop. `m` is the bucket of the previous record. -/
theorem wp_loop_fails {cf : Conf} {D K : Bytes} {recs : List Rec} {B Bk size : Nat} {view : View}
    (hdb : Db c cf D K recs B view) (hBk : B ≤ Bk) (hsize : D.length ≤ size) {n : Nat} (hn : n < B) {F rest : Bytes} {N : Nat}
    (hpre : rest <+: logRec view n) (h16 : 16 ≤ rest.length) {Q : Unit → World → Prop} :
    ∀ (ns : List Nat) (m fuel : Nat) (b : Bkt) (r : Reader) (w : World) (kf : FileSt) (u : Nat),
    (∀ k ∈ m :: ns, k < B) → LogAt r F N u → F.drop (62 + u) = ns.flatMap (logRec view) ++ rest →
    u + (ns.flatMap (logRec view)).length + 8 ≤ N → N < u + (ns.flatMap (logRec view)).length + 16 →
    ns.length < fuel → b.bs = cf.blockSize → Rep b (view m).1 (view m).2 → w.fs .key = some kf → kf.cur = K →
    (∀ i, i ≠ w.clock + ns.length → σ i = .none) → σ (w.clock + ns.length) = .fail 0 →
    (∀ w', Wrong cf K view n ((m :: ns).getLast (by simp)) w.fs w'.fs → X (.err .io) w') →
    wp σ (recoverLoop c (cf.kh c.H Bk) size fuel b r) Q X w := by
  intro ns
  induction ns with
  | nil =>
    intro m fuel b r w kf u hns hr hd h1 h2 hfuel hb hrep hk hK hσ hσ' hX
    obtain ⟨fuel, rfl⟩ : ∃ k, fuel = k + 1 := ⟨fuel - 1, by omega⟩
    simp only [List.flatMap_nil, List.nil_append, List.length_nil, Nat.add_zero] at hd h1 h2 hσ hσ'
    have hdl : F.length - (62 + u) = rest.length := by
      have := congrArg List.length hd
      rwa [List.length_drop] at this
    unfold recoverLoop
    apply wp_bind
    unfold recoverStep
    rw [if_neg (by simp [Reader.eof]; rw [hr.pos, hr.last]; omega)]
    apply wp_bind
    apply wp_attempt
    apply wp_prepare_loaded hr h1
    intro r1 g1
    have hsl : slice F (62 + u) 8 = putU64 n := by
      have : slice F (62 + u) 8 = (F.drop (62 + u)).take 8 := rfl
      rw [this, hd]
      obtain ⟨t, ht⟩ := hpre
      have h5 : rest.take 8 = (rest ++ t).take 8 := by rw [List.take_append_of_le_length (by omega)]
      rw [h5, ht, logRec, List.take_append_of_le_length (by simp), List.take_of_length_le (by simp)]
    have hn64 : n < 2 ^ 64 := by have := hdb.b2; omega
    simp only [hsl, getU64_putU64 hn64]
    apply wp_bind
    apply wp_lift_ok (assert_ok (by have := hdb.b2; simp; omega))
    apply wp_record_fails hdb hBk hsize hn (hns m (by simp)) hb hrep g1 h1 (by omega) (by omega) hk hK hσ'
      (hσ _ (by omega))
    exact hX
  | cons k ns ih =>
    intro m fuel b r w kf u hns hr hd h1 h2 hfuel hb hrep hk hK hσ hσ' hX
    obtain ⟨fuel, rfl⟩ : ∃ k, fuel = k + 1 := ⟨fuel - 1, by omega⟩
    have hkB := hns k (by simp)
    simp only [List.flatMap_cons, List.append_assoc] at hd
    simp only [List.flatMap_cons, List.length_append, logRec_length] at h1 h2
    have hdl : F.length - (62 + u) = (logRec view k).length + ((ns.flatMap (logRec view)) ++ rest).length := by
      have := congrArg List.length hd
      rwa [List.length_drop, List.length_append] at this
    rw [logRec_length] at hdl
    unfold recoverLoop
    apply wp_bind
    unfold recoverStep
    rw [if_neg (by simp [Reader.eof]; rw [hr.pos, hr.last]; omega)]
    apply wp_bind
    apply wp_attempt
    apply wp_prepare_loaded hr (by omega)
    intro r1 g1
    have hsl : slice F (62 + u) 8 = putU64 k := by
      have : slice F (62 + u) 8 = (F.drop (62 + u)).take 8 := rfl
      rw [this, hd, logRec, List.append_assoc, List.take_append_of_le_length (by simp), List.take_of_length_le (by simp)]
    have hn64 : k < 2 ^ 64 := by have := hdb.b2; omega
    simp only [hsl, getU64_putU64 hn64]
    apply wp_bind
    apply wp_lift_ok (assert_ok (by have := hdb.b2; simp; omega))
    have hd1 : F.drop (62 + (u + 8)) = encBkt (view k).1 (view k).2 ++ (ns.flatMap (logRec view) ++ rest) := by
      rw [← Nat.add_assoc, ← List.drop_drop, hd, logRec, List.append_assoc, List.drop_append_of_le_length (by simp),
        List.drop_of_length_le (by simp), List.nil_append]
    simp only [List.length_cons] at hσ hσ' hfuel
    apply wp_record_loaded hdb hBk hsize hkB hb (by rw [hrep.len, hb]) g1 hd1 (by omega) hk hK (hσ _ (by omega))
    intro b' r' kf' g2 g3 g4 g5
    simp only
    apply ih k fuel b' r' _ kf' _ (fun j hj => hns j (List.mem_cons_of_mem _ hj)) g2 ?_ (by omega) (by omega) (by omega) g4 g3
      (by simp only [tick_fs]; exact Fs.set_same _ _ _) g5
    · intro i hi
      apply hσ
      simp only [World.tick] at hi
      omega
    · simp only [World.tick]
      rw [show w.clock + 1 + ns.length = w.clock + (ns.length + 1) by omega]
      exact hσ'
    · intro w' hw
      simp only [tick_fs] at hw
      refine hX w' ?_
      rw [List.getLast_cons (by simp)]
      exact hw.of_set
    · rw [← Nat.add_assoc, ← List.drop_drop, hd1, List.drop_append_of_le_length (by simp), List.drop_of_length_le (by simp),
        List.nil_append]

/-- `recover` with a failing read after `11 + ns.length` file operations. -/
theorem recover_fails {cf : Conf} {D K : Bytes} {recs : List Rec} {B : Nat} {view : View}
    (hdb : Db c cf D K recs B view) {ns : List Nat} (hne : ns ≠ []) (hns : ∀ k ∈ ns, k < B) {n : Nat} (hn : n < B)
    {rest : Bytes} (hpre : rest <+: logRec view n) (h16 : 16 ≤ rest.length)
    (h1 : (ns.flatMap (logRec view)).length + 8 ≤ 1024 * cf.blockSize)
    (h2 : 1024 * cf.blockSize < (ns.flatMap (logRec view)).length + 16) {fs : Fs} {df kf lf : FileSt}
    (hd : fs .dat = some df) (hk : fs .key = some kf) (hl : fs .log = some lf) (hD : df.cur = D) (hK : kf.cur = K)
    (hL : lf.cur = putLogHeader (cf.lh c.H K.length D.length) ++ (ns.flatMap (logRec view) ++ rest))
    (hσ : σ = fun i => if i = 11 + ns.length then .fail 0 else .none) :
    ∃ w', recover c σ ⟨fs, 0, []⟩ = (.error (.err .io), w') ∧ Wrong cf K view n (ns.getLast hne) fs w'.fs := by
  have hcalm : ∀ i, i ≠ 11 + ns.length → σ i = .none := by intro i hi; rw [hσ]; simp [hi]
  have hfail : σ (11 + ns.length) = .fail 0 := by rw [hσ]; simp
  suffices h : wp σ (recover c) (fun _ _ => False)
      (fun x w' => x = .err .io ∧ Wrong cf K view n (ns.getLast hne) fs w'.fs) ⟨fs, 0, []⟩ by
    unfold wp at h
    generalize recover c σ ⟨fs, 0, []⟩ = p at h
    obtain ⟨r, w'⟩ := p
    cases r with
    | ok u => exact h.elim
    | error x => obtain ⟨rfl, h⟩ := h; exact ⟨w', rfl, h⟩
  have hcf := hdb.conf
  have hkl := hdb.klen
  have hdl : 92 ≤ D.length := by rw [hdb.dat.eq]; simp
  have h104 := hcf.bs1
  have h62 : 62 ≤ lf.cur.length := by rw [hL]; simp
  obtain ⟨n1, ns, rfl⟩ : ∃ x y, ns = x :: y := by
    cases ns with
    | nil => exact absurd rfl hne
    | cons x y => exact ⟨x, y, rfl⟩
  simp only [List.length_cons] at hcalm hfail
  have hc : ∀ i, i ≤ 11 → σ i = .none := fun i hi => hcalm i (by omega)
  unfold recover
  apply wp_bind
  unfold fOpen fSize
  apply wp_undisturbed (a := ()) (fs' := fs) (hc _ (by simp)) (by simp only [hd])
  apply wp_bind
  apply wp_undisturbed (a := D.length) (fs' := fs) (hc _ (by simp [World.tick])) (by simp only [tick_fs, hd, hD])
  apply wp_bind
  unfold readDatHeader
  apply wp_bind
  unfold fRead
  apply wp_undisturbed (a := slice D 0 92) (fs' := fs) (hc _ (by simp [World.tick]))
    (by simp only [tick_fs, hd, hD]; exact if_pos (.inr (by show 0 + 92 ≤ _; omega)))
  apply wp_ret
  rw [get_dh hdb.dat hcf (List.prefix_refl _)]
  apply wp_bind
  apply wp_check_ok (verifyDat_ok hcf)
  apply wp_bind
  apply wp_undisturbed (a := ()) (fs' := fs) (hc _ (by simp [World.tick])) (by simp only [tick_fs, hk])
  apply wp_bind
  apply wp_undisturbed (a := K.length) (fs' := fs) (hc _ (by simp [World.tick])) (by simp only [tick_fs, hk, hK])
  rw [if_neg (by simp only [keyHeaderSize]; omega)]
  apply wp_bind
  apply wp_attempt
  apply wp_undisturbed (a := ()) (fs' := fs) (hc _ (by simp [World.tick])) (by simp only [tick_fs, hl])
  simp only
  apply wp_bind
  apply wp_undisturbed (a := lf.cur.length) (fs' := fs) (hc _ (by simp [World.tick])) (by simp only [tick_fs, hl])
  apply wp_bind
  apply wp_attempt
  unfold readLogHeader
  apply wp_bind
  unfold fRead
  apply wp_undisturbed (a := slice lf.cur 0 62) (fs' := fs) (hc _ (by simp [World.tick]))
    (by simp only [tick_fs, hl]; exact if_pos (.inr (by show 0 + 62 ≤ _; omega)))
  apply wp_ret
  simp only [get_lh (c := c) hcf hL hkl.2.1 (by have := hdb.dlen; omega)]
  apply wp_bind
  apply wp_check_ok (verifyLog_ok hcf)
  have hK0 : K.length ≠ 0 := by omega
  rw [if_neg (by exact hK0)]
  apply wp_bind
  unfold replayLog
  apply wp_bind
  unfold readKeyHeader
  apply wp_bind
  unfold fRead
  apply wp_undisturbed (a := slice K 0 104) (fs' := fs) (hc _ (by simp [World.tick]))
    (by simp only [tick_fs, hk, hK]; exact if_pos (.inr (by show 0 + 104 ≤ _; omega)))
  apply wp_bind
  unfold fSize
  apply wp_undisturbed (a := K.length) (fs' := fs) (hc _ (by simp [World.tick])) (by simp only [tick_fs, hk, hK])
  apply wp_ret
  have h1B := hdb.b1
  have hkh : getKeyHeader (slice K 0 104) K.length = cf.kh c.H B := by
    have := get_kh (v := K) (B := B) (c := c) hcf (by rw [agree_head (agree_self _ _ []) hcf.bs1 (by omega), hdb.key.head]) K.length
    rw [hkl.2.2] at this
    exact this
  simp only [hkh]
  apply wp_bind
  apply wp_check_ok (verifyKey_ok hcf (by omega))
  apply wp_bind
  apply wp_check_ok (verifyDatKey_ok hcf (by omega))
  apply wp_bind
  apply wp_check_ok (verifyKeyLog_ok hcf)
  obtain ⟨b, e1, e2, e3⟩ := ofMem_any (bs := cf.blockSize) (p := c.fresh cf.blockSize) (by simp; omega)
  apply wp_bind
  apply wp_lift_ok e1
  have hbs : (cf.kh c.H B).blockSize = cf.blockSize := rfl
  rw [hbs]
  -- the first record
  have hn1 := hns n1 (by simp)
  simp only [List.flatMap_cons, List.append_assoc] at hL
  simp only [List.flatMap_cons, List.length_append, logRec_length] at h1 h2
  have hlen : lf.cur.length = 62 + (8 + bucketSize (view n1).1.length + ((ns.flatMap (logRec view)).length + rest.length)) := by
    rw [hL]; simp [logRec_length]
  have hbk : 8 ≤ bucketSize (view n1).1.length := by simp [bucketSize]
  unfold recoverLoop
  apply wp_bind
  unfold recoverStep
  rw [if_neg (by simp [Reader.eof, Reader.pos, Reader.new, logHeaderSize]; omega)]
  apply wp_bind
  apply wp_attempt
  rw [show logHeaderSize = 62 from rfl]
  apply wp_prepare_first (by exact hl) (by omega) (by decide) (by omega) (hc _ (by simp [World.tick]))
  intro r1 a1 a2 a3 a4 a5 a6
  have g1 : LogAt r1 lf.cur (1024 * cf.blockSize) 8 := ⟨a1, a2, a3, a4, a5, by omega⟩
  have hd0 : lf.cur.drop 62 = logRec view n1 ++ (ns.flatMap (logRec view) ++ rest) := by
    rw [hL, List.drop_append_of_le_length (by simp), List.drop_of_length_le (by simp), List.nil_append]
  have hsl : slice lf.cur 62 8 = putU64 n1 := by
    have : slice lf.cur 62 8 = (lf.cur.drop 62).take 8 := rfl
    rw [this, hd0, logRec, List.append_assoc, List.take_append_of_le_length (by simp), List.take_of_length_le (by simp)]
  have hn64 : n1 < 2 ^ 64 := by have := hdb.b2; omega
  simp only [hsl, getU64_putU64 hn64]
  apply wp_bind
  apply wp_lift_ok (assert_ok (by have := hdb.b2; simp; omega))
  have hd1 : lf.cur.drop (62 + 8) = encBkt (view n1).1 (view n1).2 ++ (ns.flatMap (logRec view) ++ rest) := by
    rw [← List.drop_drop, hd0, logRec, List.append_assoc, List.drop_append_of_le_length (by simp),
      List.drop_of_length_le (by simp), List.nil_append]
  apply wp_record_loaded hdb (Nat.le_refl _) (Nat.le_refl _) hn1 e2 (by rw [e3]; simp) g1 hd1 (by omega) (by exact hk) hK
    (hc _ (by simp [World.tick]))
  intro b' r' kf' g2 g3 g4 g5
  simp only
  apply wp_loop_fails hdb (Nat.le_refl _) (Nat.le_refl _) hn hpre h16 ns n1 _ b' r' _ kf' _ hns g2 ?_ (by omega) (by omega) ?_
    g4 g3 (by simp only [tick_fs]; exact Fs.set_same _ _ _) g5
  · intro i hi
    apply hcalm
    simp only [World.tick] at hi
    omega
  · simp only [World.tick]
    rw [← hfail]; congr 1; omega
  · intro w' hw
    simp only [tick_fs] at hw
    exact ⟨rfl, hw.of_set⟩
  · rw [← Nat.add_assoc, ← List.drop_drop, hd1, List.drop_append_of_le_length (by simp), List.drop_of_length_le (by simp),
      List.nil_append]
  · have : ns.length ≤ (ns.flatMap (logRec view)).length := by
      clear hns hL h1 h2 hlen hd0 hd1 hfail hcalm hσ hne
      induction ns with
      | nil => simp
      | cons n ns ih =>
        simp only [List.flatMap_cons, List.length_append, List.length_cons, logRec_length, bucketSize]
        omega
    omega

end

end NuDB
