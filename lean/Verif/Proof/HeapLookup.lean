import Verif.Proof.HeapRead
/-
The functions of `Model/HeapRead` simulate those that work with values: `fetch`, `exists`, `insert`.
-/
namespace NuDB.Raw

/-! ### Buckets that differ in unused memory -/

/-- Buckets with the same content in memory of the same size. -/
structure Near (b b' : Bkt) : Prop where
  bs : b.bs = b'.bs
  size : b.size = b'.size
  spill : b.spill = b'.spill
  len : b.p.length = b'.p.length
  body : b.p.take (bucketSize b.size) = b'.p.take (bucketSize b.size)

theorem Near.refl (b : Bkt) : Near b b := ⟨rfl, rfl, rfl, rfl, rfl⟩

theorem peek_take {p q : Bytes} {k o n : Nat} (hl : p.length = q.length) (h : p.take k = q.take k) (hn : o + n ≤ k) :
    peek p o n = peek q o n := by
  unfold peek
  rw [hl, ← slice_take (p := p) hn, h, slice_take hn]

theorem Near.peek {b b' : Bkt} (h : Near b b') {o n : Nat} (hn : o + n ≤ bucketSize b.size) : peek b.p o n = peek b'.p o n :=
  peek_take h.len h.body hn

theorem Near.get {b b' : Bkt} (h : Near b b') {i : Nat} (hi : i < b.size) : b.get i = b'.get i := by
  unfold Bkt.get
  rw [h.peek (by unfold bucketSize; omega)]

theorem Near.lbLoop {b b' : Bkt} (h : Near b b') {x : Nat} (fuel : Nat) : ∀ first count, first + count ≤ b.size →
    Bkt.lbLoop b.p x fuel first count = Bkt.lbLoop b'.p x fuel first count := by
  induction fuel with
  | zero => intros; rfl
  | succ fuel ih =>
    intro first count hc
    unfold Bkt.lbLoop
    by_cases hz : count > 0
    · rw [if_pos hz, if_pos hz]
      dsimp only
      rw [h.peek (by unfold bucketSize; omega)]
      congr 1
      funext f
      split
      · exact ih _ _ (by omega)
      · exact ih _ _ (by omega)
    · rw [if_neg hz, if_neg hz]

theorem Near.lowerBound {b b' : Bkt} (h : Near b b') (x : Nat) : b.lowerBound x = b'.lowerBound x := by
  unfold Bkt.lowerBound
  rw [← h.size]
  exact h.lbLoop _ _ _ (by omega)

theorem Near.actual {b b' : Bkt} (h : Near b b') : b.actualSize = b'.actualSize := by
  unfold Bkt.actualSize; rw [h.size]

/-- Constructing a bucket object from any memory of this size. -/
theorem rsim_ofMem {bs : Nat} {p p' : Bytes} (hl : p.length = p'.length) :
    RSim (fun b b' => b.bs = bs ∧ b'.bs = bs ∧ b.p = p ∧ b'.p = p') (Bkt.ofMem bs p) (Bkt.ofMem bs p') := by
  unfold Bkt.ofMem
  by_cases h : 8 ≤ p.length
  · rw [peek_ok (by omega), peek_ok (by omega), peek_ok (by omega), peek_ok (by omega)]
    exact ⟨_, rfl, rfl, rfl, rfl, rfl⟩
  · by_cases h2 : 2 ≤ p'.length
    · rw [peek_ok (p := p') (by omega), show peek p' 2 6 = .error .ub from if_neg (by omega)]
      exact .inl (.inl rfl)
    · rw [show peek p' 0 2 = .error .ub from if_neg (by omega)]
      exact .inl (.inl rfl)

/-- `read(File&)` to memory of the same size. -/
theorem sim_readNear {b b' : Bkt} {p : Path} {o : Nat} (hb : b.bs = b'.bs) (hl : b.p.length = b'.p.length) :
    Sim (fun x y => Near x y ∧ x.bs = b.bs ∧ x.p.length = b.p.length ∧ x.size ≤ bucketCapacity b.bs)
      (b.readFile p o) (b'.readFile p o) := by
  unfold Bkt.readFile
  rw [hb]
  refine Sim.bind (sim_fRead _ _ _) ?_
  rintro data _ ⟨rfl, hd⟩
  by_cases hf : data.length ≤ b'.p.length
  · rw [poke_ok (by omega), poke_ok (by omega)]
    refine Sim.lift_left _ rfl ?_
    refine Sim.lift_right (fun q hq => ?_) (fun x hx => by cases hx)
    cases hq
    have hlen : (put b.p 0 data).length = (put b'.p 0 data).length := by
      rw [put_length (by omega), put_length (by omega), hl]
    have ht : ∀ k ≤ data.length, (put b.p 0 data).take k = (put b'.p 0 data).take k := by
      intro k hk
      unfold put
      simp only [List.take_zero, List.nil_append]
      rw [List.take_append_of_le_length hk, List.take_append_of_le_length hk]
    have h8 : 8 ≤ data.length := by rw [hd]; unfold bucketSize; omega
    have e1 : peek (put b.p 0 data) 0 2 = peek (put b'.p 0 data) 0 2 := peek_take hlen (ht _ h8) (by omega)
    have e2 : peek (put b.p 0 data) 2 6 = peek (put b'.p 0 data) 2 6 := peek_take hlen (ht _ h8) (by omega)
    have hl1 := put_length (p := b.p) (b := data) (o := 0) (by omega)
    have hl2 := put_length (p := b'.p) (b := data) (o := 0) (by omega)
    unfold Bkt.ofMem
    rw [e1, e2, peek_ok (by omega), peek_ok (by omega)]
    refine Sim.lift_left _ rfl ?_
    refine Sim.lift_right (fun q hq => ?_) (fun x hx => by cases hx)
    cases hq
    dsimp only
    split
    · exact Sim.fail
    · rename_i hc
      refine Sim.ret ⟨⟨rfl, rfl, rfl, hlen, ?_⟩, rfl, hl1, Nat.le_of_not_lt hc⟩
      refine ht _ ?_
      rw [hd]
      unfold bucketSize
      dsimp only
      omega
  · rw [show poke b'.p 0 data = .error .ub from if_neg (by omega)]
    exact Sim.lift_right (fun x hx => by cases hx) (fun x hx => by cases hx; exact .inl rfl)

/-! ### fetch -/

theorem fresh_len (c : Cfg) (n : Nat) : (c.fresh n).length = n := by simp [Cfg.fresh]

/-- The memory of a buffer is large enough. -/
def Buf.Ok (b : Buf) : Prop := b.size ≤ b.mem.length

theorem Buf.Ok.reserve {c : Cfg} {b : Buf} (h : b.Ok) (n : Nat) : (b.reserve c n).Ok ∧ (b.reserve c n).size = n := by
  unfold Buf.Ok at h
  unfold Buf.reserve Buf.Ok
  split
  · exact ⟨Nat.le_of_eq (fresh_len ..).symm, rfl⟩
  · refine ⟨?_, rfl⟩
    dsimp only; omega

theorem sim_fetchScan {c : Cfg} {ks h : Nat} {key : Bytes} {b b' : Bkt} (hb : Near b b') (fuel : Nat) : ∀ {i : Nat} {buf : Buf}, buf.Ok →
    Sim (fun x y => x.1 = y ∧ x.2.Ok) (rawFetchScan c ks h key b fuel i buf) (fetchScan ks h key b' fuel i) := by
  induction fuel with
  | zero => intros; exact Sim.raise
  | succ fuel ih =>
    intro i buf ho
    unfold rawFetchScan fetchScan
    rw [← hb.size]
    by_cases hi : i < b.size
    · rw [if_pos hi, if_pos hi, hb.get hi]
      refine Sim.step fun item => ?_
      by_cases hh : item.hash ≠ h
      · rw [if_pos hh, if_pos hh]; exact Sim.ret ⟨rfl, ho⟩
      · rw [if_neg hh, if_neg hh]
        refine Sim.bind (sim_fRead _ _ _) ?_
        rintro data _ ⟨rfl, hd⟩
        obtain ⟨o1, o2⟩ := ho.reserve (c := c) (ks + item.size)
        unfold Buf.Ok at o1
        generalize buf.reserve c (ks + item.size) = B at o1 o2 ⊢
        have hp : 0 + data.length ≤ B.mem.length := by omega
        refine Sim.lift_left _ (poke_ok hp) ?_
        dsimp only
        have hl := put_length hp
        have hs : ∀ o n, o + n ≤ data.length → peek (put B.mem 0 data) o n = .ok (slice data o n) := by
          intro o n hn
          rw [peek_ok (by omega)]
          unfold put
          simp only [List.take_zero, List.nil_append]
          rw [slice_append_left hn]
        refine Sim.lift_left _ (hs 0 ks (by omega)) ?_
        rw [← take_eq_slice]
        by_cases hk : data.take ks = key
        · rw [if_pos hk, if_pos hk]
          refine Sim.lift_left _ (hs ks item.size (by omega)) ?_
          refine Sim.ret ⟨?_, ?_⟩
          · dsimp only
            congr 1
            unfold slice
            exact List.take_of_length_le (by rw [List.length_drop]; omega)
          · unfold Buf.Ok; dsimp only; omega
        · rw [if_neg hk, if_neg hk]
          exact ih (by unfold Buf.Ok; dsimp only; omega)
    · rw [if_neg hi, if_neg hi]; exact Sim.ret ⟨rfl, ho⟩

/-- `buf1` of `fetch`: not used yet, or one block. -/
def One (bs : Nat) (b : Buf) : Prop := b = .none ∨ b.size = bs ∧ b.mem.length = bs

theorem One.reserve {c : Cfg} {bs : Nat} {b : Buf} (h : One bs b) : (b.reserve c bs).size = bs ∧ (b.reserve c bs).mem.length = bs := by
  unfold Buf.reserve
  rcases h with rfl | ⟨h1, h2⟩
  · by_cases hz : bs = 0
    · subst hz; exact ⟨rfl, rfl⟩
    · rw [if_pos (show Buf.none.size < bs from Nat.pos_of_ne_zero hz)]
      exact ⟨rfl, fresh_len ..⟩
  · rw [if_neg (by omega)]
    exact ⟨rfl, h2⟩

theorem sim_fetchBucket {c : Cfg} {kh : KeyHeader} {h : Nat} {key : Bytes} (fuel : Nat) : ∀ {b b' : Bkt} {buf0 buf1 : Buf},
    Near b b' → buf0.Ok → One kh.blockSize buf1 →
    Sim Eq (rawFetchBucket c kh h key fuel b buf0 buf1) (fetchBucket c kh h key fuel b') := by
  induction fuel with
  | zero => intros; exact Sim.raise
  | succ fuel ih =>
    intro b b' buf0 buf1 hb h0 h1
    unfold rawFetchBucket fetchBucket
    rw [hb.lowerBound]
    refine Sim.step fun i => ?_
    rw [hb.size]
    refine Sim.bind (sim_fetchScan hb _ h0) ?_
    rintro ⟨v, buf0'⟩ _ ⟨rfl, h0'⟩
    dsimp only at h0' ⊢
    cases v with
    | some v => exact Sim.ret rfl
    | none =>
      dsimp only
      rw [hb.spill]
      by_cases hs : b'.spill = 0
      · rw [if_pos hs, if_pos hs]; exact Sim.fail
      · rw [if_neg hs, if_neg hs]
        obtain ⟨r1, r2⟩ := h1.reserve (c := c)
        refine Sim.bind (Sim.lift (rsim_ofMem (r2.trans (fresh_len ..).symm))) ?_
        rintro x y ⟨q1, q2, q3, q4⟩
        refine Sim.bind (sim_readNear (q1.trans q2.symm) (by rw [q3, q4, r2, fresh_len])) ?_
        rintro x' y' ⟨k1, k2, k3, _⟩
        exact ih k1 h0' (.inr ⟨r1, by rw [k3, q3, r2]⟩)

theorem buf_none_ok : Buf.none.Ok := Nat.le_refl 0

theorem sim_fetch {c : Cfg} {s : Store} {key : Bytes} : Sim Eq (rawFetch c s key) (fetch c s key) := by
  unfold rawFetch fetch
  cases s.ec with
  | some e => exact Sim.fail
  | none =>
    dsimp only
    cases s.p1.find key with
    | some it => exact Sim.ret rfl
    | none =>
    dsimp only
    cases s.p0.find key with
    | some it => exact Sim.ret rfl
    | none =>
      refine Sim.step fun n => Sim.step fun fuel => ?_
      cases s.c1.find n with
      | some p => exact Sim.step fun b => sim_fetchBucket _ (.refl _) buf_none_ok (.inl rfl)
      | none => exact Sim.step fun b => Sim.step fun b => sim_fetchBucket _ (.refl _) buf_none_ok (.inl rfl)

/-! ### exists and insert -/

theorem Spot.put {k : Nat} {b : Spot} {m data : Bytes} (hd : data.length = k) : b.bkt k (put m 0 data) = b.bkt k m := by
  cases b with
  | outside b => rfl
  | inside bs size spill =>
    unfold Spot.bkt
    dsimp only
    congr 1
    unfold NuDB.put
    simp only [List.take_zero, List.nil_append, Nat.zero_add, hd]
    exact List.drop_left' hd

theorem sim_existsScan {ks h : Nat} {key : Bytes} {b : Spot} {b' : Bkt} (fuel : Nat) : ∀ {i : Nat} {m : Bytes},
    Near (b.bkt ks m) b' → ks ≤ m.length →
    Sim (fun x y => x.1 = y ∧ b.bkt ks x.2 = b.bkt ks m ∧ x.2.length = m.length) (rawExistsScan ks h key b fuel i m)
      (existsScan ks h key b' fuel i) := by
  induction fuel with
  | zero => intros; exact Sim.raise
  | succ fuel ih =>
    intro i m hb hm
    unfold rawExistsScan existsScan
    rw [← hb.size]
    by_cases hi : i < (b.bkt ks m).size
    · rw [if_pos hi, if_pos hi, hb.get hi]
      refine Sim.step fun item => ?_
      by_cases hh : item.hash ≠ h
      · rw [if_pos hh, if_pos hh]; exact Sim.ret ⟨rfl, rfl, rfl⟩
      · rw [if_neg hh, if_neg hh]
        refine Sim.bind (sim_fRead _ _ _) ?_
        rintro data _ ⟨rfl, hd⟩
        have hp : 0 + data.length ≤ m.length := by omega
        refine Sim.lift_left _ (poke_ok hp) ?_
        have hl := put_length hp
        refine Sim.lift_left data ?_ ?_
        · rw [peek_ok (by omega)]
          unfold put
          simp only [List.take_zero, List.nil_append]
          rw [slice_append_left (by omega), ← hd, slice_full]
        · by_cases hk : data = key
          · rw [if_pos hk, if_pos hk]
            exact Sim.ret ⟨rfl, Spot.put hd, hl⟩
          · rw [if_neg hk, if_neg hk]
            refine (ih (i := i + 1) (m := put m 0 data) (by rw [Spot.put hd]; exact hb) (by omega)).mono ?_
            rintro x y ⟨q1, q2, q3⟩
            exact ⟨q1, q2.trans (Spot.put hd), q3.trans hl⟩
    · rw [if_neg hi, if_neg hi]; exact Sim.ret ⟨rfl, rfl, rfl⟩

theorem sim_existsBucket {c : Cfg} {kh : KeyHeader} {h : Nat} {key : Bytes} (fuel : Nat) : ∀ {b : Spot} {b' : Bkt} {m : Bytes},
    Near (b.bkt kh.keySize m) b' → m.length = kh.keySize + kh.blockSize →
    Sim Eq (rawExistsBucket kh h key fuel b m) (existsBucket c kh h key fuel b') := by
  induction fuel with
  | zero => intros; exact Sim.raise
  | succ fuel ih =>
    intro b b' m hb hm
    unfold rawExistsBucket existsBucket
    rw [hb.lowerBound]
    refine Sim.step fun i => ?_
    rw [hb.size]
    refine Sim.bind (sim_existsScan _ hb (by omega)) ?_
    rintro ⟨v, m'⟩ _ ⟨rfl, h1, h2⟩
    dsimp only at h1 h2 ⊢
    cases v with
    | true => exact Sim.ret rfl
    | false =>
      simp only [Bool.false_eq_true, if_false]
      rw [h1, hb.spill]
      by_cases hs : b'.spill = 0
      · rw [if_pos hs, if_pos hs]; exact Sim.ret rfl
      · rw [if_neg hs, if_neg hs]
        have hd : (m'.drop kh.keySize).length = kh.blockSize := by rw [List.length_drop]; omega
        refine Sim.bind (Sim.lift (rsim_ofMem (hd.trans (fresh_len ..).symm))) ?_
        rintro x y ⟨q1, q2, q3, q4⟩
        refine Sim.bind (sim_readNear (q1.trans q2.symm) (by rw [q3, q4, hd, fresh_len])) ?_
        rintro x' y' ⟨k1, k2, k3, _⟩
        have ht : (m'.take kh.keySize).length = kh.keySize := by rw [List.length_take]; omega
        refine ih (b := .inside x'.bs x'.size x'.spill) ?_ ?_
        · unfold Spot.bkt
          dsimp only
          rw [List.drop_left' ht]
          exact k1
        · rw [List.length_append, ht, k3, q3, hd]

theorem sim_insertCheck {c : Cfg} {s : Store} {h : Nat} {key : Bytes} :
    Sim Eq (rawInsertCheck c s h key) (insertCheck c s h key) := by
  unfold rawInsertCheck insertCheck
  cases (s.p1.find key).isSome || (s.p0.find key).isSome with
  | true => exact Sim.fail
  | false =>
    simp only [Bool.false_eq_true, if_false]
    refine Sim.step fun n => Sim.step fun fuel => ?_
    have he : ∀ {x y : Bool}, x = y → Sim Eq (if x = true then M.fail .key_exists else M.ret ()) (if y = true then M.fail .key_exists else M.ret ()) := by
      rintro x _ rfl; exact Sim.refl _
    cases s.c1.find n with
    | some p =>
      dsimp only
      refine Sim.step fun b => ?_
      exact Sim.bind (sim_existsBucket _ (b := .outside b) (.refl _) (fresh_len ..)) (fun _ _ => he)
    | none =>
      dsimp only
      have hl : (Buf.none.reserve c s.kh.blockSize).mem.length = s.kh.blockSize := (One.reserve (.inl rfl)).2
      refine Sim.bind (Sim.lift (rsim_ofMem (hl.trans (fresh_len ..).symm))) ?_
      rintro x y ⟨q1, q2, q3, q4⟩
      refine Sim.bind (sim_readNear (q1.trans q2.symm) (by rw [q3, q4, hl, fresh_len])) ?_
      rintro x' y' ⟨k1, _⟩
      exact Sim.bind (sim_existsBucket _ (b := .outside x') k1 (fresh_len ..)) (fun _ _ => he)

theorem sim_storeInsert {c : Cfg} {s : Store} {key data : Bytes} : Sim Eq (rawInsert c s key data) (insert c s key data) := by
  unfold rawInsert insert
  cases s.ec with
  | some e => exact Sim.fail
  | none =>
    refine Sim.step fun _ => Sim.step fun _ => ?_
    exact Sim.bind sim_insertCheck (fun _ _ _ => Sim.refl _)

end NuDB.Raw
