import Verif.Proof.HeapLookup
/-
The functions of `Model/HeapRead` simulate those that work with values: `rekey`.
-/
namespace NuDB.Raw

/-! ### A bucket with more memory behind it -/

/-- The bucket, with memory that goes on. -/
def more (b : Bkt) (t : Bytes) : Bkt := { b with p := b.p ++ t }

theorem rsim_peek (p t : Bytes) (o n : Nat) : RSim Eq (peek (p ++ t) o n) (peek p o n) := by
  unfold peek
  by_cases h : o + n ≤ p.length
  · rw [if_pos h, if_pos (by rw [List.length_append]; omega), slice_append_left h]
    exact RSim.ret rfl
  · rw [if_neg h]
    exact .inl (.inl rfl)

theorem rsim_poke (p t : Bytes) (o : Nat) (d : Bytes) :
    RSim (fun x y => x = y ++ t ∧ y.length = p.length) (poke (p ++ t) o d) (poke p o d) := by
  unfold poke
  by_cases h : o + d.length ≤ p.length
  · rw [if_pos h, if_pos (by rw [List.length_append]; omega)]
    exact RSim.ret ⟨put_append_left h, put_length h⟩
  · rw [if_neg h]
    exact .inl (.inl rfl)

theorem rstep {m : Res γ} {k : γ → Res α} {k' : γ → Res β} {R : α → β → Prop} (h : ∀ a, RSim R (k a) (k' a)) :
    RSim R (m >>= k) (m >>= k') :=
  RSim.bind (RSim.refl m) (fun a _ e => e ▸ h a)

/-- The relation between a bucket in a larger buffer and one in memory of its own. -/
def Ext (t : Bytes) (n : Nat) (x y : Bkt) : Prop := x = more y t ∧ y.p.length = n

theorem ext_ofMem {bs : Nat} {p t : Bytes} : RSim (Ext t p.length) (Bkt.ofMem bs (p ++ t)) (Bkt.ofMem bs p) := by
  unfold Bkt.ofMem
  refine RSim.bind (rsim_peek ..) ?_
  rintro a _ rfl
  refine RSim.bind (rsim_peek ..) ?_
  rintro b _ rfl
  exact RSim.ret ⟨rfl, rfl⟩

theorem ext_clear {b : Bkt} {t : Bytes} : RSim (Ext t b.p.length) (more b t).clear b.clear := by
  unfold Bkt.clear
  refine RSim.bind (rsim_poke ..) ?_
  rintro _ y ⟨rfl, h⟩
  exact RSim.ret ⟨rfl, h⟩

theorem ext_update {b : Bkt} {t : Bytes} : RSim (Ext t b.p.length) (more b t).update b.update := by
  unfold Bkt.update
  refine rstep fun _ => rstep fun _ => ?_
  refine RSim.bind (rsim_poke ..) ?_
  rintro _ y ⟨rfl, h⟩
  exact RSim.ret ⟨rfl, h⟩

theorem ext_setSpill {b : Bkt} {t : Bytes} {n : Nat} : RSim (Ext t b.p.length) ((more b t).setSpill n) (b.setSpill n) :=
  ext_update (b := { b with spill := n })

theorem ext_lbLoop {p t : Bytes} {h : Nat} (fuel : Nat) : ∀ {i n : Nat}, RSim Eq (Bkt.lbLoop (p ++ t) h fuel i n) (Bkt.lbLoop p h fuel i n) := by
  induction fuel with
  | zero => intros; exact .inr rfl
  | succ fuel ih =>
    intro i n
    unfold Bkt.lbLoop
    by_cases hn : n > 0
    · rw [if_pos hn, if_pos hn]
      refine RSim.bind (rsim_peek ..) ?_
      rintro f _ rfl
      dsimp only
      split
      · exact ih
      · exact ih
    · rw [if_neg hn, if_neg hn]; exact RSim.ret rfl

theorem ext_insert {b : Bkt} {t : Bytes} {o s h : Nat} : RSim (Ext t b.p.length) ((more b t).insert o s h) (b.insert o s h) := by
  unfold Bkt.insert
  refine RSim.bind (ext_lbLoop _) ?_
  rintro i _ rfl
  refine RSim.bind (rsim_peek ..) ?_
  rintro tail _ rfl
  refine RSim.bind (rsim_poke ..) ?_
  rintro _ q ⟨rfl, hq⟩
  refine RSim.bind (ext_update (b := { b with size := b.size + 1, p := q }) (t := t)) ?_
  rintro _ b' ⟨rfl, hb⟩
  dsimp only at hb
  refine rstep fun _ => rstep fun _ => rstep fun _ => ?_
  refine RSim.bind (rsim_poke ..) ?_
  rintro _ y ⟨rfl, h⟩
  exact RSim.ret ⟨rfl, by dsimp only; omega⟩

theorem ext_compact {b : Bkt} {t body : Bytes} (h : b.compact = .ok body) : (more b t).compact = .ok body := by
  have := rsim_peek b.p t 0 b.actualSize
  rw [show peek b.p 0 b.actualSize = .ok body from h] at this
  obtain ⟨a, e, rfl⟩ := this
  exact e

theorem sim_bktSpill {c : Cfg} {b : Bkt} {t : Bytes} {w : RawWriter} {w' : Writer} (hw : WRel w w') :
    Sim (fun x y => Ext t b.p.length x.1 y.1 ∧ WRel x.2 y.2) (bktSpill c (more b t) w) (maybeSpill b w') := by
  unfold bktSpill maybeSpill
  have ef : (more b t).full = b.full := rfl
  have ea : (more b t).actualSize = b.actualSize := rfl
  rw [ef, ea]
  by_cases hf : b.full = true
  · rw [if_pos hf, if_pos hf]
    refine Sim.lift_right (fun body hbody => ?_) (fun x => compact_wrong)
    refine Sim.lift_right (fun _ ha => ?_) (fun x => assert_wrong)
    have hl := compact_len hbody
    have e1 : 6 + 2 + b.actualSize = (putU48 0 ++ putU16 b.actualSize ++ body).length := by
      simp [hl, Bkt.actualSize]; omega
    rw [e1]
    refine Sim.bind (sim_prepare hw _) ?_
    rintro ⟨os, w₁⟩ _ ⟨w₀, h1, rfl⟩
    dsimp only at h1 ⊢
    obtain ⟨⟨os2, w2⟩, e2, h2⟩ := h1.write (bs' := putU48 0) (by simp)
    refine Sim.lift_left _ e2 ?_
    refine Sim.lift_left () ha ?_
    obtain ⟨⟨os3, w3⟩, e3, h3⟩ := h2.write (bs' := putU16 b.actualSize) (by simp; omega)
    refine Sim.lift_left _ e3 ?_
    refine Sim.lift_left body (ext_compact hbody) ?_
    obtain ⟨⟨os4, w4⟩, e4, h4⟩ := h3.write (bs' := body) (by simp; omega)
    refine Sim.lift_left _ e4 ?_
    refine Sim.bind (Sim.lift ext_clear) ?_
    rintro _ b5 ⟨rfl, g2⟩
    dsimp only
    rw [show os3.size = 6 + 2 from by simpa using h3.size, hw.pos]
    refine Sim.bind (Sim.lift ext_setSpill) ?_
    rintro _ b6 ⟨rfl, k2⟩
    refine Sim.ret ⟨⟨rfl, k2.trans g2⟩, ?_⟩
    have := h4.done (by simp)
    simpa using this
  · rw [if_neg hf, if_neg hf]
    exact Sim.ret ⟨⟨rfl, rfl⟩, hw⟩

/-! ### One buffer for all buckets -/

/-- The memory of the buffer begins with these blocks. -/
structure Cut (bs : Nat) (m : Bytes) (bufs : List Bytes) : Prop where
  all : ∀ p ∈ bufs, p.length = bs
  mem : ∃ rest, m = bufs.flatten ++ rest

theorem flat_len {bs : Nat} {l : List Bytes} (h : ∀ p ∈ l, p.length = bs) : l.flatten.length = l.length * bs := by
  induction l with
  | nil => simp
  | cons a l ih =>
    rw [List.flatten_cons, List.length_append, h a (List.mem_cons_self ..), ih (fun p hp => h p (List.mem_cons_of_mem _ hp)),
      List.length_cons, Nat.succ_mul, Nat.add_comm]

theorem Cut.split {bs : Nat} {m : Bytes} {bufs : List Bytes} (h : Cut bs m bufs) {j : Nat} {p : Bytes} (hj : bufs[j]? = some p) :
    p.length = bs ∧ ∃ t, m.drop (j * bs) = p ++ t ∧
      ∀ q : Bytes, q.length = bs → Cut bs (m.take (j * bs) ++ (q ++ t)) (bufs.set j q) ∧
        (m.take (j * bs) ++ (q ++ t)).length = m.length := by
  obtain ⟨hj1, hj2⟩ := List.getElem?_eq_some_iff.mp hj
  obtain ⟨rest, hm⟩ := h.mem
  have hp : p.length = bs := h.all p (hj2 ▸ List.getElem_mem hj1)
  have hs : bufs = bufs.take j ++ p :: bufs.drop (j + 1) := by
    rw [← hj2, List.getElem_cons_drop, List.take_append_drop]
  have hA : ∀ x ∈ bufs.take j, x.length = bs := fun x hx => h.all x (List.mem_of_mem_take hx)
  have hl : (bufs.take j).flatten.length = j * bs := by
    rw [flat_len hA, List.length_take, Nat.min_eq_left (by omega)]
  have hm2 : m = (bufs.take j).flatten ++ (p ++ ((bufs.drop (j + 1)).flatten ++ rest)) := by
    rw [hm]
    conv => lhs; rw [hs]
    simp
  have hd : m.drop (j * bs) = p ++ ((bufs.drop (j + 1)).flatten ++ rest) := by
    conv => lhs; rw [hm2]
    exact List.drop_left' hl
  have ht : m.take (j * bs) = (bufs.take j).flatten := by
    conv => lhs; rw [hm2]
    exact List.take_left' hl
  refine ⟨hp, _, hd, fun q hq => ⟨⟨?_, rest, ?_⟩, ?_⟩⟩
  · intro x hx
    rcases List.mem_or_eq_of_mem_set hx with hx | hx
    · exact h.all x hx
    · rw [hx]; exact hq
  · rw [ht, List.set_eq_take_append_cons_drop, if_pos hj1]
    simp
  · rw [ht]
    conv => rhs; rw [hm2]
    simp only [List.length_append]
    omega

theorem sim_rekeyStep {c : Cfg} {kh : KeyHeader} {b0 b1 pre nwork : Nat} {m : Bytes} {bufs : List Bytes} {dw : RawWriter} {dw' : Writer}
    {r : RawReader} {r' : Reader} (hc : Cut kh.blockSize m bufs) (hw : WRel dw dw') (h : r.abs = r') :
    Sim (fun x y => Cut kh.blockSize x.1 y.1 ∧ y.1.length = bufs.length ∧ x.1.length = m.length ∧ WRel x.2.1 y.2.1 ∧ x.2.2.abs = y.2.2)
      (rawRekeyStep c kh b0 b1 pre nwork m dw r) (rekeyStep c kh b0 b1 pre nwork bufs dw' r') := by
  unfold rawRekeyStep rekeyStep
  refine Sim.bind (sim_rprepare h) ?_
  rintro ⟨is, r1⟩ ⟨bs, r1'⟩ ⟨h1, h2, h3⟩
  dsimp only at h1 h2 h3 ⊢
  rw [abs_pos h1, abs_pos h]
  refine Sim.step fun _ => ?_
  obtain ⟨is', e1⟩ := h2.whole h3
  refine Sim.lift_left _ e1 ?_
  dsimp only
  refine Sim.step fun size => ?_
  by_cases hs : size > 0
  · rw [if_pos hs, if_pos hs]
    refine Sim.bind (sim_rprepare h1) ?_
    rintro ⟨is2, r2⟩ ⟨bs2, r2'⟩ ⟨g1, g2, g3⟩
    dsimp only at g1 g2 g3 ⊢
    obtain ⟨is3, e3, e4, g4⟩ := g2.data (n := kh.keySize) (by omega)
    refine Sim.lift_left _ e3 ?_
    dsimp only
    refine Sim.lift_left _ e4 ?_
    refine Sim.step fun n => ?_
    by_cases hn : n < b0 ∨ n ≥ b1
    · rw [if_pos hn, if_pos hn]
      exact Sim.ret ⟨hc, rfl, rfl, hw, g1⟩
    · rw [if_neg hn, if_neg hn]
      cases hb : bufs[n - b0]? with
      | none => exact fun _ _ => .inl (.inl rfl)
      | some p =>
        dsimp only
        obtain ⟨hp, t, hd, hset⟩ := hc.split hb
        rw [hd]
        refine Sim.bind (Sim.lift ext_ofMem) ?_
        rintro _ b ⟨rfl, hb1⟩
        refine Sim.bind (sim_bktSpill hw) ?_
        rintro ⟨x, w1⟩ ⟨b2, w1'⟩ ⟨⟨q1, q2⟩, q3⟩
        dsimp only at q1 q2 q3 ⊢
        subst q1
        refine Sim.bind (Sim.lift ext_insert) ?_
        rintro _ b3 ⟨rfl, q4⟩
        obtain ⟨k1, k2⟩ := hset b3.p (by omega)
        exact Sim.ret ⟨k1, List.length_set, k2, q3, g1⟩
  · rw [if_neg hs, if_neg hs]
    refine Sim.bind (sim_rprepare h1) ?_
    rintro ⟨is2, r2⟩ ⟨bs2, r2'⟩ ⟨g1, g2, g3⟩
    dsimp only at g1 g2 g3 ⊢
    obtain ⟨is', e2⟩ := g2.whole g3
    refine Sim.lift_left _ e2 ?_
    dsimp only
    refine Sim.bind (sim_rprepare g1) ?_
    rintro ⟨is3, r3⟩ ⟨bs3, r3'⟩ ⟨k1, _, _⟩
    exact Sim.ret ⟨hc, rfl, rfl, hw, k1⟩

theorem sim_rekeyScan {c : Cfg} {kh : KeyHeader} {b0 b1 pre nwork : Nat} (fuel : Nat) : ∀ {m : Bytes} {bufs : List Bytes} {dw : RawWriter}
    {dw' : Writer} {r : RawReader} {r' : Reader}, Cut kh.blockSize m bufs → WRel dw dw' → r.abs = r' →
    Sim (fun x y => Cut kh.blockSize x.1 y.1 ∧ y.1.length = bufs.length ∧ x.1.length = m.length ∧ WRel x.2 y.2)
      (rawRekeyScan c kh b0 b1 pre nwork fuel m dw r) (rekeyScan c kh b0 b1 pre nwork fuel bufs dw' r') := by
  induction fuel with
  | zero => intros; exact Sim.raise
  | succ fuel ih =>
    intro m bufs dw dw' r r' hc hw h
    unfold rawRekeyScan rekeyScan
    rw [abs_eof h]
    by_cases he : r'.eof = true
    · rw [if_pos he, if_pos he]; exact Sim.ret ⟨hc, rfl, rfl, hw⟩
    · rw [if_neg he, if_neg he]
      refine Sim.bind (sim_rekeyStep hc hw h) ?_
      rintro ⟨m1, dw1, r1⟩ ⟨bufs1, dw1', r1'⟩ ⟨k1, k2, k3, k4, k5⟩
      dsimp only at k1 k2 k3 k4 k5 ⊢
      refine (ih k1 k4 k5).mono ?_
      rintro x y ⟨q1, q2, q3, q4⟩
      exact ⟨q1, q2.trans k2, q3.trans k3, q4⟩

theorem clear_front {bs : Nat} {p : Bytes} (h : bs ≤ p.length) : Bkt.ofEmpty bs p = .ok ⟨bs, 0, 0, zeros bs ++ p.drop bs⟩ := by
  unfold Bkt.ofEmpty Bkt.clear
  dsimp only
  rw [poke_ok (by simp [zeros]; omega)]
  simp [put, zeros]
  rfl

theorem raw_empty {bs : Nat} (n : Nat) : ∀ {i : Nat} {a b : Bytes}, a.length = i * bs → n * bs ≤ b.length →
    rawEmptyBuckets bs n i (a ++ b) = .ok (a ++ ((List.replicate n (zeros bs)).flatten ++ b.drop (n * bs))) := by
  induction n with
  | zero => intro i a b _ _; simp [rawEmptyBuckets]
  | succ n ih =>
    intro i a b ha hb
    rw [Nat.succ_mul] at hb
    unfold rawEmptyBuckets
    rw [List.drop_left' ha, List.take_left' ha, clear_front (by omega)]
    show rawEmptyBuckets bs n (i + 1) (a ++ (zeros bs ++ b.drop bs)) = _
    have hz : (zeros bs).length = bs := by simp [zeros]
    rw [← List.append_assoc, ih (by rw [List.length_append, hz, ha, Nat.succ_mul]) (by rw [List.length_drop]; omega)]
    rw [List.drop_drop, List.replicate_succ, List.flatten_cons, Nat.succ_mul, Nat.add_comm bs]
    simp

theorem model_empty {c : Cfg} {bs : Nat} (n : Nat) : emptyBuckets c bs n = .ok (List.replicate n (zeros bs)) := by
  induction n with
  | zero => rfl
  | succ n ih =>
    unfold emptyBuckets
    rw [clear_front (by rw [fresh_len]; omega), ih]
    show Except.ok _ = _
    rw [List.drop_of_length_le (by rw [fresh_len]; omega), List.append_nil]
    rfl

theorem sim_rekeyChunks {c : Cfg} {kh : KeyHeader} {size chunk nwork : Nat} (fuel : Nat) : ∀ {b0 : Nat} {m : Bytes} {dw : RawWriter} {dw' : Writer},
    chunk * kh.blockSize ≤ m.length → WRel dw dw' →
    Sim WRel (rawRekeyChunks c kh size chunk nwork fuel b0 m dw) (rekeyChunks c kh size chunk nwork fuel b0 dw') := by
  induction fuel with
  | zero => intros; exact Sim.raise
  | succ fuel ih =>
    intro b0 m dw dw' hm hw
    unfold rawRekeyChunks rekeyChunks
    by_cases hb : b0 < kh.buckets
    · rw [if_pos hb, if_pos hb]
      have hn : (min (b0 + chunk) kh.buckets - b0) * kh.blockSize ≤ chunk * kh.blockSize := Nat.mul_le_mul_right _ (by omega)
      dsimp only
      generalize hbn : min (b0 + chunk) kh.buckets - b0 = bn at hn ⊢
      have e := raw_empty bn (i := 0) (a := []) (b := m) (by simp) (Nat.le_trans hn hm)
      rw [List.nil_append, List.nil_append] at e
      rw [model_empty]
      refine Sim.lift_left _ e ?_
      refine Sim.lift_right (fun q hq => ?_) (fun x hx => by cases hx)
      cases hq
      have hl : ((List.replicate bn (zeros kh.blockSize)).flatten ++ m.drop (bn * kh.blockSize)).length = m.length := by
        rw [List.length_append, flat_len (bs := kh.blockSize) (by intro p hp; rw [List.eq_of_mem_replicate hp]; simp [zeros]),
          List.length_replicate, List.length_drop]
        omega
      refine Sim.bind (sim_rekeyScan _ (bufs := List.replicate bn (zeros kh.blockSize)) ⟨?_, _, rfl⟩ hw (abs_new ..)) ?_
      · intro p hp; rw [List.eq_of_mem_replicate hp]; simp [zeros]
      · rintro ⟨m1, dw1⟩ ⟨bufs1, dw1'⟩ ⟨k1, k2, k3, k4⟩
        dsimp only at k1 k2 k3 k4 ⊢
        rw [List.length_replicate] at k2
        obtain ⟨rest, hr⟩ := k1.mem
        have hf := flat_len k1.all
        rw [k2] at hf
        refine Sim.lift_left bufs1.flatten ?_ ?_
        · rw [peek_ok (by omega), hr, slice_append_left (by omega), ← hf, slice_full]
        · refine Sim.step fun _ => ih (by omega) k4
    · rw [if_neg hb, if_neg hb]; exact Sim.ret hw

theorem sim_rekeyAlloc {c : Cfg} {kh : KeyHeader} :
    Sim (fun x _ => x.size = kh.blockSize ∧ x.mem.length = kh.blockSize) (rawRekeyAlloc c kh) (rekeyAlloc kh) := by
  unfold rawRekeyAlloc rekeyAlloc keyHeaderBlock
  have hz : (zeros kh.blockSize).length = kh.blockSize := by simp [zeros]
  have e : poke (Buf.new c kh.blockSize).mem 0 (zeros kh.blockSize) = .ok (zeros kh.blockSize) := by
    rw [poke_ok (by rw [hz, show (Buf.new c kh.blockSize).mem = c.fresh kh.blockSize from rfl, fresh_len]; omega)]
    simp only [put, List.take_zero, List.nil_append, Nat.zero_add, hz]
    rw [List.drop_of_length_le (by rw [show (Buf.new c kh.blockSize).mem = c.fresh kh.blockSize from rfl, fresh_len]; omega), List.append_nil]
  refine Sim.lift_left _ e ?_
  refine Sim.lift_right (fun blk hb => ?_) (fun x hx => ?_)
  · refine Sim.lift_left _ hb ?_
    have hl := (poke_len hb).trans hz
    refine Sim.lift_left blk ?_ ?_
    · show peek blk 0 kh.blockSize = _
      rw [← hl]; exact peek_all blk
    · refine Sim.step fun _ => Sim.step fun _ => Sim.step fun _ => ?_
      exact (Sim.map (f := fun _ => (⟨kh.blockSize, blk⟩ : Buf)) (T := fun x _ => x.size = kh.blockSize ∧ x.mem.length = kh.blockSize)
        (fun _ _ _ _ _ => ⟨rfl, hl⟩))
  · unfold poke at hx
    split at hx
    · cases hx
    · cases hx; exact .inl rfl

theorem sim_rekey {c : Cfg} {a : RekeyArgs} : Sim Eq (rawRekey c a) (rekey c a) := by
  unfold rawRekey rekey
  refine Sim.step fun _ => Sim.step fun dh => Sim.step fun _ => Sim.step fun size => Sim.step fun x => ?_
  cases x with
  | ok _ => exact Sim.fail
  | error e =>
    have other : ∀ e : Err, Sim (Eq (α := Unit)) (M.fail e) (M.fail e) := fun _ => Sim.fail
    cases e
    case no_such_file =>
      dsimp only
      refine Sim.step fun lf => Sim.step fun _ => ?_
      refine Sim.bind sim_rekeyAlloc ?_
      rintro buf _ ⟨h1, h2⟩
      refine Sim.step fun _ => ?_
      refine Sim.bind (sim_rekeyChunks _ ?_ WRel.new) ?_
      · unfold Buf.reserve
        split
        · exact Nat.le_of_eq (fresh_len ..).symm
        · dsimp only; omega
      · rintro w w' hw
        refine Sim.bind (sim_flush hw) ?_
        rintro _ _ _
        exact Sim.refl _
    all_goals exact other _

end NuDB.Raw
