import Verif.Proof.Lookup
/- Adding an entry to a bucket with overflow, and splitting a bucket. -/
namespace NuDB

/-- Bytes of an overflow record of a full bucket. -/
def Conf.recLen (cf : Conf) : Nat := 8 + bucketSize cf.cap

theorem Rep.insert_abort {b : Bkt} {es : List Entry} {s o sz h : Nat} (r : Rep b es s)
    (hs : Sorted es) (hf : Entry.Fit ⟨0, sz, h⟩) (hroom : bucketSize (es.length + 1) ≤ b.bs)
    (ho : ¬ o < 2 ^ 48) : b.insert o sz h = .error .abort := by
  obtain ⟨b', h1, _⟩ := r.insert hs hf hroom
  unfold Bkt.insert at *
  cases e1 : b.lowerBound h with
  | error x => rw [e1] at h1; cases h1
  | ok i =>
    rw [e1] at h1
    simp only [bind, Except.bind] at *
    cases e2 : peek b.p (8 + i * 18) ((b.size - i) * 18) with
    | error x => rw [e2] at h1; cases h1
    | ok t =>
      rw [e2] at h1
      simp only at *
      cases e3 : poke b.p (8 + (i + 1) * 18) t with
      | error x => rw [e3] at h1; cases h1
      | ok p =>
        rw [e3] at h1
        simp only at *
        cases e4 : Bkt.update { b with size := b.size + 1, p := p } with
        | error x => rw [e4] at h1; cases h1
        | ok b2 =>
          rw [e4] at h1
          simp only at *
          have : assert (decide (o ≤ 0xffffffffffff)) = .error .abort := by
            rw [decide_eq_false (by omega)]; rfl
          rw [this]

theorem Rep.setSpill_abort {b : Bkt} {es : List Entry} {s s' : Nat} (r : Rep b es s)
    (h : ¬ s' < 2 ^ 48) : b.setSpill s' = .error .abort := by
  have := r.count
  unfold Bkt.setSpill Bkt.update
  rw [assert_ok (by simp [r.size]; omega)]
  have : assert (decide (s' ≤ 0xffffffffffff)) = .error .abort := by
    rw [decide_eq_false (by omega)]; rfl
  simp only [this]; rfl

theorem bucketSize_mono {a b : Nat} (h : a ≤ b) : bucketSize a ≤ bucketSize b := by
  simp [bucketSize]; omega

/-- An arbitrary append to the data file keeps `P`. -/
abbrev DatFree (P : Fs → Prop) : Prop := Appendable .dat (fun _ => True) P

/-- Overflow records written by the library. -/
def Spills (cf : Conf) (rs : List Rec) : Prop := ∀ r ∈ rs, r.Ok cf ∧ ∃ es s, r = .spill es s

theorem Spills.nil (cf : Conf) : Spills cf [] := by intro r hr; cases hr

theorem Spills.append {cf : Conf} {a b : List Rec} (ha : Spills cf a) (hb : Spills cf b) :
    Spills cf (a ++ b) := by
  intro r hr
  rcases List.mem_append.mp hr with h | h
  · exact ha r h
  · exact hb r h

section
variable {c : Cfg} {cf : Conf} {σ : Schedule} {P : Fs → Prop} {lim nb : Prop} {α : Type}

/-- What appending `rs` to the virtual data file `V` leaves behind. -/
structure Grown (cf : Conf) (V : Bytes) (rs : List Rec) (n : Nat) (wr : Writer)
    (w w' : World) (P : Fs → Prop) : Prop where
  winv : WInv wr .dat w'.fs (V ++ encRecs rs)
  inv : P w'.fs
  same : SameExcept .dat w.fs w'.fs
  out : w'.out = w.out
  spills : Spills cf rs
  len : (encRecs rs).length ≤ n * cf.recLen
  small : rs ≠ [] → (V ++ encRecs rs).length ≤ 2 ^ 48 + 2 ^ 17

theorem Grown.refl {cf : Conf} {V : Bytes} {wr : Writer} {w : World} (hw : WInv wr .dat w.fs V)
    (hP : P w.fs) (n : Nat) : Grown cf V [] n wr w w P where
  winv := by simpa using hw
  inv := hP
  same := SameExcept.refl _ _
  out := rfl
  spills := Spills.nil cf
  len := by simp
  small := by simp

theorem Grown.trans {cf : Conf} {V : Bytes} {rs rs' : List Rec} {n n' : Nat} {wr wr' : Writer}
    {w w' w'' : World} (h : Grown cf V rs n wr w w' P)
    (h' : Grown cf (V ++ encRecs rs) rs' n' wr' w' w'' P) :
    Grown cf V (rs ++ rs') (n + n') wr' w w'' P where
  winv := by have := h'.winv; rwa [encRecs_append, ← List.append_assoc]
  inv := h'.inv
  same := h.same.trans h'.same
  out := h'.out.trans h.out
  spills := h.spills.append h'.spills
  len := by
    rw [encRecs_append, List.length_append, Nat.add_mul]
    have := h.len; have := h'.len; omega
  small := by
    intro hne
    by_cases he : rs' = []
    · subst he
      have := h.small (by simpa using hne)
      simpa using this
    · have := h'.small he
      rwa [encRecs_append, ← List.append_assoc]

theorem Grown.weaken {cf : Conf} {V : Bytes} {rs : List Rec} {n n' : Nat} {wr : Writer}
    {w w' : World} (h : Grown cf V rs n wr w w' P) (hn : n ≤ n') : Grown cf V rs n' wr w w' P :=
  { h with len := Nat.le_trans h.len (Nat.mul_le_mul_right _ hn) }

/-- The bytes `V` are a header with whole records. -/
def Whole (cf : Conf) (V : Bytes) : Prop := ∃ rs, (∀ r ∈ rs, r.Ok cf) ∧ V = putDatHeader cf.dh ++ encRecs rs

theorem Whole.grow {cf : Conf} {V : Bytes} {rs : List Rec} (h : Whole cf V) (hr : Spills cf rs) : Whole cf (V ++ encRecs rs) := by
  obtain ⟨rs0, h1, h2⟩ := h
  refine ⟨rs0 ++ rs, ?_, by rw [h2, encRecs_append, List.append_assoc]⟩
  intro r hm
  rcases List.mem_append.1 hm with hm | hm
  · exact h1 r hm
  · exact (hr r hm).1

theorem recLen_spill {es : List Entry} {s : Nat} (h : es.length = cf.cap) :
    (encRecs [.spill es s]).length = cf.recLen := by
  simp [encRec, Conf.recLen, h]; omega

theorem tidy_empty {bs : Nat} (h : 8 ≤ bs) : Tidy ⟨bs, 0, 0, zeros bs⟩ [] 0 := by
  refine ⟨bs - 8, ?_⟩
  show zeros bs = _
  have e : encBkt [] 0 = zeros 8 := by decide
  rw [e, ← zeros_add]; congr 1; omega

/-- `maybe_spill` followed by `insert`. -/
theorem wp_put0 {b : Bkt} {wr : Writer} {V : Bytes} {es T : List Entry} {s : Nat} {e : Entry}
    {w : World} {k : Bkt → Writer → M α} {Q : α → World → Prop} (hcf : cf.Ok) (hV : Whole cf V) (hb : Rep b es s)
    (hbs : b.bs = cf.blockSize) (hok : BucketOk V cf.cap es s T) (hw : WInv wr .dat w.fs V)
    (hP : P w.fs) (hA : DatFree P) (hlim : lim → V.length + 8 < 2 ^ 48)
    (hes : e.size < 2 ^ 32) (heh : e.hash < 2 ^ 48) (heo : lim → e.offset < 2 ^ 48)
    (hev : 2 ^ 48 ≤ e.offset → e.offset ≤ V.length)
    (hk : ∀ b' wr' w' es' s' rs, Rep b' es' s' → b'.bs = cf.blockSize →
      BucketOk (V ++ encRecs rs) cf.cap es' s' (e :: T) → e.offset < 2 ^ 48 → (Tidy b es s → Tidy b' es' s') →
      Grown cf V rs 1 wr' w w' P → wp σ (k b' wr') Q (XP σ P lim nb) w') :
    wp σ (do
      let (b, wr) ← maybeSpill b wr
      let b ← M.lift (b.insert e.offset e.size e.hash)
      k b wr) Q (XP σ P lim nb) w := by
  have hcap : bucketCapacity b.bs = cf.cap := by rw [hbs]; rfl
  have hc1 := hcf.cap_pos
  have hc2 := hcf.cap_le
  obtain ⟨L, hch, hperm⟩ := hok.chain
  -- the insertion into a bucket that has room
  have ins : ∀ (b' : Bkt) (wr' : Writer) (w' : World) (es' : List Entry) (s' : Nat) (rs : List Rec)
      (L' : List Entry), Rep b' es' s' → b'.bs = cf.blockSize → es'.length < cf.cap → Sorted es' →
      Chain (V ++ encRecs rs) cf.cap s' L' → (es' ++ L').Perm T → (Tidy b es s → Tidy b' es' s') → Grown cf V rs 1 wr' w w' P →
      wp σ (M.lift (b'.insert e.offset e.size e.hash) >>= fun b => k b wr') Q (XP σ P lim nb) w' := by
    intro b' wr' w' es' s' rs L' hb' hbs' hroom hsort hch' hperm' htd hg
    have hroom2 : bucketSize (es'.length + 1) ≤ b'.bs := by
      rw [hbs']; exact Nat.le_trans (bucketSize_mono (by omega)) hc2
    apply wp_bind
    by_cases ho : e.offset < 2 ^ 48
    · obtain ⟨b2, h1, h2, h3, h4⟩ := hb'.insert' hsort (o := e.offset) (sz := e.size) (h := e.hash)
        ⟨ho, hes, heh⟩ hroom2
      apply wp_lift_ok h1
      refine hk b2 wr' w' (insSorted e es') s' rs h2 (by rw [h3, hbs']) ?_ ho (fun ht => h4 (htd ht)) hg
      refine ⟨by rw [insSorted_length]; omega, insSorted_sorted hsort, h2.fit, ?_, L', hch', ?_⟩
      · intro hnil
        have := insSorted_length e es'
        rw [hnil] at this; simp at this
      · exact ((insSorted_perm e es').append_right L').trans (by simpa using hperm')
    · apply wp_lift_error (hb'.insert_abort hsort ⟨Nat.two_pow_pos 48, hes, heh⟩ hroom2 ho)
      exact ⟨hg.inv, .inr ⟨rfl, fun hl => ho (heo hl), fun _ => hg.winv.big (by
        have := hev (by omega); simp only [List.length_append]; omega)⟩⟩
  unfold maybeSpill
  by_cases hfull : b.full
  · rw [if_pos hfull]
    have hfl : es.length = cf.cap := by
      have h1 := hok.len
      simp only [Bkt.full, hcap, hb.size, ge_iff_le, decide_eq_true_eq] at hfull
      omega
    simp only
    apply wp_bind
    apply wp_bind
    apply wp_lift_ok hb.compact
    apply wp_bind
    have hact : b.actualSize = bucketSize es.length := by rw [Bkt.actualSize, hb.size]
    have hroom := hb.room
    apply wp_lift_ok (assert_ok (by simp [hact]; have := hb.bs; omega))
    apply wp_bind
    apply wp_wappend hw hP hA trivial (by
      simp only [List.length_append, putU48_length, putU16_length, encBkt_length, hact]
      have := hb.bs
      omega)
    intro wr1 w1 hw1 hP1 hsame hout
    rw [hw.pos]
    apply wp_bind
    apply wp_lift_ok (clear_ok hb.len)
    have hrec : putU48 0 ++ putU16 (bucketSize es.length) ++ encBkt es s = encRecs [.spill es s] := by
      simp [encRec]
    rw [hact, hrec] at hw1
    have hempty : Rep ⟨b.bs, 0, 0, zeros b.bs⟩ [] 0 :=
      rep_empty (by rw [hbs]; have := hcf.bs1; omega) hb.bs
    have hsp : Spills cf [.spill es s] := by
      intro r hr
      simp only [List.mem_singleton] at hr
      subst hr
      exact ⟨⟨by simp, by rintro _ _ ⟨rfl, rfl⟩; exact ⟨by rw [hfl]; have := hcf.bs2; omega, hok.fit, hok.sorted, hb.sfit⟩, by rintro _ _ ⟨rfl, rfl⟩; exact .inl hfl⟩, es, s, rfl⟩
    by_cases hs48 : V.length + (6 + 2) < 2 ^ 48
    · obtain ⟨b3, h1, h2, h3, h4⟩ := hempty.setSpill' hs48
      apply wp_bind
      apply wp_lift_ok h1
      apply wp_ret
      refine ins b3 wr1 w1 [] (V.length + (6 + 2)) [.spill es s] (es ++ L) h2 (by rw [h3]; exact hbs)
        (by simp; omega) List.Pairwise.nil ?_ (by simpa using hperm)
        (fun _ => h4 (tidy_empty (by rw [hbs]; have := hcf.bs1; omega))) ?_
      · have hlen : (V ++ encRecs [.spill es s]).length = V.length + (8 + bucketSize cf.cap) := by
          rw [List.length_append, recLen_spill hfl]; rfl
        refine .link (s' := s) (by omega) hs48 ?_ ?_ hfl hok.sorted hok.fit ?_ ?_ (hch.mono ⟨_, rfl⟩)
        · rw [hlen]; omega
        · have e2 : V ++ encRecs [.spill es s] =
              (V ++ putU48 0 ++ putU16 (bucketSize es.length)) ++ (encBkt es s ++ []) := by
            simp [encRec]
          rw [e2]
          exact slice_mid' (by simp) (by simp [hfl])
        · by_cases h0 : s = 0
          · omega
          · have := hch.le_length h0; omega
        · obtain ⟨rs0, v1, v2⟩ := hV
          refine ⟨cf, rs0, hcf, ?_, ?_, by rw [← v2]⟩
          · intro r hr
            rcases List.mem_append.1 hr with hr | hr
            · exact v1 r hr
            · exact (hsp r hr).1
          · rw [encRecs_append, ← List.append_assoc, ← v2]
            exact List.prefix_refl _
      · refine ⟨hw1, hP1, hsame, hout, ?_, ?_, ?_⟩
        · exact hsp
        · rw [recLen_spill hfl]; exact Nat.le_of_eq (Nat.one_mul _).symm
        · intro _
          rw [List.length_append, recLen_spill hfl]
          have := hcf.bs2
          simp only [Conf.recLen]; omega
    · apply wp_bind
      apply wp_lift_error (hempty.setSpill_abort hs48)
      exact ⟨hP1, .inr ⟨rfl, fun hl => hs48 (hlim hl), fun _ => hw1.big (by
        simp only [List.length_append]; omega)⟩⟩
  · rw [if_neg hfull]
    apply wp_bind
    apply wp_ret
    refine ins b wr w es s [] L hb hbs ?_ hok.sorted (by simpa using hch) hperm id (Grown.refl hw hP 1)
    simp only [Bkt.full, hcap, hb.size, ge_iff_le, decide_eq_true_eq] at hfull
    omega

theorem wp_put {b : Bkt} {wr : Writer} {V : Bytes} {es T : List Entry} {s : Nat} {e : Entry}
    {w : World} {k : Bkt → Writer → M α} {Q : α → World → Prop} (hcf : cf.Ok) (hV : Whole cf V) (hb : Rep b es s)
    (hbs : b.bs = cf.blockSize) (hok : BucketOk V cf.cap es s T) (hw : WInv wr .dat w.fs V)
    (hP : P w.fs) (hA : DatFree P) (hlim : lim → V.length + 8 < 2 ^ 48)
    (hes : e.size < 2 ^ 32) (heh : e.hash < 2 ^ 48) (heo : lim → e.offset < 2 ^ 48)
    (hev : 2 ^ 48 ≤ e.offset → e.offset ≤ V.length)
    (hk : ∀ b' wr' w' es' s' rs, Rep b' es' s' → b'.bs = cf.blockSize →
      BucketOk (V ++ encRecs rs) cf.cap es' s' (e :: T) → e.offset < 2 ^ 48 →
      Grown cf V rs 1 wr' w w' P → wp σ (k b' wr') Q (XP σ P lim nb) w') :
    wp σ (do
      let (b, wr) ← maybeSpill b wr
      let b ← M.lift (b.insert e.offset e.size e.hash)
      k b wr) Q (XP σ P lim nb) w :=
  wp_put0 hcf hV hb hbs hok hw hP hA hlim hes heh heo hev
    (fun b' wr' w' es' s' rs h1 h2 h3 h4 _ h5 => hk b' wr' w' es' s' rs h1 h2 h3 h4 h5)

/-- First part of `split`: the entries of the bucket itself. -/
theorem splitOwn_ok {n1 n2 B m : Nat} (hm : m ≤ 2 ^ 32) (hne : n1 ≠ n2) (hcf : cf.Ok) :
    ∀ (fuel i : Nat) (b1 b2 : Bkt) (es1 es2 : List Entry) (s1 s2 : Nat), Rep b1 es1 s1 → Rep b2 es2 s2 →
    Sorted es2 → b2.bs = cf.blockSize → i ≤ es1.length → es1.length < fuel + i →
    es2.length + (es1.length - i) ≤ cf.cap →
    (∀ e ∈ es1, bucketIndex e.hash B m = n1 ∨ bucketIndex e.hash B m = n2) →
    ∃ b1' b2' es2', splitOwn n1 n2 B m fuel i b1 b2 = .ok (b1', b2') ∧
      Rep b1' (es1.take i ++ (es1.drop i).filter (inBucket B m n1)) s1 ∧ b1'.bs = b1.bs ∧
      Rep b2' es2' s2 ∧ b2'.bs = b2.bs ∧ Sorted es2' ∧
      es2'.Perm (es2 ++ (es1.drop i).filter (inBucket B m n2)) := by
  intro fuel
  induction fuel with
  | zero => intro i b1 b2 es1 es2 s1 s2 _ _ _ _ _ _; omega
  | succ fuel ih =>
    intro i b1 b2 es1 es2 s1 s2 h1 h2 hs2 hbs hi hfuel hroom hidx
    unfold splitOwn
    rw [h1.size]
    by_cases hlt : i < es1.length
    · rw [if_pos hlt, h1.get hlt]
      have hmem : es1[i] ∈ es1 := List.getElem_mem hlt
      have hfit := h1.fit _ hmem
      simp only [bind, Except.bind, bucketIndexA_ok hm]
      have hor := hidx _ hmem
      rw [assert_ok (by simpa using hor)]
      simp only
      by_cases h2e : bucketIndex es1[i].hash B m = n2
      · rw [if_pos h2e]
        have hroom2 : bucketSize (es2.length + 1) ≤ b2.bs := by
          rw [hbs]; exact Nat.le_trans (bucketSize_mono (by omega)) hcf.cap_le
        obtain ⟨b2a, e1, r2a, e2⟩ := h2.insert hs2 (o := es1[i].offset) (sz := es1[i].size)
          (h := es1[i].hash) hfit hroom2
        obtain ⟨b1a, e3, r1a, e4⟩ := h1.erase hlt
        rw [e1, e3]
        simp only
        have hlen : (es1.eraseIdx i).length = es1.length - 1 := by
          rw [List.length_eraseIdx]; simp [hlt]
        obtain ⟨b1', b2', es2', f1, f2, f3, f4, f5, f6, f7⟩ := ih i b1a b2a (es1.eraseIdx i)
          (insSorted es1[i] es2) s1 s2 r1a r2a (insSorted_sorted hs2) (by rw [e2, hbs])
          (by rw [hlen]; omega) (by rw [hlen]; omega)
          (by rw [hlen, insSorted_length]; omega)
          (fun e he => hidx e (List.mem_of_mem_eraseIdx he))
        have hdrop : (es1.eraseIdx i).drop i = es1.drop (i + 1) := by
          rw [List.eraseIdx_eq_take_drop_succ, List.drop_append, List.drop_of_length_le (by simp; omega)]
          simp [Nat.min_eq_left hi]
        have htake : (es1.eraseIdx i).take i = es1.take i := by
          rw [List.eraseIdx_eq_take_drop_succ, List.take_append_of_le_length (by simp; omega),
            List.take_take, Nat.min_self]
        have hn1 : inBucket B m n1 es1[i] = false := by
          simp only [inBucket, h2e, beq_eq_false_iff_ne]; exact fun h => hne h.symm
        have hn2 : inBucket B m n2 es1[i] = true := by simp [inBucket, h2e]
        refine ⟨b1', b2', es2', f1, ?_, by rw [f3, e4], f4, by rw [f5, e2], f6, ?_⟩
        · rw [hdrop, htake] at f2
          rw [List.drop_eq_getElem_cons hlt, List.filter_cons_of_neg (by simp [hn1])]
          exact f2
        · rw [hdrop] at f7
          rw [List.drop_eq_getElem_cons hlt, List.filter_cons_of_pos hn2]
          refine f7.trans (((insSorted_perm _ _).append_right _).trans ?_)
          exact List.perm_middle.symm
      · rw [if_neg h2e]
        have h1e : bucketIndex es1[i].hash B m = n1 := by
          rcases hor with h | h
          · exact h
          · exact absurd h h2e
        obtain ⟨b1', b2', es2', f1, f2, f3, f4, f5, f6, f7⟩ := ih (i + 1) b1 b2 es1 es2 s1 s2 h1 h2
          hs2 hbs (by omega) (by omega) (by omega) hidx
        have hn1 : inBucket B m n1 es1[i] = true := by simp [inBucket, h1e]
        have hn2 : inBucket B m n2 es1[i] = false := by simp [inBucket, h2e]
        refine ⟨b1', b2', es2', f1, ?_, f3, f4, f5, f6, ?_⟩
        · rw [List.drop_eq_getElem_cons hlt, List.filter_cons_of_pos hn1]
          rw [List.take_add_one, List.getElem?_eq_getElem hlt, List.append_assoc] at f2
          exact f2
        · rw [List.drop_eq_getElem_cons hlt, List.filter_cons_of_neg (by simp [hn2])]
          exact f7
    · rw [if_neg hlt]
      have : i = es1.length := by omega
      subst this
      exact ⟨b1, b2, es2, rfl, by simpa using h1, rfl, h2, rfl, hs2, by simp⟩

/-- Without `modulus ≤ 2^32` the first entry trips the assertion. -/
theorem splitOwn_abort {n1 n2 B m : Nat} (hm : ¬ m ≤ 2 ^ 32) {fuel : Nat} {b1 b2 : Bkt}
    {es1 : List Entry} {s1 : Nat} (h1 : Rep b1 es1 s1) (hne : es1 ≠ []) :
    splitOwn n1 n2 B m (fuel + 1) 0 b1 b2 = .error .abort := by
  have hlt : 0 < es1.length := List.length_pos_iff.mpr hne
  unfold splitOwn
  rw [h1.size, if_pos hlt, h1.get hlt]
  have : assert (decide (m ≤ 0x100000000)) = .error .abort := by
    rw [decide_eq_false (by omega)]; rfl
  simp only [bind, Except.bind, bucketIndexA, this]

/-- A bucket in memory with the virtual data file `V`. -/
structure Mem (cf : Conf) (V : Bytes) (b : Bkt) (T : List Entry) : Prop where
  bs : b.bs = cf.blockSize
  rep : ∃ es s, Rep b es s ∧ BucketOk V cf.cap es s T

theorem Mem.mono {cf : Conf} {V V' : Bytes} {b : Bkt} {T : List Entry} (h : Mem cf V b T)
    (hp : V <+: V') : Mem cf V' b T where
  bs := h.bs
  rep := let ⟨es, s, h1, h2⟩ := h.rep; ⟨es, s, h1, h2.mono hp⟩

theorem Mem.perm {cf : Conf} {V : Bytes} {b : Bkt} {T T' : List Entry} (h : Mem cf V b T)
    (hp : T.Perm T') : Mem cf V b T' where
  bs := h.bs
  rep := let ⟨es, s, h1, h2⟩ := h.rep; ⟨es, s, h1, h2.perm hp⟩

theorem wp_put' {b : Bkt} {wr : Writer} {V : Bytes} {T : List Entry} {e : Entry}
    {w : World} {k : Bkt → Writer → M α} {Q : α → World → Prop} (hcf : cf.Ok) (hV : Whole cf V) (hb : Mem cf V b T)
    (hw : WInv wr .dat w.fs V)
    (hP : P w.fs) (hA : DatFree P) (hlim : lim → V.length + 8 < 2 ^ 48)
    (hes : e.size < 2 ^ 32) (heh : e.hash < 2 ^ 48) (heo : lim → e.offset < 2 ^ 48)
    (hev : 2 ^ 48 ≤ e.offset → e.offset ≤ V.length)
    (hk : ∀ b' wr' w' rs, Mem cf (V ++ encRecs rs) b' (e :: T) → e.offset < 2 ^ 48 →
      Grown cf V rs 1 wr' w w' P → wp σ (k b' wr') Q (XP σ P lim nb) w') :
    wp σ (do
      let (b, wr) ← maybeSpill b wr
      let b ← M.lift (b.insert e.offset e.size e.hash)
      k b wr) Q (XP σ P lim nb) w := by
  obtain ⟨es, s, h1, h2⟩ := hb.rep
  apply wp_put hcf hV h1 hb.bs h2 hw hP hA hlim hes heh heo hev
  intro b' wr' w' es' s' rs r1 r2 r3 r4 r5
  exact hk b' wr' w' rs ⟨r2, es', s', r1, r3⟩ r4 r5

/-- Inner loop of the second part of `split`. -/
theorem wp_splitTmp {n1 n2 B m : Nat} (hm : m ≤ 2 ^ 32) (hne : n1 ≠ n2) (hcf : cf.Ok) (hA : DatFree P)
    {tmp : Bkt} {es : List Entry} {st : Nat} (ht : Rep tmp es st)
    (hidx : ∀ e ∈ es, bucketIndex e.hash B m = n1 ∨ bucketIndex e.hash B m = n2)
    {Q : Bkt × Bkt × Writer → World → Prop} :
    ∀ (fuel i : Nat) (b1 b2 : Bkt) (wr : Writer) (w : World) (V : Bytes) (T1 T2 : List Entry),
    i ≤ es.length → es.length < fuel + i → Whole cf V → Mem cf V b1 T1 → Mem cf V b2 T2 →
    WInv wr .dat w.fs V → P w.fs →
    (lim → V.length + (es.length - i) * cf.recLen + 8 < 2 ^ 48) →
    (∀ b1' b2' wr' w' rs, Mem cf (V ++ encRecs rs) b1' (T1 ++ (es.drop i).filter (inBucket B m n1)) →
      Mem cf (V ++ encRecs rs) b2' (T2 ++ (es.drop i).filter (inBucket B m n2)) →
      Grown cf V rs (es.length - i) wr' w w' P → Q (b1', b2', wr') w') →
    wp σ (splitTmp n1 n2 B m tmp fuel i b1 b2 wr) Q (XP σ P lim nb) w := by
  intro fuel
  induction fuel with
  | zero => intro i b1 b2 wr w V T1 T2 _ _; omega
  | succ fuel ih =>
    intro i b1 b2 wr w V T1 T2 hi hfuel hV h1 h2 hw hP hlim hQ
    unfold splitTmp
    rw [ht.size]
    by_cases hlt : i < es.length
    · rw [if_pos hlt]
      apply wp_bind
      apply wp_lift_ok (ht.get hlt)
      apply wp_bind
      apply wp_lift_ok (bucketIndexA_ok hm)
      have hmem : es[i] ∈ es := List.getElem_mem hlt
      have hfit := ht.fit _ hmem
      have hor := hidx _ hmem
      apply wp_bind
      apply wp_lift_ok (assert_ok (by simpa using hor))
      have hlim1 : lim → V.length + 8 < 2 ^ 48 := fun hl => by have := hlim hl; omega
      have hrem : (es.length - i) * cf.recLen = (es.length - (i + 1)) * cf.recLen + cf.recLen := by
        rw [show es.length - i = (es.length - (i + 1)) + 1 by omega, Nat.add_mul, Nat.one_mul]
      have hlim2 : ∀ rs, (encRecs rs).length ≤ 1 * cf.recLen → lim →
          (V ++ encRecs rs).length + (es.length - (i + 1)) * cf.recLen + 8 < 2 ^ 48 := by
        intro rs hrs hl
        have := hlim hl
        rw [List.length_append]; omega
      have hdrop := List.drop_eq_getElem_cons hlt
      have assoc : ∀ (rs rs' : List Rec), V ++ encRecs rs ++ encRecs rs' = V ++ encRecs (rs ++ rs') := by
        intro rs rs'; rw [encRecs_append, List.append_assoc]
      by_cases h2e : bucketIndex es[i].hash B m = n2
      · rw [if_pos h2e]
        have hn1 : ¬ inBucket B m n1 es[i] = true := by
          simp only [inBucket, h2e, beq_iff_eq]; exact fun h => hne h.symm
        have hn2 : inBucket B m n2 es[i] = true := by simp [inBucket, h2e]
        apply wp_put' hcf hV h2 hw hP hA hlim1 hfit.size hfit.hash (fun _ => hfit.offset)
          (fun h => absurd hfit.offset (Nat.not_lt.mpr h))
        intro b2' wr' w' rs hm2 _ hg
        apply ih (i + 1) b1 b2' wr' w' (V ++ encRecs rs) T1 (es[i] :: T2) (by omega) (by omega) (hV.grow hg.spills)
          (h1.mono ⟨_, rfl⟩) hm2 hg.winv hg.inv (hlim2 rs hg.len)
        intro b1'' b2'' wr'' w'' rs' q1 q2 q3
        rw [assoc] at q1 q2
        refine hQ _ _ _ _ (rs ++ rs') ?_ ?_ ((hg.trans q3).weaken (by omega))
        · rw [hdrop, List.filter_cons_of_neg hn1]; exact q1
        · rw [hdrop, List.filter_cons_of_pos hn2]
          exact q2.perm List.perm_middle.symm
      · rw [if_neg h2e]
        have h1e : bucketIndex es[i].hash B m = n1 := by
          rcases hor with h | h
          · exact h
          · exact absurd h h2e
        have hn1 : inBucket B m n1 es[i] = true := by simp [inBucket, h1e]
        have hn2 : ¬ inBucket B m n2 es[i] = true := by simp [inBucket, h2e]
        apply wp_put' hcf hV h1 hw hP hA hlim1 hfit.size hfit.hash (fun _ => hfit.offset)
          (fun h => absurd hfit.offset (Nat.not_lt.mpr h))
        intro b1' wr' w' rs hm1 _ hg
        apply ih (i + 1) b1' b2 wr' w' (V ++ encRecs rs) (es[i] :: T1) T2 (by omega) (by omega) (hV.grow hg.spills)
          hm1 (h2.mono ⟨_, rfl⟩) hg.winv hg.inv (hlim2 rs hg.len)
        intro b1'' b2'' wr'' w'' rs' q1 q2 q3
        rw [assoc] at q1 q2
        refine hQ _ _ _ _ (rs ++ rs') ?_ ?_ ((hg.trans q3).weaken (by omega))
        · rw [hdrop, List.filter_cons_of_pos hn1]
          exact q1.perm List.perm_middle.symm
        · rw [hdrop, List.filter_cons_of_neg hn2]; exact q2
    · rw [if_neg hlt]
      have : i = es.length := by omega
      subst this
      apply wp_ret
      refine hQ _ _ _ _ [] ?_ ?_ (Grown.refl hw hP _)
      · simpa using h1
      · simpa using h2

/-- The loop over the overflow records of the bucket being split. -/
theorem wp_splitSpills {n1 n2 B m : Nat} (hm : m ≤ 2 ^ 32) (hne : n1 ≠ n2) (hcf : cf.Ok) (hA : DatFree P)
    {Q : Bkt × Bkt × Bkt × Writer → World → Prop} :
    ∀ (fuel s : Nat) (b1 b2 tmp : Bkt) (wr : Writer) (w : World) (V : Bytes) (L T1 T2 : List Entry),
    s < fuel → s ≠ 0 → Chain V cf.cap s L →
    (∀ e ∈ L, bucketIndex e.hash B m = n1 ∨ bucketIndex e.hash B m = n2) →
    tmp.bs = cf.blockSize → tmp.p.length = cf.blockSize →
    Whole cf V → Mem cf V b1 T1 → Mem cf V b2 T2 → WInv wr .dat w.fs V → P w.fs →
    (lim → V.length + L.length * cf.recLen + 8 < 2 ^ 48) →
    (∀ b1' b2' tmp' wr' w' rs, Mem cf (V ++ encRecs rs) b1' (T1 ++ L.filter (inBucket B m n1)) →
      Mem cf (V ++ encRecs rs) b2' (T2 ++ L.filter (inBucket B m n2)) →
      tmp'.bs = cf.blockSize → tmp'.p.length = cf.blockSize →
      Grown cf V rs L.length wr' w w' P → Q (b1', b2', tmp', wr') w') →
    wp σ (splitSpills cf.cap n1 n2 B m fuel s b1 b2 tmp wr) Q (XP σ P lim nb) w := by
  intro fuel
  induction fuel with
  | zero => intro s b1 b2 tmp wr w V L T1 T2 h; omega
  | succ fuel ih =>
    intro s b1 b2 tmp wr w V L T1 T2 hs hs0 hch hidx htb htl hV h1 h2 hw hP hlim hQ
    unfold splitSpills
    cases hch with
    | nil => exact absurd rfl hs0
    | @link _ s' es L' h0 h48 hr hb hl hsort hfit hd hlk ht =>
    -- after the optional flush
    have rest : ∀ (wr1 : Writer) (w1 : World), WInv wr1 .dat w1.fs V → P w1.fs →
        SameExcept .dat w.fs w1.fs → w1.out = w.out →
        (s + bucketSize cf.cap ≤ wr1.offset) →
        wp σ (do
          let tmp ← tmp.readFile .dat s
          let (b1, b2, w) ← splitTmp n1 n2 B m tmp (tmp.size + 1) 0 b1 b2 wr1
          if tmp.spill ≠ 0 then splitSpills cf.cap n1 n2 B m fuel tmp.spill b1 b2 tmp w
          else M.ret (b1, b2, tmp, w)) Q (XP σ P lim nb) w1 := by
      intro wr1 w1 hw1 hP1 hsame hout hoff
      obtain ⟨f, hf, hfv, hfo⟩ := hw1.file
      have hcap : bucketCapacity tmp.bs = cf.cap := by rw [htb]; rfl
      apply wp_bind
      apply wp_readFile (es := es) (s := s') (t := []) hf
      · rw [hcap]; omega
      · rw [hcap, List.append_nil, ← hb, ← hfv, slice_append_left (by omega)]
      · rw [htl, htb]
      · rw [hcap, htb]; exact hcf.cap_le
      · rw [htb]; exact hcf.bs2
      · exact hfit
      · omega
      · rw [hcap]; omega
      · intro tmp' htmp htbs
        have hg0 : Grown cf V [] 0 wr1 w (w1.tick w1.fs) P := by
          refine ⟨by simpa using hw1, hP1, hsame, hout, Spills.nil _, by simp, by simp⟩
        have hlen : (es ++ L').length * cf.recLen = es.length * cf.recLen + L'.length * cf.recLen := by
          rw [List.length_append, Nat.add_mul]
        apply wp_bind
        rw [htmp.size]
        apply wp_splitTmp hm hne hcf hA htmp (fun e he => hidx e (by simp [he])) (es.length + 1) 0 b1 b2
          wr1 (w1.tick w1.fs) V T1 T2 (by omega) (by omega) hV h1 h2 hw1 hP1
          (by intro hlm; have := hlim hlm; rw [hlen] at this; simp only [Nat.sub_zero]; omega)
        intro b1' b2' wr' w' rs q1 q2 q3
        simp only [List.drop_zero, Nat.sub_zero] at q1 q2 q3
        simp only [htmp.spill]
        have hg := hg0.trans (rs' := rs) (n' := es.length) (wr' := wr') (w'' := w') (by simpa using q3)
        simp only [List.nil_append, Nat.zero_add] at hg
        by_cases hs'0 : s' ≠ 0
        · rw [if_pos hs'0]
          apply ih s' b1' b2' tmp' wr' w' (V ++ encRecs rs) L' _ _ (by omega) hs'0
            (ht.mono ⟨_, rfl⟩) (fun e he => hidx e (by simp [he])) (by rw [htbs, htb])
            (by rw [htmp.len, htbs, htb]) (hV.grow q3.spills) q1 q2 q3.winv q3.inv
          · intro hlm
            have := hlim hlm
            have := q3.len
            rw [hlen] at *
            rw [List.length_append]; omega
          · intro b1'' b2'' tmp'' wr'' w'' rs' p1 p2 p3 p4 p5
            rw [List.append_assoc V, ← encRecs_append] at p1 p2
            refine hQ _ _ _ _ _ (rs ++ rs') ?_ ?_ p3 p4 ?_
            · rw [List.filter_append, ← List.append_assoc]; exact p1
            · rw [List.filter_append, ← List.append_assoc]; exact p2
            · rw [List.length_append]; exact hg.trans p5
        · rw [if_neg hs'0]
          simp only [ne_eq, Decidable.not_not] at hs'0
          subst hs'0
          have hL := ht.zero
          subst hL
          apply wp_ret
          refine hQ _ _ _ _ _ rs ?_ ?_ (by rw [htbs, htb]) (by rw [htmp.len, htbs, htb]) ?_
          · simpa using q1
          · simpa using q2
          · simpa using hg
      · exact XP.fault hP1
    by_cases hfl : s + bucketSize cf.cap > wr.pos - wr.data.length
    · rw [if_pos hfl]
      apply wp_bind
      apply wp_wflush hw hP hA trivial
      intro wr1 w1 a1 a2 a3 a4 a5
      apply rest wr1 w1 a1 a3 a4 a5
      obtain ⟨f, hf, hfv, hfo⟩ := a1.file
      rw [a2, List.append_nil] at hfv
      rw [hfo, hfv]; exact hr
    · rw [if_neg hfl]
      apply wp_bind
      apply wp_ret
      apply rest wr w hw hP (SameExcept.refl _ _) rfl
      simp only [Writer.pos] at hfl; omega

/-- `split`. -/
theorem wp_split {n1 n2 B m : Nat} (hmlim : lim → m ≤ 2 ^ 32) (hmnb : nb → m ≤ 2 ^ 32) (hne : n1 ≠ n2) (hcf : cf.Ok) (hA : DatFree P)
    {b1 b2 tmp : Bkt} {wr : Writer} {w : World} {V : Bytes} {T : List Entry}
    (hV : Whole cf V) (h1 : Mem cf V b1 T) (h2 : Rep b2 [] 0) (h2b : b2.bs = cf.blockSize)
    (hidx : ∀ e ∈ T, bucketIndex e.hash B m = n1 ∨ bucketIndex e.hash B m = n2)
    (htb : tmp.bs = cf.blockSize) (htl : tmp.p.length = cf.blockSize)
    (hw : WInv wr .dat w.fs V) (hP : P w.fs)
    (hlim : lim → V.length + T.length * cf.recLen + 8 < 2 ^ 48)
    {Q : Bkt × Bkt × Bkt × Writer → World → Prop}
    (hQ : ∀ b1' b2' tmp' wr' w' rs, Mem cf (V ++ encRecs rs) b1' (T.filter (inBucket B m n1)) →
      Mem cf (V ++ encRecs rs) b2' (T.filter (inBucket B m n2)) →
      tmp'.bs = cf.blockSize → tmp'.p.length = cf.blockSize →
      Grown cf V rs T.length wr' w w' P → Q (b1', b2', tmp', wr') w') :
    wp σ (split cf.cap n1 n2 B m b1 b2 tmp wr) Q (XP σ P lim nb) w := by
  obtain ⟨es, s, r1, ok⟩ := h1.rep
  obtain ⟨L, hch, hperm⟩ := ok.chain
  unfold split
  rw [r1.size]
  by_cases he : es = []
  · subst he
    rw [if_pos (by rfl)]
    have hs0 := ok.empty rfl
    subst hs0
    have hL := hch.zero
    subst hL
    have hT : T = [] := List.nil_perm.mp (by simpa using hperm)
    subst hT
    apply wp_ret
    refine hQ _ _ _ _ _ [] ?_ ?_ htb htl (Grown.refl hw hP _)
    · simpa using h1
    · exact ⟨h2b, [], 0, h2, bucketOk_empty _ _⟩
  · have hlen0 : es.length ≠ 0 := by simpa using he
    rw [if_neg hlen0]
    by_cases hm : m ≤ 2 ^ 32
    · have hidx' : ∀ e ∈ es ++ L, bucketIndex e.hash B m = n1 ∨ bucketIndex e.hash B m = n2 :=
        fun e h => hidx e (hperm.mem_iff.mp h)
      obtain ⟨b1', b2', es2', f1, f2, f3, f4, f5, f6, f7⟩ := splitOwn_ok (cf := cf) hm hne hcf (es.length + 1) 0
        b1 b2 es [] s 0 r1 h2 List.Pairwise.nil h2b (by omega) (by omega) (by simpa using ok.len)
        (fun e h => hidx' e (by simp [h]))
      simp only [List.take_zero, List.nil_append, List.drop_zero] at f2 f7
      have hlenT : T.length = es.length + L.length := by rw [← hperm.length_eq]; simp
      have hM2 : Mem cf V b2' (es.filter (inBucket B m n2)) := by
        refine ⟨by rw [f5, h2b], es2', 0, f4, ?_, f6, f4.fit, fun _ => rfl, [], .nil, by simpa using f7⟩
        have := f7.length_eq
        have := List.length_filter_le (inBucket B m n2) es
        have := ok.len
        omega
      apply wp_bind
      apply wp_lift_ok f1
      simp only
      rw [f2.spill]
      have hflen : (es.filter (inBucket B m n1)).length ≤ cf.cap :=
        Nat.le_trans (List.length_filter_le _ _) ok.len
      have fp : ∀ n, (es.filter (inBucket B m n) ++ L.filter (inBucket B m n)).Perm
          (T.filter (inBucket B m n)) := by
        intro n; rw [← List.filter_append]; exact hperm.filter _
      by_cases hs0 : s ≠ 0
      · rw [if_pos hs0]
        obtain ⟨b1a, g1, g2, g3⟩ := f2.setSpill (s' := 0) (by decide)
        apply wp_bind
        apply wp_lift_ok g1
        have hM1 : Mem cf V b1a (es.filter (inBucket B m n1)) := by
          refine ⟨by rw [g3, f3, h1.bs], _, 0, g2, hflen, ok.sorted.filter _, g2.fit, fun _ => rfl,
            [], .nil, by simp⟩
        have hs48 : s < 2 ^ 48 + 1 := by
          cases hch with
          | nil => decide
          | link _ h48 => omega
        apply wp_splitSpills hm hne hcf hA (2 ^ 48 + 1) s b1a b2' tmp wr w V L _ _ hs48 hs0 hch
          (fun e h => hidx' e (by simp [h])) htb htl hV hM1 hM2 hw hP
        · intro hl
          have := hlim hl
          rw [hlenT, Nat.add_mul] at this; omega
        · intro b1'' b2'' tmp' wr' w' rs p1 p2 p3 p4 p5
          exact hQ _ _ _ _ _ rs (p1.perm (fp n1)) (p2.perm (fp n2)) p3 p4
            (p5.weaken (by omega))
      · rw [if_neg hs0]
        simp only [ne_eq, Decidable.not_not] at hs0
        subst hs0
        have hL := hch.zero
        subst hL
        have hM1 : Mem cf V b1' (es.filter (inBucket B m n1)) := by
          refine ⟨by rw [f3, h1.bs], _, 0, f2, hflen, ok.sorted.filter _, f2.fit, fun _ => rfl,
            [], .nil, by simp⟩
        apply wp_ret
        refine hQ _ _ _ _ _ [] ?_ ?_ htb htl (Grown.refl hw hP _)
        · have := hM1.perm (by simpa using fp n1); simpa using this
        · have := hM2.perm (by simpa using fp n2); simpa using this
    · apply wp_bind
      apply wp_lift_error (splitOwn_abort hm r1 he)
      exact ⟨hP, .inr ⟨rfl, fun hl => hm (hmlim hl), fun hl => absurd (hmnb hl) hm⟩⟩

end

end NuDB
