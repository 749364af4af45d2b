import Verif.Proof.Visit
import Verif.Proof.Prepare
import Verif.Proof.Recover
/- `rekey`: the scan of the data file and the construction of the key file. -/
namespace NuDB

open Spec

theorem RInv.mono {r : Reader} {F F' : Bytes} (h : RInv r F) (hp : F <+: F') : RInv r F' where
  last := Nat.le_trans h.last hp.length_le
  off := h.off
  avail := h.avail
  room := h.room
  data := by
    rw [slice_eq_of_prefix hp (by have := h.off; have := h.last; have := h.avail; omega)]; exact h.data

theorem RInv.back {r : Reader} {F F' : Bytes} (h : RInv r F') (hp : F <+: F') (hl : r.last ≤ F.length) : RInv r F where
  last := hl
  off := h.off
  avail := h.avail
  room := h.room
  data := by
    rw [← slice_eq_of_prefix hp (by have := h.off; have := h.avail; omega)]; exact h.data

/-- State after appending `rs` to the virtual data file `V`. -/
structure Grew (cf : Conf) (V : Bytes) (rs : List Rec) (n : Nat) (wr : Writer) (w w' : World) (P : Fs → Prop) :
    Prop where
  winv : WInv wr .dat w'.fs (V ++ encRecs rs)
  inv : P w'.fs
  same : SameExcept .dat w.fs w'.fs
  spills : Spills cf rs
  len : (encRecs rs).length ≤ n * cf.recLen
  small : rs ≠ [] → (V ++ encRecs rs).length ≤ 2 ^ 48 + 2 ^ 17

theorem Grew.refl {cf : Conf} {V : Bytes} {wr : Writer} {w w' : World} {P : Fs → Prop} (hw : WInv wr .dat w'.fs V)
    (hP : P w'.fs) (hs : SameExcept .dat w.fs w'.fs) (n : Nat) : Grew cf V [] n wr w w' P where
  winv := by simpa using hw
  inv := hP
  same := hs
  spills := Spills.nil cf
  len := by simp
  small := by simp

theorem Grew.trans {cf : Conf} {V : Bytes} {rs rs' : List Rec} {n n' : Nat} {wr wr' : Writer}
    {w w' w'' : World} {P : Fs → Prop} (h : Grew cf V rs n wr w w' P)
    (h' : Grew cf (V ++ encRecs rs) rs' n' wr' w' w'' P) :
    Grew cf V (rs ++ rs') (n + n') wr' w w'' P where
  winv := by have := h'.winv; rwa [encRecs_append, ← List.append_assoc]
  inv := h'.inv
  same := h.same.trans h'.same
  spills := h.spills.append h'.spills
  len := by
    rw [encRecs_append, List.length_append, Nat.add_mul]
    have := h.len; have := h'.len; omega
  small := by
    intro hne
    by_cases he : rs' = []
    · subst he
      have := h.small (by simpa using hne)
      simpa using this
    · have := h'.small he
      rwa [encRecs_append, ← List.append_assoc]

theorem Grown.grew {cf : Conf} {V : Bytes} {rs : List Rec} {n : Nat} {wr : Writer} {w0 w w' : World} {P : Fs → Prop}
    (h : Grown cf V rs n wr w w' P) (hs : SameExcept .dat w0.fs w.fs) : Grew cf V rs n wr w0 w' P :=
  ⟨h.winv, h.inv, hs.trans h.same, h.spills, h.len, h.small⟩

/-- The buffer holds the buckets `b0 ... b0 + bn - 1` with those of the entries `T` that belong there. -/
structure Filled (cf : Conf) (V : Bytes) (B b0 bn : Nat) (buf : List Bytes) (T : List Entry) : Prop where
  len : buf.length = bn
  block : ∀ i p, buf[i]? = some p → ∃ es s, p = encBlock cf.blockSize es s ∧
    BucketOk V cf.cap es s (T.filter (inBucket B (ceilPow2 B) (b0 + i)))

theorem Filled.mono {cf : Conf} {V V' : Bytes} {B b0 bn : Nat} {buf : List Bytes} {T : List Entry}
    (h : Filled cf V B b0 bn buf T) (hp : V <+: V') : Filled cf V' B b0 bn buf T :=
  ⟨h.len, fun i p hi => let ⟨es, s, h1, h2⟩ := h.block i p hi; ⟨es, s, h1, h2.mono hp⟩⟩

theorem Filled.perm {cf : Conf} {V : Bytes} {B b0 bn : Nat} {buf : List Bytes} {T T' : List Entry}
    (h : Filled cf V B b0 bn buf T) (hp : T.Perm T') : Filled cf V B b0 bn buf T' :=
  ⟨h.len, fun i p hi => let ⟨es, s, h1, h2⟩ := h.block i p hi; ⟨es, s, h1, h2.perm (hp.filter _)⟩⟩

/-- Entries of the buckets `b0 ... b1 - 1`. -/
def inRange (B b0 b1 : Nat) (e : Entry) : Bool :=
  b0 ≤ bucketIndex e.hash B (ceilPow2 B) && bucketIndex e.hash B (ceilPow2 B) < b1

theorem encBlock_length {cf : Conf} {V : Bytes} {es : List Entry} {s : Nat} {T : List Entry} (hcf : cf.Ok)
    (h : BucketOk V cf.cap es s T) : (encBlock cf.blockSize es s).length = cf.blockSize := by
  have h1 : bucketSize es.length ≤ bucketSize cf.cap := bucketSize_mono h.len
  have h2 := hcf.cap_le
  simp only [encBlock, List.length_append, encBkt_length, zeros_length]
  omega

section
variable {σ : Schedule} {c : Cfg} {cf : Conf} {P : Fs → Prop} {lim nb : Prop} {D : Bytes} {recs : List Rec} {B : Nat}

/-- A request to the reader of a data file that may have grown. -/
theorem wp_prepareD {r : Reader} {f : FileSt} {n : Nat} {w : World} {Q : Bytes × Reader → World → Prop}
    {X : Exc → World → Prop}
    (hf : w.fs .dat = some f) (hp : r.path = .dat) (hD : D <+: f.cur) (hr : RInv r D) (hn : r.pos + n ≤ r.last)
    (hQ : ∀ r' w', RInv r' D → r'.path = .dat → r'.last = r.last → r'.pos = r.pos + n → w'.fs = w.fs →
      Q (slice D r.pos n, r') w')
    (hX : ∀ x, IsFault x → Faulty σ → X x (w.tick w.fs)) :
    wp σ (r.prepare c n) Q X w := by
  apply wp_prepare (f := f) (by rw [hp]; exact hf) (hr.mono hD)
  · intro r' w' h1 h2 h3
    have := hr.last
    rw [slice_eq_of_prefix hD (by omega)]
    exact hQ r' w' (h1.inv.back hD (by rw [h1.last]; exact hr.last)) (h1.path.trans hp) h1.last h1.pos h2
  · intro h; omega
  · intro x h1 h2 _ _; exact hX x h1 h2

/-- The header `rekey` builds for a database with configuration `cf`. -/
def Conf.rk (cf : Conf) (H : Hasher) (B : Nat) : KeyHeader := { cf.kh H B with capacity := 0 }

theorem wp_rekeyStep_value {k v : Bytes} {a rest : List Rec} (hcf : cf.Ok) (hB1 : 1 ≤ B) (hB : B ≤ 2 ^ 32)
    (hA : DatFree P) (hPD : ∀ fs, P fs → ∃ f, fs .dat = some f ∧ D <+: f.cur)
    (hD : D = putDatHeader cf.dh ++ encRecs (a ++ .data k v :: rest)) (hok : (Rec.data k v).Ok cf)
    {b0 b1 pre nwork : Nat} {buf : List Bytes} {wr : Writer} {r : Reader} {w : World} {V : Bytes} {T : List Entry}
    {Q : List Bytes × Writer × Reader → World → Prop}
    (hV : Whole cf V) (hF : Filled cf V B b0 (b1 - b0) buf T) (hw : WInv wr .dat w.fs V) (hDV : D <+: V) (hP : P w.fs)
    (hr : RInv r D) (hp : r.path = .dat) (hl : r.last = D.length) (hpos : r.pos = 92 + (encRecs a).length)
    (hlim : lim → V.length + 8 < 2 ^ 48)
    (hQ : ∀ buf' wr' r' w' rs, Filled cf (V ++ encRecs rs) B b0 (b1 - b0) buf'
        (⟨r.pos, v.length, cf.hash c.H k⟩ :: T) →
      Grew cf V rs (if inRange B b0 b1 ⟨r.pos, v.length, cf.hash c.H k⟩ then 1 else 0) wr' w w' P →
      RInv r' D → r'.path = .dat → r'.last = D.length → r'.pos = 92 + (encRecs (a ++ [.data k v])).length →
      Q (buf', wr', r') w') :
    wp σ (rekeyStep c (cf.rk c.H B) b0 b1 pre nwork buf wr r) Q (XP σ P lim nb) w := by
  obtain ⟨hk, hv1, hv2⟩ := hok.data k v rfl
  have hD2 : D = (putDatHeader cf.dh ++ encRecs a) ++ (putU48 v.length ++ ((k ++ v) ++ encRecs rest)) := by
    rw [hD, encRecs_append]; simp [encRec, dataRecord]
  have hDl : D.length = 92 + (encRecs a).length + (6 + (k.length + v.length + (encRecs rest).length)) := by
    rw [hD2]; simp; omega
  obtain ⟨f, hf, hDf⟩ := hPD _ hP
  unfold rekeyStep
  apply wp_bind
  apply wp_prepareD hf hp hDf hr (by omega)
  · intro r1 w1 i1 p1 l1 q1 f1
    have e1 : slice D r.pos 6 = putU48 v.length := slice_at_mid hD2 (by simp; omega) rfl
    simp only [e1]
    apply wp_bind
    apply wp_emit
    apply wp_bind
    apply wp_lift_ok (getSize48_ok hv2)
    rw [if_pos (by omega)]
    apply wp_bind
    show wp σ (r1.prepare c (cf.keySize + v.length)) _ _ _
    apply wp_prepareD (f := f) (by simp only [f1]; exact hf) p1 hDf i1 (by omega)
    · intro r2 w2 i2 p2 l2 q2 f2
      have e2 : slice D r1.pos (cf.keySize + v.length) = k ++ v := by
        refine slice_at_mid (pre := putDatHeader cf.dh ++ encRecs a ++ putU48 v.length) (y := k ++ v)
          (post := encRecs rest) ?_ (by rw [q1, hpos]; simp; omega) (by simp [hk])
        rw [hD2]; simp
      simp only [e2]
      have e3 : (k ++ v).take (cf.rk c.H B).keySize = k := by
        show (k ++ v).take cf.keySize = k
        rw [← hk]; simp
      rw [e3]
      have f2' : w2.fs = w.fs := f2.trans f1
      have hw2 : WInv wr .dat w2.fs V := by rw [f2']; exact hw
      have hP2 : P w2.fs := by rw [f2']; exact hP
      have hs2 : SameExcept .dat w.fs w2.fs := by rw [f2']; exact SameExcept.refl _ _
      have hl2 : r2.last = D.length := l2.trans (l1.trans hl)
      have hp2 : r2.pos = 92 + (encRecs (a ++ [.data k v])).length := by
        rw [q2, q1, hpos, encRecs_append]; simp [encRec, dataRecord, hk]; omega
      have hhash : hashKey c.H (cf.rk c.H B).salt k = cf.hash c.H k := rfl
      have hh48 : cf.hash c.H k < 2 ^ 48 := hashKey_lt _ _ _
      rw [hhash]
      apply wp_bind
      apply wp_lift_ok (bucketIndexA_ok (modulus_le (ceilPow2_isModulus hB1 (by omega)) hB))
      generalize he : (⟨r.pos, v.length, cf.hash c.H k⟩ : Entry) = e
      have heh : e.hash = cf.hash c.H k := by rw [← he]
      rw [← heh] at hh48 ⊢
      show wp σ (if bucketIndex e.hash B (ceilPow2 B) < b0 ∨ bucketIndex e.hash B (ceilPow2 B) ≥ b1 then _ else _) _ _ _
      by_cases hout : bucketIndex e.hash B (ceilPow2 B) < b0 ∨ bucketIndex e.hash B (ceilPow2 B) ≥ b1
      · rw [if_pos hout]
        apply wp_ret
        rw [he] at hQ
        have hno : inRange B b0 b1 e = false := by
          simp only [inRange, Bool.and_eq_false_iff, decide_eq_false_iff_not]; omega
        refine hQ buf wr r2 w2 [] ?_ (Grew.refl hw2 hP2 hs2 _) i2 p2 hl2 hp2
        refine ⟨hF.len, ?_⟩
        intro i p hi
        obtain ⟨es, s, h1, h2⟩ := hF.block i p hi
        have hi2 : i < b1 - b0 := by rw [← hF.len]; exact (List.getElem?_eq_some_iff.mp hi).1
        refine ⟨es, s, h1, ?_⟩
        rw [List.filter_cons_of_neg (by simp only [inBucket, beq_iff_eq]; omega)]
        simpa using h2
      · rw [if_neg hout]
        have hyes : inRange B b0 b1 e = true := by
          simp only [inRange, Bool.and_eq_true, decide_eq_true_eq]; omega
        have hidx : bucketIndex e.hash B (ceilPow2 B) - b0 < buf.length := by rw [hF.len]; omega
        generalize hn : bucketIndex e.hash B (ceilPow2 B) = n at hout hidx
        have hn0 : bucketIndex e.hash (cf.rk c.H B).buckets (ceilPow2 B) = n := hn
        rw [hn0]
        cases hb : buf[n - b0]? with
        | none => rw [List.getElem?_eq_none_iff] at hb; omega
        | some p =>
          obtain ⟨es, s, hpe, hbok⟩ := hF.block _ _ hb
          have hpl := encBlock_length hcf hbok
          obtain ⟨b, m1, m2, m3, m4⟩ := ofMem_enc (bs := cf.blockSize) (es := es) (s := s)
            (t := zeros (cf.blockSize - bucketSize es.length)) hpl hcf.bs2 hbok.fit hbok.lt48
          apply wp_bind
          subst hpe
          apply wp_lift_ok (a := b) m1
          have hsz : e.size = v.length := by rw [← he]
          have hoff : e.offset = r.pos := by rw [← he]
          rw [← hsz, ← hoff]
          have hVl := hDV.length_le
          have heV : e.offset ≤ V.length := by rw [hoff]; omega
          apply wp_put0 (k := fun b wr => M.ret (buf.set (n - b0) b.p, wr, r2)) (e := e) (T := T.filter (inBucket B (ceilPow2 B) (b0 + (n - b0)))) hcf hV m2 m3 hbok hw2 hP2 hA hlim
            (by rw [hsz]; exact hv2) hh48 (fun h => by have := hlim h; omega) (fun _ => heV)
          intro b' wr' w' es' s' rs g1 g2 g3 g4 g5 g6
          apply wp_ret
          rw [he] at hQ
          refine hQ _ wr' r2 w' rs ?_ ((g6.grew hs2).trans (Grew.refl (n := 0) (by simpa using g6.winv) g6.inv (SameExcept.refl _ _)) |> fun h => by simpa [hyes] using h) i2 p2 hl2 hp2
          refine ⟨by rw [List.length_set]; exact hF.len, ?_⟩
          intro i q hi
          rw [List.getElem?_set] at hi
          split at hi
          · rename_i hii
            subst hii
            refine ⟨es', s', ?_, ?_⟩
            · obtain ⟨z, hz⟩ := g5 ⟨_, m4⟩
              have hq : b'.p = q := by simpa using hi
              have := g1.len
              rw [hz] at this
              rw [← hq, hz, encBlock]
              simp only [List.length_append, encBkt_length, zeros_length] at this
              congr 2; omega
            · rw [List.filter_cons_of_pos (by simp only [inBucket, beq_iff_eq]; omega)]
              exact g3
          · rename_i hii
            obtain ⟨es1, s1, h1, h2⟩ := hF.block i q hi
            refine ⟨es1, s1, h1, ?_⟩
            rw [List.filter_cons_of_neg (by simp only [inBucket, beq_iff_eq]; omega)]
            exact h2.mono ⟨_, rfl⟩
    · intro x hx hfa
      exact ⟨by simp only [tick_fs, f1]; exact hP, .inl ⟨hx, hfa⟩⟩
  · intro x hx hfa
    exact ⟨hP, .inl ⟨hx, hfa⟩⟩

theorem wp_rekeyStep_spill {es : List Entry} {s : Nat} {a rest : List Rec}
    (hPD : ∀ fs, P fs → ∃ f, fs .dat = some f ∧ D <+: f.cur)
    (hD : D = putDatHeader cf.dh ++ encRecs (a ++ .spill es s :: rest)) (hok : (Rec.spill es s).Ok cf)
    {b0 b1 pre nwork : Nat} {buf : List Bytes} {wr : Writer} {r : Reader} {w : World}
    {Q : List Bytes × Writer × Reader → World → Prop} (hP : P w.fs)
    (hr : RInv r D) (hp : r.path = .dat) (hl : r.last = D.length) (hpos : r.pos = 92 + (encRecs a).length)
    (hQ : ∀ r' w', w'.fs = w.fs →
      RInv r' D → r'.path = .dat → r'.last = D.length → r'.pos = 92 + (encRecs (a ++ [.spill es s])).length →
      Q (buf, wr, r') w') :
    wp σ (rekeyStep c (cf.rk c.H B) b0 b1 pre nwork buf wr r) Q (XP σ P lim nb) w := by
  obtain ⟨hsz, _⟩ := hok.spill es s rfl
  have hD2 : D = (putDatHeader cf.dh ++ encRecs a) ++ (putU48 0 ++ (putU16 (bucketSize es.length) ++ (encBkt es s ++ encRecs rest))) := by
    rw [hD, encRecs_append]; simp [encRec]
  have hDl : D.length = 92 + (encRecs a).length + (6 + (2 + (bucketSize es.length + (encRecs rest).length))) := by
    rw [hD2]; simp; omega
  obtain ⟨f, hf, hDf⟩ := hPD _ hP
  unfold rekeyStep
  apply wp_bind
  apply wp_prepareD hf hp hDf hr (by omega)
  · intro r1 w1 i1 p1 l1 q1 f1
    have e1 : slice D r.pos 6 = putU48 0 := slice_at_mid hD2 (by simp; omega) rfl
    simp only [e1]
    apply wp_bind
    apply wp_emit
    apply wp_bind
    apply wp_lift_ok (getSize48_ok (by decide))
    rw [if_neg (by omega)]
    apply wp_bind
    apply wp_prepareD (f := f) (by simp only [f1]; exact hf) p1 hDf i1 (by omega)
    · intro r2 w2 i2 p2 l2 q2 f2
      have e2 : slice D r1.pos 2 = putU16 (bucketSize es.length) := by
        refine slice_at_mid (pre := putDatHeader cf.dh ++ encRecs a ++ putU48 0) (y := putU16 (bucketSize es.length))
          (post := encBkt es s ++ encRecs rest) ?_ (by rw [q1, hpos]; simp; omega) rfl
        rw [hD2]; simp
      simp only [e2, getU16_putU16 hsz]
      apply wp_bind
      have f2' : w2.fs = w.fs := f2.trans f1
      apply wp_prepareD (f := f) (by rw [f2']; exact hf) p2 hDf i2 (by omega)
      · intro r3 w3 i3 p3 l3 q3 f3
        apply wp_ret
        refine hQ r3 w3 (f3.trans f2') i3 p3 (l3.trans (l2.trans (l1.trans hl))) ?_
        rw [q3, q2, q1, hpos, encRecs_append]; simp [encRec]; omega
      · intro x hx hfa
        exact ⟨by simp only [tick_fs, f2']; exact hP, .inl ⟨hx, hfa⟩⟩
    · intro x hx hfa
      exact ⟨by simp only [tick_fs, f1]; exact hP, .inl ⟨hx, hfa⟩⟩
  · intro x hx hfa
    exact ⟨hP, .inl ⟨hx, hfa⟩⟩

theorem rekeyScan_stop {kh : KeyHeader} {b0 b1 pre nwork fuel : Nat} {buf : List Bytes} {wr : Writer} {r : Reader}
    (h : r.eof = true) : rekeyScan c kh b0 b1 pre nwork (fuel + 1) buf wr r = M.ret (buf, wr) := by
  simp [rekeyScan, h]

theorem rekeyScan_next {kh : KeyHeader} {b0 b1 pre nwork fuel : Nat} {buf : List Bytes} {wr : Writer} {r : Reader}
    (h : r.eof = false) : rekeyScan c kh b0 b1 pre nwork (fuel + 1) buf wr r =
      (do let (buf, wr, r) ← rekeyStep c kh b0 b1 pre nwork buf wr r
          rekeyScan c kh b0 b1 pre nwork fuel buf wr r) := by
  simp [rekeyScan, h]

/-- Entries of the records from offset `o` on. -/
def entriesOf (c : Cfg) (cf : Conf) (o : Nat) (rs : List Rec) : List Entry :=
  (itemsOf (cf.hash c.H) o rs).map (·.1)

theorem encRec_pos (r : Rec) : 6 ≤ (encRec r).length := by
  cases r <;> simp [encRec, dataRecord] <;> omega

theorem wp_rekeyScan (hcf : cf.Ok) (hB1 : 1 ≤ B) (hB : B ≤ 2 ^ 32)
    (hA : DatFree P) (hPD : ∀ fs, P fs → ∃ f, fs .dat = some f ∧ D <+: f.cur)
    (hD : D = putDatHeader cf.dh ++ encRecs recs) (hok : ∀ r ∈ recs, r.Ok cf)
    {b0 b1 pre nwork : Nat} {Q : List Bytes × Writer → World → Prop} :
    ∀ (b a : List Rec) (fuel : Nat) (buf : List Bytes) (wr : Writer) (r : Reader) (w : World) (V : Bytes) (T : List Entry),
    recs = a ++ b → b.length < fuel →
    Whole cf V → Filled cf V B b0 (b1 - b0) buf T → WInv wr .dat w.fs V → D <+: V → P w.fs →
    RInv r D → r.path = .dat → r.last = D.length → r.pos = 92 + (encRecs a).length →
    (lim → V.length + ((entriesOf c cf r.pos b).filter (inRange B b0 b1)).length * cf.recLen + 8 < 2 ^ 48) →
    (∀ buf' wr' w' rs, Filled cf (V ++ encRecs rs) B b0 (b1 - b0) buf' (entriesOf c cf r.pos b ++ T) →
      Grew cf V rs ((entriesOf c cf r.pos b).filter (inRange B b0 b1)).length wr' w w' P → Q (buf', wr') w') →
    wp σ (rekeyScan c (cf.rk c.H B) b0 b1 pre nwork fuel buf wr r) Q (XP σ P lim nb) w := by
  intro b
  induction b with
  | nil =>
    intro a fuel buf wr r w V T hab hfuel hV hF hw hDV hP hr hp hl hpos hlim hQ
    cases fuel with
    | zero => simp at hfuel
    | succ fuel =>
      have he : r.eof = true := by
        have h1 := hr.off
        have h2 := hr.avail
        have h3 : D.length = 92 + (encRecs a).length := by rw [hD, hab]; simp
        have h4 : r.pos = r.offset - r.avail := rfl
        simp only [Reader.eof, decide_eq_true_eq]
        omega
      rw [rekeyScan_stop he]
      apply wp_ret
      refine hQ buf wr w [] ?_ (Grew.refl hw hP (SameExcept.refl _ _) _)
      simpa [entriesOf, itemsOf] using hF
  | cons x b ih =>
    intro a fuel buf wr r w V T hab hfuel hV hF hw hDV hP hr hp hl hpos hlim hQ
    cases fuel with
    | zero => simp at hfuel
    | succ fuel =>
      have hDl : D.length = 92 + (encRecs a).length + (encRec x).length + (encRecs b).length := by
        rw [hD, hab, encRecs_append]; simp; omega
      have hx6 := encRec_pos x
      have he : r.eof = false := by
        have h1 := hr.off
        have h2 := hr.avail
        have h4 : r.pos = r.offset - r.avail := rfl
        simp only [Reader.eof, decide_eq_false_iff_not]
        omega
      rw [rekeyScan_next he]
      apply wp_bind
      rw [hab] at hD
      have hokx : x.Ok cf := hok x (by rw [hab]; simp)
      cases x with
      | data k v =>
        have hent : entriesOf c cf r.pos (.data k v :: b) =
            ⟨r.pos, v.length, cf.hash c.H k⟩ :: entriesOf c cf (r.pos + (encRec (.data k v)).length) b := rfl
        rw [hent] at hlim hQ
        generalize he : (⟨r.pos, v.length, cf.hash c.H k⟩ : Entry) = e at hlim hQ
        apply wp_rekeyStep_value hcf hB1 hB hA hPD hD hokx hV hF hw hDV hP hr hp hl hpos
          (fun h => by have := hlim h; omega)
        intro buf1 wr1 r1 w1 rs1 g1 g2 g3 g4 g5 g6
        have hpos1 : r1.pos = r.pos + (encRec (.data k v)).length := by
          rw [g6, hpos, encRecs_append]; simp; omega
        rw [he] at g1 g2
        have hcnt : ((e :: entriesOf c cf (r.pos + (encRec (.data k v)).length) b).filter (inRange B b0 b1)).length =
            (if inRange B b0 b1 e then 1 else 0) +
              ((entriesOf c cf r1.pos b).filter (inRange B b0 b1)).length := by
          rw [hpos1, List.filter_cons]
          split <;> simp <;> omega
        rw [hcnt] at hlim hQ
        rw [← hpos1] at hQ
        apply ih (a ++ [.data k v]) fuel buf1 wr1 r1 w1 (V ++ encRecs rs1) (e :: T) (by rw [hab]; simp)
          (by simp at hfuel; omega) (hV.grow g2.spills) g1 g2.winv (hDV.trans ⟨_, rfl⟩) g2.inv g3 g4 g5 g6
        · intro hl
          have h1 := hlim hl
          have h2 := g2.len
          rw [Nat.add_mul] at h1
          rw [List.length_append]; omega
        · intro buf2 wr2 w2 rs2 q1 q2
          refine hQ buf2 wr2 w2 (rs1 ++ rs2) ?_ (g2.trans q2)
          rw [encRecs_append, ← List.append_assoc]
          exact q1.perm List.perm_middle
      | spill es s =>
        have hent : entriesOf c cf r.pos (.spill es s :: b) = entriesOf c cf (r.pos + (encRec (.spill es s)).length) b := rfl
        rw [hent] at hlim hQ
        apply wp_rekeyStep_spill hPD hD hokx hP hr hp hl hpos
        intro r1 w1 f1 g3 g4 g5 g6
        have hpos1 : r1.pos = r.pos + (encRec (.spill es s)).length := by
          rw [g6, hpos, encRecs_append]; simp; omega
        rw [← hpos1] at hlim hQ
        apply ih (a ++ [.spill es s]) fuel buf wr r1 w1 V T (by rw [hab]; simp)
          (by simp at hfuel; omega) hV hF (by rw [f1]; exact hw) hDV (by rw [f1]; exact hP) g3 g4 g5 g6 hlim
        intro buf2 wr2 w2 rs2 q1 q2
        refine hQ buf2 wr2 w2 rs2 q1 ⟨q2.winv, q2.inv, ?_, q2.spills, q2.len, q2.small⟩
        rw [← f1]; exact q2.same

theorem emptyBuckets_ok (bs : Nat) : ∀ n, emptyBuckets c bs n = .ok (List.replicate n (zeros bs))
  | 0 => rfl
  | n + 1 => by
    simp only [emptyBuckets, ofEmpty_ok (fresh_length c bs), emptyBuckets_ok bs n]
    rfl

theorem filled_empty (hcf : cf.Ok) (V : Bytes) (B b0 n : Nat) :
    Filled cf V B b0 n (List.replicate n (zeros cf.blockSize)) [] := by
  have := hcf.bs1
  refine ⟨by simp, ?_⟩
  intro i p hi
  rw [List.getElem?_replicate] at hi
  split at hi
  · refine ⟨[], 0, ?_, by simpa using bucketOk_empty V cf.cap⟩
    have e : encBkt [] 0 = zeros 8 := by decide
    have hp : zeros cf.blockSize = p := by simpa using hi
    rw [← hp, encBlock, e, ← zeros_add]; congr 1; simp [bucketSize]; omega
  · cases hi

theorem flatten_length {bs : Nat} : ∀ {buf : List Bytes}, (∀ p ∈ buf, p.length = bs) →
    buf.flatten.length = buf.length * bs
  | [], _ => by simp
  | p :: buf, h => by
    have h1 := h p (by simp)
    have h2 := flatten_length (buf := buf) (fun q hq => h q (by simp [hq]))
    simp only [List.flatten_cons, List.length_append, List.length_cons, Nat.add_mul, h1, h2]; omega

theorem flatten_slice {bs : Nat} : ∀ {buf : List Bytes} {i : Nat} {p : Bytes}, (∀ p ∈ buf, p.length = bs) →
    buf[i]? = some p → slice buf.flatten (i * bs) bs = p
  | [], _, _, _, h => by simp at h
  | q :: buf, 0, p, h, hi => by
    have h1 := h q (by simp)
    have : q = p := by simpa using hi
    subst this
    simp only [Nat.zero_mul, List.flatten_cons]
    exact slice_mid' (x := []) rfl h1.symm
  | q :: buf, i + 1, p, h, hi => by
    have h1 := h q (by simp)
    have h2 := flatten_slice (buf := buf) (fun q hq => h q (by simp [hq])) (by simpa using hi)
    rw [List.flatten_cons, slice_append_right (by rw [h1, Nat.add_mul]; omega), h1]
    rw [show (i + 1) * bs - bs = i * bs by rw [Nat.add_mul]; omega]
    exact h2

/-- A write into the middle of a file. -/
theorem slice_writeAt_out {f bs : Bytes} {o p n : Nat} (h : o + bs.length ≤ f.length)
    (hp : p + n ≤ o ∨ o + bs.length ≤ p) : slice (writeAt f o bs) p n = slice f p n := by
  apply List.ext_getElem?
  intro i
  rw [slice_getElem?, slice_getElem?]
  split
  · by_cases hi : p + i < f.length
    · rw [writeAt_getElem? (by omega) hi]
    · have hl : (writeAt f o bs).length = f.length := by rw [writeAt_inside h, put_length h]
      rw [List.getElem?_eq_none (by omega), List.getElem?_eq_none (by omega)]
  · rfl

theorem slice_writeAt_in {f bs : Bytes} {o p n : Nat} (h1 : o ≤ p) (h2 : p + n ≤ o + bs.length) :
    slice (writeAt f o bs) p n = slice bs (p - o) n := by
  apply List.ext_getElem?
  intro i
  rw [slice_getElem?, slice_getElem?]
  split
  · rw [writeAt_getElem?_in (by omega) (by omega)]
    congr 1; omega
  · rfl

/-- The key file `K` under construction: the buckets below `b0` are filled. -/
structure Built (c : Cfg) (cf : Conf) (V K : Bytes) (B b0 : Nat) (T : List Entry) : Prop where
  len : K.length = (B + 1) * cf.blockSize
  head : K.take 104 = putKeyHeader (cf.kh c.H B)
  done : ∀ n, n < b0 → n < B → ∃ es s, slice K ((n + 1) * cf.blockSize) cf.blockSize = encBlock cf.blockSize es s ∧
    BucketOk V cf.cap es s (T.filter (inBucket B (ceilPow2 B) n))

theorem Built.mono {V V' K : Bytes} {b0 : Nat} {T : List Entry} (h : Built c cf V K B b0 T) (hp : V <+: V') :
    Built c cf V' K B b0 T :=
  ⟨h.len, h.head, fun n h1 h2 => let ⟨es, s, a, b⟩ := h.done n h1 h2; ⟨es, s, a, b.mono hp⟩⟩

theorem Built.chunk {V K : Bytes} {b0 b1 : Nat} {T : List Entry} {buf : List Bytes} (hcf : cf.Ok)
    (h : Built c cf V K B b0 T) (hF : Filled cf V B b0 (b1 - b0) buf T) (hb1 : b1 ≤ B) (hb : b0 ≤ b1) :
    Built c cf V (writeAt K ((b0 + 1) * cf.blockSize) buf.flatten) B b1 T ∧
      (b0 + 1) * cf.blockSize + buf.flatten.length ≤ K.length := by
  have hbs := hcf.bs1
  have hall : ∀ p ∈ buf, p.length = cf.blockSize := by
    intro p hp
    obtain ⟨i, hi, e⟩ := List.getElem_of_mem hp
    obtain ⟨es, s, h1, h2⟩ := hF.block i p (by rw [List.getElem?_eq_getElem hi, e])
    rw [h1]; exact encBlock_length hcf h2
  have hfl := flatten_length hall
  rw [hF.len] at hfl
  have hroom : (b0 + 1) * cf.blockSize + buf.flatten.length ≤ K.length := by
    rw [hfl, h.len, ← Nat.add_mul]; exact Nat.mul_le_mul_right _ (by omega)
  have hroom' : (b0 + 1) * cf.blockSize + buf.flatten.length = (b1 + 1) * cf.blockSize := by
    rw [hfl, ← Nat.add_mul]; congr 1; omega
  refine ⟨⟨?_, ?_, ?_⟩, hroom⟩
  · rw [writeAt_inside hroom, put_length hroom]; exact h.len
  · have e : ∀ x : Bytes, x.take 104 = slice x 0 104 := fun x => (take_eq_slice' x 104).symm
    have h1 : 1 * cf.blockSize ≤ (b0 + 1) * cf.blockSize := Nat.mul_le_mul_right _ (by omega)
    rw [e, slice_writeAt_out hroom (by omega), ← e]; exact h.head
  · intro n hn hnB
    by_cases hlt : n < b0
    · obtain ⟨es, s, h1, h2⟩ := h.done n hlt hnB
      refine ⟨es, s, ?_, h2⟩
      have h3 : (n + 1 + 1) * cf.blockSize ≤ (b0 + 1) * cf.blockSize := Nat.mul_le_mul_right _ (by omega)
      rw [Nat.add_mul (n + 1)] at h3
      rw [slice_writeAt_out hroom (by omega)]; exact h1
    · have hi : n - b0 < buf.length := by rw [hF.len]; omega
      obtain ⟨es, s, h1, h2⟩ := hF.block (n - b0) _ (List.getElem?_eq_getElem hi)
      refine ⟨es, s, ?_, by rw [show n = b0 + (n - b0) by omega]; exact h2⟩
      have h3 : (b0 + 1) * cf.blockSize ≤ (n + 1) * cf.blockSize := Nat.mul_le_mul_right _ (by omega)
      have h4 : (n + 1 + 1) * cf.blockSize ≤ (b1 + 1) * cf.blockSize := Nat.mul_le_mul_right _ (by omega)
      rw [Nat.add_mul (n + 1)] at h4
      rw [slice_writeAt_in h3 (by omega), ← Nat.sub_mul, show n + 1 - (b0 + 1) = n - b0 by omega,
        flatten_slice hall (List.getElem?_eq_getElem hi), h1]

theorem range_split (B b0 b1 : Nat) (hb : b0 ≤ b1) (hb1 : b1 ≤ B) (T : List Entry) :
    (T.filter (inRange B b0 B)).length = (T.filter (inRange B b0 b1)).length + (T.filter (inRange B b1 B)).length := by
  induction T with
  | nil => rfl
  | cons e T ih =>
    rw [List.filter_cons, List.filter_cons, List.filter_cons]
    have h : ∀ x y, inRange B x y e = true ↔ x ≤ bucketIndex e.hash B (ceilPow2 B) ∧ bucketIndex e.hash B (ceilPow2 B) < y := by
      intro x y; simp [inRange]
    by_cases h1 : inRange B b0 b1 e = true <;> by_cases h2 : inRange B b1 B e = true <;>
      by_cases h3 : inRange B b0 B e = true <;> simp only [h1, h2, h3, if_true] <;>
      rw [h] at h1 h2 h3 <;> first | omega | (simp; omega)

theorem recs_le : ∀ (rs : List Rec), rs.length ≤ (encRecs rs).length
  | [] => by simp
  | r :: rs => by have := encRec_pos r; have := recs_le rs; simp; omega

theorem wp_rekeyChunks (hcf : cf.Ok) (hB1 : 1 ≤ B) (hB : B ≤ 2 ^ 32)
    (hA : DatFree P) (hPD : ∀ fs, P fs → ∃ f, fs .dat = some f ∧ D <+: f.cur)
    (hPK : ∀ fs kf o bs, P fs → fs .key = some kf → P (fs.set .key (some (kf.push (.write o bs)))))
    (hD : D = putDatHeader cf.dh ++ encRecs recs) (hok : ∀ r ∈ recs, r.Ok cf)
    {chunk nwork N : Nat} (hch : 1 ≤ chunk) {Q : Writer → World → Prop} :
    ∀ (fuel b0 : Nat) (wr : Writer) (w : World) (rs : List Rec) (kf : FileSt), B - b0 < fuel →
    WInv wr .dat w.fs (D ++ encRecs rs) → P w.fs → Spills cf rs → (rs ≠ [] → (D ++ encRecs rs).length ≤ 2 ^ 48 + 2 ^ 17) →
    w.fs .key = some kf → Built c cf (D ++ encRecs rs) kf.cur B b0 (entriesOf c cf 92 recs) →
    (lim → (D ++ encRecs rs).length + ((entriesOf c cf 92 recs).filter (inRange B b0 B)).length * cf.recLen + 8 < 2 ^ 48) →
    (encRecs rs).length + ((entriesOf c cf 92 recs).filter (inRange B b0 B)).length * cf.recLen ≤ N →
    (∀ wr' w' rs' kf', WInv wr' .dat w'.fs (D ++ encRecs rs') → P w'.fs → Spills cf rs' →
      (rs' ≠ [] → (D ++ encRecs rs').length ≤ 2 ^ 48 + 2 ^ 17) → w'.fs .key = some kf' → w'.fs .log = w.fs .log →
      Built c cf (D ++ encRecs rs') kf'.cur B B (entriesOf c cf 92 recs) → (encRecs rs').length ≤ N → Q wr' w') →
    wp σ (rekeyChunks c (cf.rk c.H B) D.length chunk nwork fuel b0 wr) Q (XP σ P lim nb) w := by
  intro fuel
  induction fuel with
  | zero =>
    intro b0 wr w rs kf hfuel hw hP hsp hsm hk hb hlim hN hQ
    omega
  | succ fuel ih =>
    intro b0 wr w rs kf hfuel hw hP hsp hsm hk hb hlim hN hQ
    unfold rekeyChunks
    show wp σ (if b0 < B then _ else _) _ _ _
    by_cases hlt : b0 < B
    · rw [if_pos hlt]
      apply wp_bind
      apply wp_lift_ok (emptyBuckets_ok _ _)
      apply wp_bind
      show wp σ (rekeyScan c (cf.rk c.H B) b0 (min (b0 + chunk) B) _ _ _ _ _ _) _ _ _
      generalize hb1 : min (b0 + chunk) B = b1
      have hD92 : 92 ≤ D.length := by rw [hD]; simp
      have hrl := recs_le recs
      apply wp_rekeyScan hcf hB1 hB hA hPD hD hok recs [] _ _ wr _ w (D ++ encRecs rs) [] (by simp)
        (by have : D.length = 92 + (encRecs recs).length := by rw [hD]; simp
            omega)
        (Whole.grow ⟨recs, hok, hD⟩ hsp) (by rw [← hb1]; exact filled_empty hcf _ B b0 (min (b0 + chunk) B - b0)) hw ⟨_, rfl⟩ hP
        (rinv_new c .dat (by omega) hD92) rfl rfl (by simp [Reader.new, Reader.pos])
      · intro hl
        have := hlim hl
        rw [range_split B b0 b1 (by omega) (by omega), Nat.add_mul] at this
        have e : (Reader.new c .dat 92 D.length (1024 * 4096)).pos = 92 := rfl
        rw [e]; omega
      · intro buf1 wr1 w1 rs1 g1 g2
        have e : (Reader.new c .dat 92 D.length (1024 * 4096)).pos = 92 := rfl
        rw [e, List.append_nil] at g1
        rw [e] at g2
        have assoc : D ++ encRecs rs ++ encRecs rs1 = D ++ encRecs (rs ++ rs1) := by
          rw [encRecs_append, List.append_assoc]
        have hk1 : w1.fs .key = some kf := by rw [g2.same .key (by decide)]; exact hk
        obtain ⟨c1, c2⟩ := (hb.mono ⟨encRecs rs1, rfl⟩).chunk hcf g1 (by omega) (by omega)
        simp only
        apply wp_bind
        apply wp_fWrite hk1
        · apply ih (b0 + chunk) wr1 _ (rs ++ rs1) (kf.push (.write ((b0 + 1) * cf.blockSize) buf1.flatten)) (by omega)
          · rw [← assoc]
            obtain ⟨f, h1, h2, h3⟩ := g2.winv.file
            exact ⟨g2.winv.path, ⟨f, by simpa using h1, h2, h3⟩, g2.winv.cap, g2.winv.small⟩
          · exact hPK _ _ _ _ g2.inv hk1
          · exact hsp.append g2.spills
          · intro hne
            by_cases he : rs1 = []
            · subst he
              have := hsm (by simpa using hne)
              simpa using this
            · rw [← assoc]; exact g2.small he
          · simp [Conf.rk, Conf.kh]
          · rw [cur_push, ← assoc]
            refine ⟨c1.len, c1.head, ?_⟩
            intro n h1 h2
            exact c1.done n (by omega) h2
          · intro hl
            have h1 := hlim hl
            have h2 := g2.len
            rw [range_split B b0 b1 (by omega) (by omega), Nat.add_mul] at h1
            rw [← assoc, List.length_append]
            have h3 : ((entriesOf c cf 92 recs).filter (inRange B (b0 + chunk) B)).length * cf.recLen ≤
                ((entriesOf c cf 92 recs).filter (inRange B b1 B)).length * cf.recLen := by
              apply Nat.mul_le_mul_right
              by_cases hle : b0 + chunk ≤ B
              · rw [show b1 = b0 + chunk by omega]; exact Nat.le_refl _
              · rw [List.filter_eq_nil_iff.mpr (by intro e _; simp [inRange]; omega)]
                simp
            omega
          · have h2 := g2.len
            rw [range_split B b0 b1 (by omega) (by omega), Nat.add_mul] at hN
            rw [encRecs_append, List.length_append]
            have h3 : ((entriesOf c cf 92 recs).filter (inRange B (b0 + chunk) B)).length * cf.recLen ≤
                ((entriesOf c cf 92 recs).filter (inRange B b1 B)).length * cf.recLen := by
              apply Nat.mul_le_mul_right
              by_cases hle : b0 + chunk ≤ B
              · rw [show b1 = b0 + chunk by omega]; exact Nat.le_refl _
              · rw [List.filter_eq_nil_iff.mpr (by intro e _; simp [inRange]; omega)]
                simp
            omega
          · intro wr' w' rs' kf' q1 q2 q3 q4 q5 q6 q7 q8
            refine hQ wr' w' rs' kf' q1 q2 q3 q4 q5 ?_ q7 q8
            rw [q6]
            show w1.fs .log = w.fs .log
            exact g2.same .log (by decide)
        · intro x k hx hfa
          exact ⟨hPK _ _ _ _ g2.inv hk1, .inl ⟨hx, hfa⟩⟩
    · rw [if_neg hlt]
      apply wp_ret
      refine hQ wr w rs kf hw hP hsp hsm hk rfl ⟨hb.len, hb.head, ?_⟩ (by omega)
      intro n _ h
      exact hb.done n (by omega) h

end

end NuDB
