import Verif.Proof.Db
/- Lookups in a bucket and its chain of overflow records. -/
namespace NuDB

/-- Only clock changes. -/
structure Quiet (w w' : World) : Prop where
  fs : w'.fs = w.fs
  out : w'.out = w.out

theorem Quiet.refl (w : World) : Quiet w w := ⟨rfl, rfl⟩
theorem Quiet.trans {a b c : World} (h : Quiet a b) (h' : Quiet b c) : Quiet a c :=
  ⟨h'.fs.trans h.fs, h'.out.trans h.out⟩
theorem Quiet.tick (w : World) : Quiet w (w.tick w.fs) := ⟨rfl, rfl⟩

theorem ofMem_any {bs : Nat} {p : Bytes} (h : 8 ≤ p.length) :
    ∃ b, Bkt.ofMem bs p = .ok b ∧ b.bs = bs ∧ b.p = p := by
  refine ⟨{ bs := bs, size := getU16 (slice p 0 2), spill := getU48 (slice p 2 6), p := p }, ?_, rfl, rfl⟩
  unfold Bkt.ofMem
  rw [peek_ok (by omega), peek_ok (by omega)]; rfl

section
variable {σ : Schedule} {w : World} {X : Exc → World → Prop}

theorem wp_readFile {b : Bkt} {p : Path} {off : Nat} {f : FileSt} {es : List Entry} {s : Nat}
    {t : Bytes} {Q : Bkt → World → Prop}
    (hf : w.fs p = some f) (hl : off + bucketSize (bucketCapacity b.bs) ≤ f.cur.length)
    (hb : slice f.cur off (bucketSize (bucketCapacity b.bs)) = encBkt es s ++ t)
    (hbp : b.p.length = b.bs) (hbs : bucketSize (bucketCapacity b.bs) ≤ b.bs) (hb16 : b.bs < 2 ^ 16)
    (hfit : ∀ e ∈ es, e.Fit) (hs : s < 2 ^ 48) (hlen : es.length ≤ bucketCapacity b.bs)
    (hQ : ∀ b', Rep b' es s → b'.bs = b.bs → Q b' (w.tick w.fs))
    (hX : ∀ x, IsFault x → Faulty σ → X x (w.tick w.fs)) :
    wp σ (b.readFile p off) Q X w := by
  unfold Bkt.readFile
  apply wp_bind
  apply wp_fRead hf hl _ hX
  have hsl := slice_length_of_le hl
  apply wp_bind
  apply wp_lift_ok (poke_ok (by rw [hsl]; omega))
  have hput : put b.p 0 (slice f.cur off (bucketSize (bucketCapacity b.bs))) =
      encBkt es s ++ (t ++ b.p.drop (bucketSize (bucketCapacity b.bs))) := by
    simp only [put, hsl, Nat.zero_add, List.take_zero, List.nil_append]
    rw [hb]; simp
  rw [hput]
  have hlen2 : (encBkt es s ++ (t ++ b.p.drop (bucketSize (bucketCapacity b.bs)))).length = b.bs := by
    rw [← hput, put_length (by rw [hsl]; omega), hbp]
  obtain ⟨b', h1, h2, h3, h4⟩ := ofMem_enc hlen2 hb16 hfit hs
  apply wp_bind
  apply wp_lift_ok h1
  rw [if_neg (by rw [h2.size]; omega)]
  exact wp_ret (hQ b' h2 h3)

/-- What a scan over entries finds out. -/
structure ScanPost (D : Bytes) (ks h : Nat) (key : Bytes) (es : List Entry) (r : Option Bytes) :
    Prop where
  found : ∀ v, r = some v →
    ∃ e ∈ es, e.hash = h ∧ slice D (e.offset + 6) (ks + e.size) = key ++ v
  missing : r = none → ∀ e ∈ es, e.hash = h → slice D (e.offset + 6) ks ≠ key

/-- All entries lie inside the data file. -/
def InRange (D : Bytes) (ks : Nat) (es : List Entry) : Prop :=
  ∀ e ∈ es, e.offset + 6 + ks + e.size ≤ D.length

theorem wp_fetchScan {b : Bkt} {es : List Entry} {s ks h : Nat} {key : Bytes} {f : FileSt}
    {Q : Option Bytes → World → Prop} (hb : Rep b es s) (hs : Sorted es)
    (hf : w.fs .dat = some f) (hr : InRange f.cur ks es) (hk : key.length = ks) :
    ∀ (fuel i : Nat), es.length < fuel + i → i ≤ es.length →
    (∀ j (hj : j < es.length), j < i → es[j].hash = h → slice f.cur (es[j].offset + 6) ks ≠ key) →
    (∀ j (hj : j < es.length), i ≤ j → h ≤ es[j].hash) →
    (∀ r w', Quiet w w' → ScanPost f.cur ks h key es r → Q r w') →
    (∀ x w', IsFault x → Faulty σ → Quiet w w' → X x w') →
    wp σ (fetchScan ks h key b fuel i) Q X w := by
  intro fuel
  induction fuel generalizing w with
  | zero => intro i h1 h2; omega
  | succ fuel ih =>
    intro i h1 h2 hlo hhi hQ hX
    unfold fetchScan
    rw [hb.size]
    by_cases hi : i < es.length
    · rw [if_pos hi]
      apply wp_bind
      apply wp_lift_ok (hb.get hi)
      by_cases hh : es[i].hash ≠ h
      · rw [if_pos hh]
        apply wp_ret
        refine hQ _ _ (Quiet.refl w) ⟨by simp, ?_⟩
        intro _ e he heq
        obtain ⟨j, hj, rfl⟩ := List.mem_iff_getElem.mp he
        by_cases hji : j < i
        · exact hlo j hj hji heq
        · have h3 := hhi i hi (Nat.le_refl _)
          have h4 := sorted_get hs (show i ≤ j by omega) hj
          omega
      · rw [if_neg hh]
        simp only [ne_eq, Decidable.not_not] at hh
        have hrange := hr es[i] (List.getElem_mem hi)
        apply wp_bind
        apply wp_fRead hf (by omega)
        · have hsplit : slice f.cur (es[i].offset + 6) (ks + es[i].size) =
              slice f.cur (es[i].offset + 6) ks ++ slice f.cur (es[i].offset + 6 + ks) es[i].size :=
            slice_split _ _ _ _
          have hlk : (slice f.cur (es[i].offset + 6) ks).length = ks := slice_length_of_le (by omega)
          have htake : (slice f.cur (es[i].offset + 6) (ks + es[i].size)).take ks =
              slice f.cur (es[i].offset + 6) ks := by
            rw [hsplit, List.take_append_of_le_length (by omega), List.take_of_length_le (by omega)]
          rw [htake]
          by_cases hm : slice f.cur (es[i].offset + 6) ks = key
          · rw [if_pos hm]
            apply wp_ret
            refine hQ _ _ (Quiet.tick w) ⟨?_, by simp⟩
            intro v hv
            refine ⟨es[i], List.getElem_mem hi, hh, ?_⟩
            simp only [Option.some.injEq] at hv
            rw [← hv, ← hm, ← htake, List.take_append_drop]
          · rw [if_neg hm]
            apply ih (w := w.tick w.fs) hf (i + 1) (by omega) (by omega)
            · intro j hj hji heq
              by_cases e : j = i
              · subst e; exact hm
              · exact hlo j hj (by omega) heq
            · intro j hj hji; exact hhi j hj (by omega)
            · intro r w' hq hp; exact hQ r w' ((Quiet.tick w).trans hq) hp
            · intro x w' hx hfa hq; exact hX x w' hx hfa ((Quiet.tick w).trans hq)
        · intro x hx hfa; exact hX x _ hx hfa (Quiet.tick w)
    · rw [if_neg hi]
      apply wp_ret
      refine hQ _ _ (Quiet.refl w) ⟨by simp, ?_⟩
      intro _ e he heq
      obtain ⟨j, hj, rfl⟩ := List.mem_iff_getElem.mp he
      exact hlo j hj (by omega) heq

theorem wp_existsScan {b : Bkt} {es : List Entry} {s ks h : Nat} {key : Bytes} {f : FileSt}
    {Q : Bool → World → Prop} (hb : Rep b es s) (hs : Sorted es)
    (hf : w.fs .dat = some f) (hr : InRange f.cur ks es) (hk : key.length = ks) :
    ∀ (fuel i : Nat), es.length < fuel + i → i ≤ es.length →
    (∀ j (hj : j < es.length), j < i → es[j].hash = h → slice f.cur (es[j].offset + 6) ks ≠ key) →
    (∀ j (hj : j < es.length), i ≤ j → h ≤ es[j].hash) →
    (∀ r w', Quiet w w' →
      (r = true ↔ ∃ e ∈ es, e.hash = h ∧ slice f.cur (e.offset + 6) ks = key) → Q r w') →
    (∀ x w', IsFault x → Faulty σ → Quiet w w' → X x w') →
    wp σ (existsScan ks h key b fuel i) Q X w := by
  intro fuel
  induction fuel generalizing w with
  | zero => intro i h1 h2; omega
  | succ fuel ih =>
    intro i h1 h2 hlo hhi hQ hX
    unfold existsScan
    rw [hb.size]
    by_cases hi : i < es.length
    · rw [if_pos hi]
      apply wp_bind
      apply wp_lift_ok (hb.get hi)
      by_cases hh : es[i].hash ≠ h
      · rw [if_pos hh]
        apply wp_ret
        refine hQ _ _ (Quiet.refl w) ⟨by simp, ?_⟩
        rintro ⟨e, he, heq, hkk⟩
        obtain ⟨j, hj, rfl⟩ := List.mem_iff_getElem.mp he
        by_cases hji : j < i
        · exact absurd hkk (hlo j hj hji heq)
        · have h3 := hhi i hi (Nat.le_refl _)
          have h4 := sorted_get hs (show i ≤ j by omega) hj
          omega
      · rw [if_neg hh]
        simp only [ne_eq, Decidable.not_not] at hh
        have hrange := hr es[i] (List.getElem_mem hi)
        apply wp_bind
        apply wp_fRead hf (by omega)
        · by_cases hm : slice f.cur (es[i].offset + 6) ks = key
          · rw [if_pos hm]
            apply wp_ret
            exact hQ _ _ (Quiet.tick w) ⟨fun _ => ⟨es[i], List.getElem_mem hi, hh, hm⟩, fun _ => rfl⟩
          · rw [if_neg hm]
            apply ih (w := w.tick w.fs) hf (i + 1) (by omega) (by omega)
            · intro j hj hji heq
              by_cases e : j = i
              · subst e; exact hm
              · exact hlo j hj (by omega) heq
            · intro j hj hji; exact hhi j hj (by omega)
            · intro r w' hq hp; exact hQ r w' ((Quiet.tick w).trans hq) hp
            · intro x w' hx hfa hq; exact hX x w' hx hfa ((Quiet.tick w).trans hq)
        · intro x hx hfa; exact hX x _ hx hfa (Quiet.tick w)
    · rw [if_neg hi]
      apply wp_ret
      refine hQ _ _ (Quiet.refl w) ⟨by simp, ?_⟩
      rintro ⟨e, he, heq, hkk⟩
      obtain ⟨j, hj, rfl⟩ := List.mem_iff_getElem.mp he
      exact absurd hkk (hlo j hj (by omega) heq)

/-- Lookup along a chain. `E` are all entries from here on. -/
theorem wp_fetchBucket {c : Cfg} {cf : Conf} {kh : KeyHeader} {h : Nat} {key : Bytes} {f : FileSt}
    {Q : Bytes → World → Prop} (hcf : cf.Ok) (hkb : kh.blockSize = cf.blockSize)
    (hks : kh.keySize = cf.keySize) (hk : key.length = cf.keySize) (hf : w.fs .dat = some f) :
    ∀ (fuel : Nat) (b : Bkt) (es L : List Entry) (s : Nat), s < fuel → Rep b es s → Sorted es →
    b.bs = cf.blockSize → Chain f.cur cf.cap s L → InRange f.cur cf.keySize (es ++ L) →
    (∀ v w', Quiet w w' → ScanPost f.cur cf.keySize h key (es ++ L) (some v) → Q v w') →
    (∀ w', Quiet w w' → ScanPost f.cur cf.keySize h key (es ++ L) none → X (.err .key_not_found) w') →
    (∀ x w', IsFault x → Faulty σ → Quiet w w' → X x w') →
    wp σ (fetchBucket c kh h key fuel b) Q X w := by
  intro fuel
  induction fuel generalizing w with
  | zero => intro b es L s h; omega
  | succ fuel ih =>
    intro b es L s hsf hb hsort hbs hch hr hQ hN hX
    unfold fetchBucket
    obtain ⟨i, hi, lb⟩ := hb.lowerBound hsort h
    apply wp_bind
    apply wp_lift_ok hi
    rw [hb.size, hks]
    apply wp_bind
    apply wp_fetchScan hb hsort hf (fun e he => hr e (by simp [he])) hk
    · omega
    · exact lb.le
    · intro j hj hji heq; have := lb.lo j hj hji; omega
    · exact lb.hi
    · intro r w1 hq hp
      cases r with
      | some v =>
        apply wp_ret
        refine hQ v w1 hq ⟨?_, by simp⟩
        intro v' hv'
        obtain ⟨e, he, hh⟩ := hp.found v' hv'
        exact ⟨e, by simp [he], hh⟩
      | none =>
        simp only [hb.spill]
        by_cases hs0 : s = 0
        · rw [if_pos hs0]
          subst hs0
          have hL := hch.zero
          subst hL
          exact wp_fail (hN w1 hq (by simpa using hp))
        · rw [if_neg hs0]
          cases hch with
          | nil => exact absurd rfl hs0
          | @link _ s' es' L' h0 h48 hrr hbb hl hs hfit hd hlk ht =>
            rw [hkb]
            have h104 := hcf.bs1
            obtain ⟨nb, h1, h2, h3⟩ := ofMem_any (bs := cf.blockSize) (p := c.fresh cf.blockSize)
              (by simp; omega)
            apply wp_bind
            apply wp_lift_ok h1
            apply wp_bind
            have hcap : bucketCapacity nb.bs = cf.cap := by rw [h2]; rfl
            have hf1 : w1.fs .dat = some f := by rw [hq.fs]; exact hf
            apply wp_readFile (es := es') (s := s') (t := []) hf1
            · rw [hcap]; exact hrr
            · rw [hcap, hbb]; simp
            · rw [h3, h2]; simp
            · rw [hcap, h2]; exact hcf.cap_le
            · rw [h2]; exact hcf.bs2
            · exact hfit
            · omega
            · rw [hcap]; omega
            · intro nb' hnb hnbs
              have hq2 : Quiet w (w1.tick w1.fs) := hq.trans (Quiet.tick w1)
              apply ih (w := w1.tick w1.fs) hf1 nb' es' L' s' (by omega) hnb hs
                (by rw [hnbs, h2]) ht (fun e he => hr e (by
                  rcases List.mem_append.mp he with he | he <;> simp [he]))
              · intro v w' hq' hp'
                refine hQ v w' (hq2.trans hq') ⟨?_, by simp⟩
                intro v' hv'
                obtain ⟨e, he, hh⟩ := hp'.found v' hv'
                exact ⟨e, List.mem_append_right _ he, hh⟩
              · intro w' hq' hp'
                refine hN w' (hq2.trans hq') ⟨by simp, ?_⟩
                intro _ e he heq
                rcases List.mem_append.mp he with he | he
                · exact hp.missing rfl e he heq
                · exact hp'.missing rfl e he heq
              · intro x w' hx hfa hq'; exact hX x w' hx hfa (hq2.trans hq')
            · intro x hx hfa; exact hX x _ hx hfa (hq.trans (Quiet.tick w1))
    · exact hX

theorem wp_existsBucket {c : Cfg} {cf : Conf} {kh : KeyHeader} {h : Nat} {key : Bytes} {f : FileSt}
    {Q : Bool → World → Prop} (hcf : cf.Ok) (hkb : kh.blockSize = cf.blockSize)
    (hks : kh.keySize = cf.keySize) (hk : key.length = cf.keySize) (hf : w.fs .dat = some f) :
    ∀ (fuel : Nat) (b : Bkt) (es L : List Entry) (s : Nat), s < fuel → Rep b es s → Sorted es →
    b.bs = cf.blockSize → Chain f.cur cf.cap s L → InRange f.cur cf.keySize (es ++ L) →
    (∀ r w', Quiet w w' →
      (r = true ↔ ∃ e ∈ es ++ L, e.hash = h ∧ slice f.cur (e.offset + 6) cf.keySize = key) → Q r w') →
    (∀ x w', IsFault x → Faulty σ → Quiet w w' → X x w') →
    wp σ (existsBucket c kh h key fuel b) Q X w := by
  intro fuel
  induction fuel generalizing w with
  | zero => intro b es L s h; omega
  | succ fuel ih =>
    intro b es L s hsf hb hsort hbs hch hr hQ hX
    unfold existsBucket
    obtain ⟨i, hi, lb⟩ := hb.lowerBound hsort h
    apply wp_bind
    apply wp_lift_ok hi
    rw [hb.size, hks]
    apply wp_bind
    apply wp_existsScan hb hsort hf (fun e he => hr e (by simp [he])) hk
    · omega
    · exact lb.le
    · intro j hj hji heq; have := lb.lo j hj hji; omega
    · exact lb.hi
    · intro r w1 hq hp
      cases r with
      | true =>
        apply wp_ret
        obtain ⟨e, he, hh⟩ := hp.mp rfl
        exact hQ true w1 hq ⟨fun _ => ⟨e, by simp [he], hh⟩, fun _ => rfl⟩
      | false =>
        simp only [hb.spill, Bool.false_eq_true, if_false]
        by_cases hs0 : s = 0
        · rw [if_pos hs0]
          subst hs0
          have hL := hch.zero
          subst hL
          exact wp_ret (hQ false w1 hq (by simpa using hp))
        · rw [if_neg hs0]
          cases hch with
          | nil => exact absurd rfl hs0
          | @link _ s' es' L' h0 h48 hrr hbb hl hs hfit hd hlk ht =>
            rw [hkb]
            have h104 := hcf.bs1
            obtain ⟨nb, h1, h2, h3⟩ := ofMem_any (bs := cf.blockSize) (p := c.fresh cf.blockSize)
              (by simp; omega)
            apply wp_bind
            apply wp_lift_ok h1
            apply wp_bind
            have hcap : bucketCapacity nb.bs = cf.cap := by rw [h2]; rfl
            have hf1 : w1.fs .dat = some f := by rw [hq.fs]; exact hf
            apply wp_readFile (es := es') (s := s') (t := []) hf1
            · rw [hcap]; exact hrr
            · rw [hcap, hbb]; simp
            · rw [h3, h2]; simp
            · rw [hcap, h2]; exact hcf.cap_le
            · rw [h2]; exact hcf.bs2
            · exact hfit
            · omega
            · rw [hcap]; omega
            · intro nb' hnb hnbs
              have hq2 : Quiet w (w1.tick w1.fs) := hq.trans (Quiet.tick w1)
              apply ih (w := w1.tick w1.fs) hf1 nb' es' L' s' (by omega) hnb hs
                (by rw [hnbs, h2]) ht (fun e he => hr e (by
                  rcases List.mem_append.mp he with he | he <;> simp [he]))
              · intro r w' hq' hp'
                refine hQ r w' (hq2.trans hq') ?_
                rw [hp']
                constructor
                · rintro ⟨e, he, hh⟩
                  exact ⟨e, List.mem_append_right _ he, hh⟩
                · rintro ⟨e, he, hh⟩
                  rcases List.mem_append.mp he with he | he
                  · have := hp.mpr ⟨e, he, hh⟩; cases this
                  · exact ⟨e, he, hh⟩
              · intro x w' hx hfa hq'; exact hX x w' hx hfa (hq2.trans hq')
            · intro x hx hfa; exact hX x _ hx hfa (hq.trans (Quiet.tick w1))
    · exact hX

end

end NuDB
