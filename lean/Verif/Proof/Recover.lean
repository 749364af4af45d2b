import Verif.Proof.Commit
import Verif.Model.Recover
import Verif.Props.Codec
/- `recover` restores the files that the log describes. -/
namespace NuDB

open Spec

section agree

theorem prefix_drop_getElem? {b K : Bytes} {o i : Nat} (h : b <+: K.drop o) (h1 : o ≤ i)
    (h2 : i < o + b.length) : b[i - o]? = K[i]? := by
  rw [← (prefix_iff_getElem?.mp h).2 (i - o) (by omega), List.getElem?_drop]
  congr 1; omega

theorem Agree.own {bs : Nat} {K v b : Bytes} {ns : List Nat} {o : Nat} (h : Agree bs K ns v)
    (hb : b <+: K.drop o) : Agree bs K ns (writeAt v o b) := by
  refine ⟨Nat.le_trans h.le (writeAt_le_length _ _ _), ?_⟩
  intro i hi
  have hv := h.le
  by_cases hin : o ≤ i ∧ i < o + b.length
  · left
    rw [writeAt_getElem?_in hin.1 hin.2]
    exact prefix_drop_getElem? hb hin.1 hin.2
  · rw [writeAt_getElem? (by omega) (by omega)]
    exact h.same i hi

theorem Agree.restore {bs : Nat} {K v b : Bytes} {ns : List Nat} {n : Nat} (h : Agree bs K (n :: ns) v)
    (hb : b <+: K.drop ((n + 1) * bs)) (hl : b.length = bs) :
    Agree bs K ns (writeAt v ((n + 1) * bs) b) := by
  refine ⟨Nat.le_trans h.le (writeAt_le_length _ _ _), ?_⟩
  intro i hi
  have hv := h.le
  by_cases hin : (n + 1) * bs ≤ i ∧ i < (n + 1) * bs + b.length
  · left
    rw [writeAt_getElem?_in hin.1 hin.2]
    exact prefix_drop_getElem? hb hin.1 hin.2
  · rw [writeAt_getElem? (by omega) (by omega)]
    rcases h.same i hi with h | ⟨m, hm, h1, h2⟩
    · exact .inl h
    · rcases List.mem_cons.mp hm with rfl | hm
      · rw [mul_succ_add] at h2; omega
      · exact .inr ⟨m, hm, h1, h2⟩

theorem agree_nil {bs : Nat} {K v : Bytes} (h : Agree bs K [] v) : K <+: v := by
  rw [prefix_iff_getElem?]
  refine ⟨h.le, fun i hi => ?_⟩
  rcases h.same i hi with h | ⟨n, hn, _⟩
  · exact h
  · cases hn

theorem writeAt_own {K b : Bytes} {o : Nat} (hb : b <+: K.drop o) : writeAt K o b = K := by
  by_cases hn : b = []
  · subst hn; simp
  · have hl := hb.length_le
    have : 0 < b.length := List.length_pos_iff.mpr hn
    rw [List.length_drop] at hl
    rw [writeAt_inside (by omega)]
    obtain ⟨t, ht⟩ := hb
    unfold put
    have h2 : K.drop (o + b.length) = t := by
      rw [← List.drop_drop, ← ht]; simp
    rw [h2, List.append_assoc, ht, List.take_append_drop]

theorem agree_head {bs : Nat} {K v : Bytes} {ns : List Nat} (h : Agree bs K ns v) (hb : 104 ≤ bs)
    (hK : 104 ≤ K.length) : v.take 104 = K.take 104 := by
  apply List.ext_getElem?
  intro i
  rw [List.getElem?_take, List.getElem?_take]
  split
  · rename_i hi
    rcases h.same i (by omega) with h | ⟨n, _, h1, _⟩
    · exact h
    · have : bs ≤ (n + 1) * bs := Nat.le_mul_of_pos_left _ (by omega)
      omega
  · rfl

end agree

section headers
variable {c : Cfg} {cf : Conf}

theorem take_eq_slice' (b : Bytes) (n : Nat) : slice b 0 n = b.take n := by simp [slice]

theorem get_dh {D recs v} (h : DatFile cf D recs) (hc : cf.Ok) (hp : D <+: v) :
    getDatHeader (slice v 0 92) = cf.dh := by
  have h1 : slice v 0 92 = putDatHeader cf.dh := by
    rw [slice_eq_of_prefix hp (by rw [h.eq]; simp), h.eq, take_eq_slice',
      List.take_append_of_le_length (by simp), List.take_of_length_le (by simp)]
  rw [h1]
  exact (C17_dat cf.dh rfl (by show 2 < 2 ^ 16; decide) hc.uid hc.appnum hc.key2).2

theorem get_kh {v : Bytes} {B : Nat} (hc : cf.Ok) (h : v.take 104 = putKeyHeader (cf.kh c.H B)) (n : Nat) :
    getKeyHeader (slice v 0 104) n = cf.kh c.H (n / cf.blockSize - 1) := by
  rw [take_eq_slice', h, (C17_key (cf.kh c.H B) n rfl (by show 2 < 2 ^ 16; decide) hc.uid hc.appnum hc.key2 hc.salt
    (pepper_lt _ _) hc.bs2 hc.lf2).2]
  rfl

theorem get_lh {l rest : Bytes} {kl dl : Nat} (hc : cf.Ok) (hl : l = putLogHeader (cf.lh c.H kl dl) ++ rest)
    (hk : kl < 2 ^ 64) (hd : dl < 2 ^ 64) : getLogHeader (slice l 0 62) = cf.lh c.H kl dl := by
  rw [take_eq_slice', hl, List.take_append_of_le_length (by simp), List.take_of_length_le (by simp)]
  exact (C17_log (cf.lh c.H kl dl) rfl (by show 2 < 2 ^ 16; decide) hc.uid hc.appnum hc.key2 hc.salt
    (pepper_lt _ _) hc.bs2 hk hd).2

theorem verifyDat_ok (hc : cf.Ok) : verifyDat cf.dh = .ok () := by
  have := hc.key1
  simp [verifyDat, Conf.dh]; omega

theorem verifyKey_ok (hc : cf.Ok) {B : Nat} (hB : 1 ≤ B) : verifyKey c.H (cf.kh c.H B) = .ok () := by
  have h1 := hc.key1
  have h2 := hc.lf1
  have h3 := hc.cap_pos
  unfold verifyKey
  rw [if_neg (by simp [Conf.kh]), if_neg (by simp [Conf.kh]), if_neg (by simp only [Conf.kh]; omega),
    if_neg (by simp [Conf.kh]), if_neg (by simp only [Conf.kh]; omega),
    if_neg (by simp only [Conf.kh]; omega), if_neg (by simp only [Conf.kh]; omega)]

theorem verifyDatKey_ok (hc : cf.Ok) {B : Nat} (hB : 1 ≤ B) :
    verifyDatKey c.H cf.dh (cf.kh c.H B) = .ok () := by
  unfold verifyDatKey
  rw [verifyKey_ok hc hB]
  simp [Conf.kh, Conf.dh, bind, Except.bind]

theorem verifyLog_ok (hc : cf.Ok) {kl dl : Nat} : verifyLog c.H (cf.lh c.H kl dl) = .ok () := by
  have h1 := hc.key1
  unfold verifyLog
  rw [if_neg (by simp [Conf.lh]), if_neg (by simp [Conf.lh]), if_neg (by simp [Conf.lh]),
    if_neg (by simp only [Conf.lh]; omega)]

theorem verifyKeyLog_ok (hc : cf.Ok) {B kl dl : Nat} :
    verifyKeyLog c.H (cf.kh c.H B) (cf.lh c.H kl dl) = .ok () := by
  unfold verifyKeyLog
  rw [verifyLog_ok hc]
  simp [Conf.kh, Conf.lh, bind, Except.bind]

theorem Db.klen {D K recs B view} (h : Db c cf D K recs B view) :
    104 < K.length ∧ K.length < 2 ^ 64 ∧ K.length / cf.blockSize - 1 = B := by
  have h1 := h.conf.bs1
  have h2 := h.conf.bs2
  have h3 := h.b1
  have h4 := h.b2
  have h5 := h.key.len
  refine ⟨?_, ?_, ?_⟩
  · have : 2 * cf.blockSize ≤ (B + 1) * cf.blockSize := Nat.mul_le_mul_right _ (by omega)
    omega
  · have : (B + 1) * cf.blockSize ≤ (2 ^ 32 + 1) * 2 ^ 16 := Nat.mul_le_mul (by omega) (by omega)
    omega
  · rw [h5, Nat.mul_div_cancel _ (by omega)]; omega

theorem Db.buckets_le {D K recs B view} (h : Db c cf D K recs B view) {n : Nat} (hn : K.length ≤ n) :
    B ≤ n / cf.blockSize - 1 := by
  have := Nat.div_le_div_right (c := cf.blockSize) hn
  have := h.klen.2.2
  omega

/-- The block of a bucket in the key file. -/
theorem Db.block {D K recs B view} (h : Db c cf D K recs B view) {n : Nat} (hn : n < B) :
    encBlock cf.blockSize (view n).1 (view n).2 <+: K.drop ((n + 1) * cf.blockSize) ∧
    (encBlock cf.blockSize (view n).1 (view n).2).length = cf.blockSize := by
  have h1 := h.key.blocks n hn
  constructor
  · rw [← h1]; exact List.take_prefix _ _
  · rw [← h1]
    apply slice_length_of_le
    rw [h.key.len, ← mul_succ_add]
    exact Nat.mul_le_mul_right _ (by omega)

end headers

section
variable {c : Cfg} {cf : Conf} {σ : Schedule} {lim nb : Prop}

/-- Files while the log is replayed. -/
structure RepP (c : Cfg) (cf : Conf) (L : Nat) (D K : Bytes) (df lf : FileSt) (fs : Fs) : Prop where
  dat : fs .dat = some df
  log : fs .log = some lf
  key : ∃ kf, fs .key = some kf ∧
    (∀ l, Ordered lf l → 62 ≤ l.length → Roll c cf L D K l df kf) ∧
    (∀ l, Ordered lf l → l.length < 62 → Stable df D ∧ Stable kf K)

theorem RepP.safe {L : Nat} {G : Bytes → Bytes → Prop} {D K : Bytes} {df lf : FileSt} {fs : Fs}
    (h : RepP c cf L D K df lf fs) (hlen : 62 ≤ lf.cur.length) (hG : G D K) : Safe c cf L G fs := by
  obtain ⟨kf, h1, h2, h3⟩ := h.key
  exact .long df kf lf D K h.dat h1 h.log hlen hG h2 h3

/-- Writing bytes of the old key file back. -/
theorem RepP.own {L : Nat} {D K : Bytes} {df lf kf : FileSt} {fs : Fs} {o : Nat} {b : Bytes}
    (h : RepP c cf L D K df lf fs) (hk : fs .key = some kf) (hb : b <+: K.drop o) :
    RepP c cf L D K df lf (fs.set .key (some (kf.push (.write o b)))) := by
  obtain ⟨kf', e, h1, h2⟩ := h.key
  rw [hk] at e; cases e
  refine ⟨by simpa using h.dat, by simpa using h.log, _, Fs.set_same _ _ _, ?_, ?_⟩
  · intro l hl h62
    obtain ⟨recs, B, view, ns, rest, a1, a2, a3, a4, a5, a6, a7⟩ := h1 l hl h62
    refine ⟨recs, B, view, ns, rest, a1, a2, a3, a4, a5, a6, ?_⟩
    intro v hv
    rcases version_push.mp hv with hv | rfl
    · exact a7 v hv
    · exact (a7 _ (version_cur kf)).own hb
  · intro l hl h62
    obtain ⟨s1, s2⟩ := h2 l hl h62
    exact ⟨s1, s2.push (by simp only [POp.apply]; exact writeAt_own hb)⟩

theorem wp_prepare_nofail {r : Reader} {n : Nat} {w : World} (hσ : ∀ i k, σ i ≠ .fail k) :
    wp σ (r.prepare c n) (fun _ _ => True) (fun x _ => x ≠ .err .io) w := by
  have hpeek : ∀ (p : Bytes) (o l : Nat) (Q : Bytes → World → Prop) (w : World), (∀ b, Q b w) →
      wp σ (M.lift (peek p o l)) Q (fun x _ => x ≠ .err .io) w := by
    intro p o l Q w hQ
    unfold peek
    split
    · exact hQ _
    · exact Exc.noConfusion
  have hpoke : ∀ (p : Bytes) (o : Nat) (b : Bytes) (Q : Bytes → World → Prop) (w : World), (∀ b, Q b w) →
      wp σ (M.lift (poke p o b)) Q (fun x _ => x ≠ .err .io) w := by
    intro p o l Q w hQ
    unfold poke
    split
    · exact hQ _
    · exact Exc.noConfusion
  have hread : ∀ (p : Path) (o l : Nat) (Q : Bytes → World → Prop) (w : World), (∀ b w, Q b w) →
      wp σ (fRead p o l) Q (fun x _ => x ≠ .err .io) w := by
    intro p o l Q w hQ
    unfold fRead wp fileOp
    cases hs : σ w.clock with
    | none =>
      simp only
      cases w.fs p with
      | none => exact Exc.noConfusion
      | some f =>
        simp only
        by_cases hc : l = 0 ∨ o + l ≤ f.cur.length
        · rw [if_pos hc]; exact hQ _ _
        · rw [if_neg hc]; simp
    | fail k => exact absurd hs (hσ _ _)
    | crash k => exact Exc.noConfusion
  unfold Reader.prepare
  split
  · split
    · apply wp_bind
      exact wp_fail (by simp)
    · apply wp_bind
      apply hpeek
      intro _
      apply wp_bind
      apply hpoke
      intro _
      apply wp_bind
      apply hread
      intro _ _
      apply wp_bind
      apply hpoke
      intro _
      apply wp_bind
      apply wp_ret
      apply wp_bind
      apply hpeek
      intro _
      apply wp_ret
      trivial
  · apply wp_bind
    apply wp_ret
    apply wp_bind
    apply hpeek
    intro _
    apply wp_ret
    trivial

/-- No reading from the file is necessary any more, or no read fails. -/
def Once (σ : Schedule) (r : Reader) : Prop := (∀ i k, σ i ≠ .fail k) ∨ r.offset = r.last

/-- `prepare` when failing reads are excluded. -/
theorem wp_prepare_once {r : Reader} {f : FileSt} {n : Nat} {w : World} {X : Exc → World → Prop}
    {Q : Bytes × Reader → World → Prop} (hf : w.fs r.path = some f) (hr : RInv r f.cur) (ho : Once σ r)
    (hQ : ∀ r' w', RNext r r' f.cur n → Once σ r' → w'.fs = w.fs → w'.out = w.out →
      Q (slice f.cur r.pos n, r') w')
    (hS : r.pos + n > r.last → X (.err .short_read) w)
    (hX : Faulty σ → X .crash (w.tick w.fs)) :
    wp σ (r.prepare c n) Q X w := by
  rcases ho with ho | ho
  · have h1 := wp_prepare_nofail (c := c) (r := r) (n := n) (w := w) ho
    have h2 : wp σ (r.prepare c n) Q (fun x w' => x = .err .io ∨ X x w') w := by
      apply wp_prepare hf hr
      · intro r' w' a b d; exact hQ r' w' a (.inl ho) b d
      · intro h; exact .inr (hS h)
      · intro x hx hfa _ _
        rcases hx with rfl | rfl
        · exact .inr (hX hfa)
        · exact .inl rfl
    refine wp_conseq (wp_and h1 h2) (fun _ _ h => h.2) ?_
    rintro x w' ⟨h1, h2⟩
    rcases h2 with h2 | h2
    · exact absurd h2 h1
    · exact h2
  · apply wp_prepare hf hr
    · intro r' w' a b d
      refine hQ r' w' a (.inr ?_) b d
      have h1 := a.le
      have h2 := hr.avail
      have h3 : r.pos = r.offset - r.avail := rfl
      rcases a.done (by have := hr.room; omega) with h | ⟨_, h⟩
      · rw [h, a.last]
      · rw [h, ho, a.last]
    · exact hS
    · intro x hx hfa h1 h2
      have h3 : r.pos = r.offset - r.avail := rfl
      have h4 := hr.avail
      omega

theorem once_next {r r' : Reader} {F : Bytes} {n : Nat} (hr : RInv r F) (ho : Once σ r)
    (h : RNext r r' F n) : Once σ r' := by
  rcases ho with ho | ho
  · exact .inl ho
  · right
    have h1 := h.le
    have h2 := hr.avail
    have h3 : r.pos = r.offset - r.avail := rfl
    rcases h.done (by have := hr.room; omega) with h4 | ⟨_, h4⟩
    · rw [h4, h.last]
    · rw [h4, ho, h.last]

/-- The first read of a round gets everything, or no read fails. -/
def Ahead (σ : Schedule) (r : Reader) : Prop :=
  Once σ r ∨ (r.avail = 0 ∧ r.last - r.pos ≤ r.buf.length)

theorem ahead_next {r r' : Reader} {F : Bytes} {n : Nat} (hr : RInv r F) (ho : Ahead σ r) (hn : 0 < n)
    (h : RNext r r' F n) : Once σ r' := by
  rcases ho with ho | ⟨h0, ho⟩
  · exact once_next hr ho h
  · right
    rcases h.done ho with h4 | ⟨h4, _⟩
    · rw [h4, h.last]
    · omega

/-- Count and overflow offset of a record. -/
theorem wp_readHead {b : Bkt} {r : Reader} {f : FileSt} {w : World} {X : Exc → World → Prop}
    {Q : Bkt × Reader → World → Prop} {es : List Entry} {s : Nat} {t : Bytes}
    (hf : w.fs r.path = some f) (hr : RInv r f.cur) (ho : Once σ r) (hlast : r.last = f.cur.length)
    (hb : b.p.length = b.bs) (h8 : 8 ≤ b.bs) (hes : es.length < 2 ^ 16) (hs : s < 2 ^ 48)
    (hd : f.cur.drop r.pos <+: putU16 es.length ++ putU48 s ++ t)
    (hQ : ∀ b' r' w', RNext r r' f.cur 8 → Once σ r' → w'.fs = w.fs → w'.out = w.out →
      b' = ⟨b.bs, es.length, s, putU16 es.length ++ putU48 s ++ b.p.drop 8⟩ → Q (b', r') w')
    (hS : (f.cur.drop r.pos).length < 8 → X (.err .short_read) w)
    (hX : Faulty σ → X .crash (w.tick w.fs)) :
    wp σ (b.readHead c r) Q X w := by
  unfold Bkt.readHead
  apply wp_bind
  apply wp_prepare_once hf hr ho
  · intro r1 w1 h1 h2 h3 h4
    have hle := h1.le
    have hsl : slice f.cur r.pos 8 = putU16 es.length ++ putU48 s := by
      obtain ⟨u, hu⟩ := hd
      have : slice f.cur r.pos 8 = (f.cur.drop r.pos).take 8 := rfl
      rw [this]
      have h5 : (f.cur.drop r.pos).take 8 = (f.cur.drop r.pos ++ u).take 8 := by
        rw [List.take_append_of_le_length (by rw [List.length_drop]; omega)]
      rw [h5, hu, List.take_append_of_le_length (by simp), List.take_of_length_le (by simp)]
    simp only [hsl]
    apply wp_bind
    have e1 : slice (putU16 es.length ++ putU48 s) 0 2 = putU16 es.length := rfl
    have e2 : slice (putU16 es.length ++ putU48 s) 2 6 = putU48 s := rfl
    rw [e1, e2, getU16_putU16 hes, getU48_putU48 hs]
    apply wp_lift_ok (update_ok (hd := b.p.take 8) (rest := b.p.drop 8) (by simp) (by simp; omega)
      hes hs)
    apply wp_ret
    exact hQ _ r1 w1 h1 h2 h3 h4 rfl
  · intro h
    apply hS
    rw [List.length_drop]; omega
  · exact hX

/-- The entries of a record. -/
theorem wp_readBody {bs : Nat} {q : Bytes} {r : Reader} {f : FileSt} {w : World} {X : Exc → World → Prop}
    {Q : Bkt × Reader → World → Prop} {es : List Entry} {s : Nat} {t : Bytes}
    (hf : w.fs r.path = some f) (hr : RInv r f.cur) (ho : Once σ r) (hlast : r.last = f.cur.length)
    (hb : 8 + q.length = bs) (hroom : bucketSize es.length ≤ bs) (hbs : bs < 2 ^ 16)
    (hfit : ∀ e ∈ es, e.Fit) (hs : s < 2 ^ 48)
    (hd : f.cur.drop r.pos <+: encEntries es ++ t)
    (hQ : ∀ b' r' w', RNext r r' f.cur (es.length * 18) → Once σ r' → w'.fs = w.fs → w'.out = w.out →
      Rep b' es s → b'.bs = bs → Q (b', r') w')
    (hS : (f.cur.drop r.pos).length < es.length * 18 → X (.err .short_read) w)
    (hX : Faulty σ → X .crash (w.tick w.fs)) :
    wp σ (Bkt.readBody c ⟨bs, es.length, s, putU16 es.length ++ putU48 s ++ q⟩ r) Q X w := by
  unfold Bkt.readBody
  apply wp_bind
  apply wp_prepare_once hf hr ho
  · intro r1 w1 h1 h2 h3 h4
    have hle : r.pos + es.length * 18 ≤ r.last := h1.le
    have hsl : slice f.cur r.pos (es.length * 18) = encEntries es := by
      obtain ⟨u, hu⟩ := hd
      have : slice f.cur r.pos (es.length * 18) = (f.cur.drop r.pos).take (es.length * 18) := rfl
      rw [this]
      have h5 : (f.cur.drop r.pos).take (es.length * 18) = (f.cur.drop r.pos ++ u).take (es.length * 18) := by
        rw [List.take_append_of_le_length (by rw [List.length_drop]; omega)]
      rw [h5, hu, List.take_append_of_le_length (by simp), List.take_of_length_le (by simp)]
    simp only [hsl]
    apply wp_bind
    have hq : es.length * 18 ≤ q.length := by simp [bucketSize] at hroom; omega
    have e : putU16 es.length ++ putU48 s ++ q =
        (putU16 es.length ++ putU48 s) ++ (q.take (es.length * 18) ++ q.drop (es.length * 18)) := by simp
    rw [e]
    apply wp_lift_ok (poke_mid (by rfl) (by simp; omega))
    apply wp_ret
    refine hQ _ r1 w1 h1 h2 h3 h4 ⟨rfl, rfl, ⟨q.drop (es.length * 18), ?_⟩, ?_, hbs, hfit, hs⟩ rfl
    · simp [encBkt]
    · simp; omega
  · intro h
    apply hS
    have h' : r.pos + es.length * 18 > r.last := h
    have := hr.off
    have : r.pos = r.offset - r.avail := rfl
    rw [List.length_drop]; omega
  · exact hX

/-- The record loop of `recover`. -/
theorem wp_recoverLoop {L : Nat} {D K : Bytes} {df lf : FileSt} {recs : List Rec} {B Bk size : Nat}
    {view : View} {rest : Bytes} (hdb : Db c cf D K recs B view) (hBk : B ≤ Bk) (hsize : D.length ≤ size)
    (ht : Torn view B rest) {Q : Unit → World → Prop} :
    ∀ (ns : List Nat) (fuel : Nat) (b : Bkt) (r : Reader) (w : World) (kf : FileSt),
    (∀ n ∈ ns, n < B) → RInv r lf.cur → r.path = .log → r.last = lf.cur.length → Ahead σ r →
    lf.cur.drop r.pos = ns.flatMap (logRec view) ++ rest → ns.length < fuel →
    b.bs = cf.blockSize → b.p.length = cf.blockSize →
    RepP c cf L D K df lf w.fs → w.fs .key = some kf → Agree cf.blockSize K ns kf.cur →
    (∀ w' kf', RepP c cf L D K df lf w'.fs → w'.fs .key = some kf' → K <+: kf'.cur →
      w'.out = w.out → Q () w') →
    wp σ (recoverLoop c (cf.kh c.H Bk) size fuel b r) Q (XP σ (RepP c cf L D K df lf) lim nb) w := by
  have hcf := hdb.conf
  have h104 := hcf.bs1
  intro ns
  induction ns with
  | nil =>
    intro fuel b r w kf _ hr hp hl ha hd hfuel hb hbl hP hk hag hQ
    obtain ⟨fuel, rfl⟩ : ∃ k, fuel = k + 1 := ⟨fuel - 1, by omega⟩
    have hdone : ∀ w' : World, w'.fs = w.fs → w'.out = w.out → Q () w' := by
      intro w' h1 h2
      exact hQ w' kf (by rw [h1]; exact hP) (by rw [h1]; exact hk) (agree_nil hag) h2
    unfold recoverLoop
    apply wp_bind
    simp only [List.flatMap_nil, List.nil_append] at hd
    have hdl : lf.cur.length - r.pos = rest.length := by
      have := congrArg List.length hd
      rwa [List.length_drop] at this
    unfold recoverStep
    by_cases he : r.eof = true
    · rw [if_pos he]
      apply wp_ret
      exact wp_ret (hdone w rfl rfl)
    · rw [if_neg he]
      have hlt : r.pos < r.last := by simpa [Reader.eof] using he
      have hlog : w.fs r.path = some lf := by rw [hp]; exact hP.log
      rcases ht with rfl | ⟨n, hn, hpre, hlen⟩
      · simp at hdl; omega
      · apply wp_bind
        apply wp_attempt
        have hok := hdb.filed n hn
        have hes : (view n).1.length < 2 ^ 16 := by
          have h1 := hok.len
          have h2 := hcf.cap_le
          have h3 := hcf.bs2
          simp only [bucketSize] at h2; omega
        apply wp_prepare hlog hr
        · intro r1 w1 h1 h2 h3
          simp only
          have hle := h1.le
          have hr1 : 8 ≤ rest.length := by omega
          have hsl : slice lf.cur r.pos 8 = putU64 n := by
            have : slice lf.cur r.pos 8 = (lf.cur.drop r.pos).take 8 := rfl
            rw [this, hd]
            obtain ⟨u, hu⟩ := hpre
            have h5 : rest.take 8 = (rest ++ u).take 8 := by
              rw [List.take_append_of_le_length hr1]
            rw [h5, hu, logRec, List.take_append_of_le_length (by simp), List.take_of_length_le (by simp)]
          have hn64 : n < 2 ^ 64 := by have := hdb.b2; omega
          simp only [hsl, getU64_putU64 hn64]
          apply wp_bind
          apply wp_lift_ok (assert_ok (by have := hdb.b2; simp; omega))
          have hd1 : lf.cur.drop r1.pos <+: putU16 (view n).1.length ++ putU48 (view n).2 ++ encEntries (view n).1 := by
            rw [h1.pos, ← List.drop_drop, hd]
            obtain ⟨u, hu⟩ := hpre
            refine ⟨u, ?_⟩
            have := congrArg (List.drop 8) hu
            rw [List.drop_append_of_le_length hr1] at this
            rw [this, logRec, List.drop_append_of_le_length (by simp)]
            simp [encBkt]
          have hd1l : (lf.cur.drop r1.pos).length = rest.length - 8 := by
            rw [h1.pos, List.length_drop]; omega
          apply wp_bind
          apply wp_attempt
          apply wp_readHead (f := lf) (b := b) (by rw [h1.path, h2]; exact hlog) h1.inv
            (ahead_next hr ha (by decide) h1) (by rw [h1.last, hl]) (by rw [hb, hbl]) (by rw [hb]; omega)
            hes hok.lt48 hd1
          · intro b2 r2 w2 g1 g2 g3 g4 g5
            subst g5
            simp only [hb]
            apply wp_bind
            apply wp_attempt
            have hd2 : lf.cur.drop r2.pos <+: encEntries (view n).1 ++ [] := by
              rw [g1.pos, ← List.drop_drop]
              obtain ⟨u, hu⟩ := hd1
              have h8 : 8 ≤ (lf.cur.drop r1.pos).length := by
                rw [List.length_drop]; have := g1.le; rw [h1.last, hl] at this; omega
              have := congrArg (List.drop 8) hu
              rw [List.drop_append_of_le_length h8] at this
              refine ⟨u, ?_⟩
              rw [this, List.append_nil]; rfl
            have hd2l : (lf.cur.drop r2.pos).length = rest.length - 16 := by
              rw [g1.pos, List.length_drop]
              rw [List.length_drop] at hd1l; omega
            have hshort : (lf.cur.drop r2.pos).length < (view n).1.length * 18 := by
              rw [hd2l]; rw [logRec_length] at hlen; simp only [bucketSize] at hlen
              have := g1.le; rw [h1.last, hl] at this
              rw [List.length_drop] at hd1l
              omega
            apply wp_readBody (f := lf) (bs := cf.blockSize) (q := b.p.drop 8) (by rw [g1.path, h1.path, g3, h2]; exact hlog) g1.inv
              g2 (by rw [g1.last, h1.last, hl]) (by rw [List.length_drop]; omega)
              (by have := hcf.cap_le; have := hok.len; simp only [bucketSize] at *; omega) hcf.bs2
              hok.fit hok.lt48 hd2
            · intro b3 r3 w3 k1
              have := k1.le
              rw [g1.last, h1.last, hl] at this
              rw [List.length_drop] at hshort
              omega
            · intro _
              simp only
              apply wp_ret
              simp only
              exact wp_ret (hdone w2 (by rw [g3, h2]) (by rw [g4, h3]))
            · intro hfa
              exact ⟨by simp only [tick_fs]; rw [g3, h2]; exact hP, .inl ⟨.inl rfl, hfa⟩⟩
          · intro _
            simp only
            apply wp_ret
            simp only
            exact wp_ret (hdone w1 h2 h3)
          · intro hfa
            exact ⟨by simp only [tick_fs]; rw [h2]; exact hP, .inl ⟨.inl rfl, hfa⟩⟩
        · intro _
          simp only
          apply wp_ret
          simp only
          exact wp_ret (hdone w rfl rfl)
        · intro x hx hfa _ _
          rcases hx with rfl | rfl
          · exact ⟨hP, .inl ⟨.inl rfl, hfa⟩⟩
          · simp only
            exact wp_fail ⟨hP, .inl ⟨.inr rfl, hfa⟩⟩
  | cons n ns ih =>
    intro fuel b r w kf hns hr hp hl ha hd hfuel hb hbl hP hk hag hQ
    obtain ⟨fuel, rfl⟩ : ∃ k, fuel = k + 1 := ⟨fuel - 1, by omega⟩
    have hn := hns n (by simp)
    unfold recoverLoop
    apply wp_bind
    simp only [List.flatMap_cons, List.append_assoc] at hd
    have hdl : lf.cur.length - r.pos = (logRec view n).length + ((ns.flatMap (logRec view)) ++ rest).length := by
      have := congrArg List.length hd
      rwa [List.length_drop, List.length_append] at this
    rw [logRec_length] at hdl
    unfold recoverStep
    rw [if_neg (by simp [Reader.eof]; simp only [bucketSize] at hdl; omega)]
    have hlog : w.fs r.path = some lf := by rw [hp]; exact hP.log
    apply wp_bind
    apply wp_attempt
    have hok := hdb.filed n hn
    have hes : (view n).1.length < 2 ^ 16 := by
      have h1 := hok.len
      have h2 := hcf.cap_le
      have h3 := hcf.bs2
      simp only [bucketSize] at h2; omega
    generalize htl : (ns.flatMap (logRec view)) ++ rest = tl at *
    apply wp_prepare hlog hr
    · intro r1 w1 h1 h2 h3
      simp only
      have hsl : slice lf.cur r.pos 8 = putU64 n := by
        have : slice lf.cur r.pos 8 = (lf.cur.drop r.pos).take 8 := rfl
        rw [this, hd, logRec, List.append_assoc, List.take_append_of_le_length (by simp),
          List.take_of_length_le (by simp)]
      have hn64 : n < 2 ^ 64 := by have := hdb.b2; omega
      simp only [hsl, getU64_putU64 hn64]
      apply wp_bind
      apply wp_lift_ok (assert_ok (by have := hdb.b2; simp; omega))
      have hd1 : lf.cur.drop r1.pos = putU16 (view n).1.length ++ putU48 (view n).2 ++ (encEntries (view n).1 ++ tl) := by
        rw [h1.pos, ← List.drop_drop, hd, logRec, List.append_assoc, List.drop_append_of_le_length (by simp)]
        simp [encBkt]
      apply wp_bind
      apply wp_attempt
      apply wp_readHead (f := lf) (b := b) (by rw [h1.path, h2]; exact hlog) h1.inv
        (ahead_next hr ha (by decide) h1) (by rw [h1.last, hl]) (by rw [hb, hbl]) (by rw [hb]; omega)
        hes hok.lt48 (by rw [hd1]; exact List.prefix_refl _)
      · intro b2 r2 w2 g1 g2 g3 g4 g5
        subst g5
        simp only [hb]
        apply wp_bind
        apply wp_attempt
        have hd2 : lf.cur.drop r2.pos = encEntries (view n).1 ++ tl := by
          rw [g1.pos, ← List.drop_drop, hd1]; rfl
        apply wp_readBody (f := lf) (bs := cf.blockSize) (q := b.p.drop 8) (by rw [g1.path, h1.path, g3, h2]; exact hlog) g1.inv
          g2 (by rw [g1.last, h1.last, hl]) (by rw [List.length_drop]; omega)
          (by have := hcf.cap_le; have := hok.len; simp only [bucketSize] at *; omega) hcf.bs2
          hok.fit hok.lt48 (by rw [hd2]; exact List.prefix_refl _)
        · intro b3 r3 w3 k1 k2 k3 k4 k5 k6
          simp only
          apply wp_bind
          unfold recoverWrite
          have hsp : ¬ (b3.spill ≠ 0 ∧ b3.spill + bucketSize (cf.kh c.H Bk).capacity > size) := by
            rintro ⟨q1, q2⟩
            obtain ⟨Lc, hch, _⟩ := hok.chain
            rw [k5.spill] at q1 q2
            have := hch.le_length q1
            have q3 : (cf.kh c.H Bk).capacity = cf.cap := rfl
            rw [q3] at q2
            omega
          rw [if_neg hsp, if_neg (by show ¬ n > Bk; omega)]
          have hblk := hdb.block hn
          have hpad := k5.padded
          rw [k6] at hpad
          have hpr := k5.pad
          rw [k6] at hpr
          apply wp_bind
          apply wp_lift_ok hpad
          have hfs : w3.fs = w.fs := by rw [k3, g3, h2]
          have hk3 : w3.fs .key = some kf := by rw [hfs]; exact hk
          have hP3 : RepP c cf L D K df lf w3.fs := by rw [hfs]; exact hP
          apply wp_bind
          apply wp_fWrite hk3
          · apply wp_ret
            apply wp_ret
            simp only
            apply ih fuel { b3 with p := encBkt (view n).1 (view n).2 ++ zeros (cf.blockSize - bucketSize (view n).1.length) } r3 _ _ (fun m hm => hns m (by simp [hm])) k1.inv (by rw [k1.path, g1.path, h1.path, hp])
              (by rw [k1.last, g1.last, h1.last, hl]) (.inl k2) ?_ (by simp at hfuel; omega) k6
              hpr.len (hP3.own hk3 hblk.1) (by simp only [tick_fs]; exact Fs.set_same _ _ _)
            · rw [cur_push]
              exact hag.restore hblk.1 hblk.2
            · intro w' kf' q1 q2 q3 q4
              exact hQ w' kf' q1 q2 q3 (by rw [q4]; simp only [tick_out]; rw [k4, g4, h3])
            · rw [k1.pos, ← List.drop_drop, hd2]; simp
          · intro x k hx hfa
            exact ⟨hP3.own hk3 ((List.take_prefix _ _).trans hblk.1), .inl ⟨hx, hfa⟩⟩
        · intro h
          rw [hd2] at h; simp at h; omega
        · intro hfa
          exact ⟨by simp only [tick_fs]; rw [g3, h2]; exact hP, .inl ⟨.inl rfl, hfa⟩⟩
      · intro h
        rw [hd1] at h; simp at h; omega
      · intro hfa
        exact ⟨by simp only [tick_fs]; rw [h2]; exact hP, .inl ⟨.inl rfl, hfa⟩⟩
    · intro h
      simp only [bucketSize] at hdl; omega
    · intro x hx hfa _ _
      rcases hx with rfl | rfl
      · exact ⟨hP, .inl ⟨.inl rfl, hfa⟩⟩
      · simp only
        exact wp_fail ⟨hP, .inl ⟨.inr rfl, hfa⟩⟩

/-- Files without a log. -/
structure Closed (D K : Bytes) (fs : Fs) : Prop where
  dat : ∃ f, fs .dat = some f ∧ Stable f D
  key : ∃ f, fs .key = some f ∧ Stable f K
  log : fs .log = none

/-- `clear_log:` once data and key file are in order. -/
theorem wp_clearLog {L : Nat} {G : Bytes → Bytes → Prop} {D K : Bytes} {df kf lf : FileSt} {w : World}
    (hs : Safe c cf L G w.fs)
    (hd : w.fs .dat = some df) (hk : w.fs .key = some kf) (hl : w.fs .log = some lf)
    (hg : G D K) (sd : Stable df D) (sk : Stable kf K)
    (img : ∃ D' K', G D' K' ∧ ∀ l, Ordered lf l → 62 ≤ l.length → Roll c cf L D' K' l df kf)
    {Q : Unit → World → Prop} (hQ : ∀ w', Closed D K w'.fs → w'.out = w.out → Q () w') :
    wp σ clearLog Q (XP σ (Safe c cf L G) lim nb) w := by
  unfold clearLog
  apply wp_bind
  apply wp_fTrunc hl _ (by exact XP.fault hs)
  have h1 : Safe c cf L G (w.fs.set .log (some (lf.push (.trunc 0)))) := by
    refine .short df kf _ D K (by simpa using hd) (by simpa using hk) (Fs.set_same _ _ _) ?_ hg sd sk ?_
    · rw [cur_push]; simp [POp.apply, truncAt_zero]
    · obtain ⟨D', K', hg', img⟩ := img
      refine ⟨D', K', hg', ?_⟩
      intro l ho h62
      rcases ordered_push_trunc ho with ho | rfl
      · exact img l ho h62
      · simp [truncAt_zero] at h62
  apply wp_bind
  apply wp_fSync (f := lf.push (.trunc 0)) (by simp) _ (by exact XP.fault h1)
  have he : (lf.push (.trunc 0)).synced = FileSt.clean [] := by
    rw [synced_eq, cur_push]; simp [POp.apply, truncAt_zero]
  rw [he]
  generalize hfs : Fs.set _ .log (some (FileSt.clean [])) = fs2
  have d2 : fs2 .dat = some df := by rw [← hfs]; simpa using hd
  have k2 : fs2 .key = some kf := by rw [← hfs]; simpa using hk
  have l2 : fs2 .log = some (FileSt.clean []) := by rw [← hfs]; simp
  have h2 : Safe c cf L G fs2 := by
    refine .short df kf _ D K d2 k2 l2 (by simp) hg sd sk ⟨D, K, hg, ?_⟩
    intro l ho h62
    rw [ordered_clean.mp ho] at h62; simp at h62
  apply wp_fErase (by exact l2) _ (by exact XP.fault h2)
  apply hQ
  · exact ⟨⟨df, by simpa using d2, sd⟩, ⟨kf, by simpa using k2, sk⟩, by simp⟩
  · rfl

theorem Roll.trunc_dat {L : Nat} {D K l : Bytes} {df kf : FileSt} (h : Roll c cf L D K l df kf) :
    Roll c cf L D K l (df.push (.trunc D.length)) kf := by
  obtain ⟨recs, B, view, ns, rest, a1, a2, a3, a4, a5, a6, a7⟩ := h
  refine ⟨recs, B, view, ns, rest, a1, a2, a3, a4, a5, ?_, a7⟩
  intro v hv
  rcases version_push.mp hv with hv | rfl
  · exact a6 v hv
  · obtain ⟨t, ht⟩ := a6 _ (version_cur df)
    simp only [POp.apply, ← ht, truncAt_prefix]
    exact List.prefix_refl _

theorem Roll.trunc_key {L : Nat} {D K l : Bytes} {df kf : FileSt} (h : Roll c cf L D K l df kf)
    (hp : K <+: kf.cur) : Roll c cf L D K l df (kf.push (.trunc K.length)) := by
  obtain ⟨recs, B, view, ns, rest, a1, a2, a3, a4, a5, a6, a7⟩ := h
  refine ⟨recs, B, view, ns, rest, a1, a2, a3, a4, a5, a6, ?_⟩
  intro v hv
  rcases version_push.mp hv with hv | rfl
  · exact a7 v hv
  · obtain ⟨t, ht⟩ := hp
    simp only [POp.apply, ← ht, truncAt_prefix]
    exact agree_self _ _ _

theorem Roll.sync_dat {L : Nat} {D K l : Bytes} {df kf : FileSt} (h : Roll c cf L D K l df kf) :
    Roll c cf L D K l df.synced kf := by
  obtain ⟨recs, B, view, ns, rest, a1, a2, a3, a4, a5, a6, a7⟩ := h
  refine ⟨recs, B, view, ns, rest, a1, a2, a3, a4, a5, ?_, a7⟩
  intro v hv
  rw [synced_eq, version_clean] at hv
  rw [hv]; exact a6 _ (version_cur df)

theorem Roll.sync_key {L : Nat} {D K l : Bytes} {df kf : FileSt} (h : Roll c cf L D K l df kf) :
    Roll c cf L D K l df kf.synced := by
  obtain ⟨recs, B, view, ns, rest, a1, a2, a3, a4, a5, a6, a7⟩ := h
  refine ⟨recs, B, view, ns, rest, a1, a2, a3, a4, a5, a6, ?_⟩
  intro v hv
  rw [synced_eq, version_clean] at hv
  rw [hv]; exact a7 _ (version_cur kf)

theorem Spec.Stable.sync {f : FileSt} {v : Bytes} (h : Stable f v) : Stable f.synced v := by
  rw [h.synced]; exact stable_clean v

/-- `trunc_files:` after the log was replayed. -/
theorem wp_truncFiles {L : Nat} {G : Bytes → Bytes → Prop} {D K : Bytes} {df kf lf : FileSt} {w : World}
    (hlen : 62 ≤ lf.cur.length) (hg : G D K) (hR : RepP c cf L D K df lf w.fs)
    (hk : w.fs .key = some kf) (hp : K <+: kf.cur) (hK : K.length ≠ 0)
    {Q : Unit → World → Prop} (hQ : ∀ w', Closed D K w'.fs → w'.out = w.out → Q () w') :
    wp σ (truncFiles (cf.lh c.H K.length D.length)) Q (XP σ (Safe c cf L G) lim nb) w := by
  have hs := hR.safe hlen hg
  obtain ⟨kf', e, himg, hnone⟩ := hR.key
  rw [hk] at e; cases e
  have hpd : D <+: df.cur := by
    obtain ⟨recs, B, view, ns, rest, a1, a2, a3, a4, a5, a6, a7⟩ := himg _ (ordered_cur lf) hlen
    exact a6 _ (version_cur df)
  unfold truncFiles
  apply wp_bind
  apply wp_fTrunc hR.dat _ (by exact XP.fault hs)
  have h1 : Safe c cf L G (w.fs.set .dat (some (df.push (.trunc D.length)))) := by
    refine .long _ kf lf D K (Fs.set_same _ _ _) (by simpa using hk) (by simpa using hR.log) hlen hg ?_ ?_
    · intro l ho h62; exact (himg l ho h62).trunc_dat
    · intro l ho h62
      obtain ⟨s1, s2⟩ := hnone l ho h62
      exact ⟨s1.push (by simp only [POp.apply]; exact truncAt_self D), s2⟩
  apply wp_bind
  apply wp_fSync (f := df.push (.trunc D.length)) (by simp only [tick_fs]; exact Fs.set_same _ _ _) _
    (by exact XP.fault h1)
  have hdc : (df.push (.trunc D.length)).synced = FileSt.clean D := by
    obtain ⟨t, ht⟩ := hpd
    rw [synced_eq, cur_push]; simp only [POp.apply, ← ht, truncAt_prefix]
  generalize hfs : Fs.set _ .dat (some (df.push (.trunc D.length)).synced) = fs2
  have d2 : fs2 .dat = some (df.push (.trunc D.length)).synced := by rw [← hfs]; exact Fs.set_same _ _ _
  have k2 : fs2 .key = some kf := by rw [← hfs]; simpa using hk
  have l2 : fs2 .log = some lf := by rw [← hfs]; simpa using hR.log
  have h2 : Safe c cf L G fs2 := by
    refine .long _ kf lf D K d2 k2 l2 hlen hg ?_ ?_
    · intro l ho h62; exact (himg l ho h62).trunc_dat.sync_dat
    · intro l ho h62
      obtain ⟨s1, s2⟩ := hnone l ho h62
      exact ⟨by rw [hdc]; exact stable_clean D, s2⟩
  rw [if_pos (by exact hK)]
  apply wp_bind
  apply wp_fTrunc (by exact k2) _ (by exact XP.fault h2)
  have h3 : Safe c cf L G (fs2.set .key (some (kf.push (.trunc K.length)))) := by
    refine .long _ _ lf D K (by simpa using d2) (Fs.set_same _ _ _) (by simpa using l2) hlen hg ?_ ?_
    · intro l ho h62; exact (himg l ho h62).trunc_dat.sync_dat.trunc_key hp
    · intro l ho h62
      obtain ⟨s1, s2⟩ := hnone l ho h62
      exact ⟨by rw [hdc]; exact stable_clean D, s2.push (by simp only [POp.apply]; exact truncAt_self K)⟩
  apply wp_bind
  apply wp_fSync (f := kf.push (.trunc K.length)) (by simp only [tick_fs]; exact Fs.set_same _ _ _) _
    (by exact XP.fault h3)
  have hkc : (kf.push (.trunc K.length)).synced = FileSt.clean K := by
    obtain ⟨t, ht⟩ := hp
    rw [synced_eq, cur_push]; simp only [POp.apply, ← ht, truncAt_prefix]
  generalize hfs3 : Fs.set _ .key (some (kf.push (.trunc K.length)).synced) = fs3
  have d3 : fs3 .dat = some (df.push (.trunc D.length)).synced := by rw [← hfs3]; simpa using d2
  have k3 : fs3 .key = some (kf.push (.trunc K.length)).synced := by rw [← hfs3]; exact Fs.set_same _ _ _
  have l3 : fs3 .log = some lf := by rw [← hfs3]; simpa using l2
  have himg3 : ∀ l, Ordered lf l → 62 ≤ l.length →
      Roll c cf L D K l (df.push (.trunc D.length)).synced (kf.push (.trunc K.length)).synced := by
    intro l ho h62; exact ((himg l ho h62).trunc_dat.sync_dat.trunc_key hp).sync_key
  have h4 : Safe c cf L G fs3 := by
    refine .long _ _ lf D K d3 k3 l3 hlen hg himg3 ?_
    intro l ho h62
    exact ⟨by rw [hdc]; exact stable_clean D, by rw [hkc]; exact stable_clean K⟩
  apply wp_clearLog (by exact h4) (by exact d3) (by exact k3) (by exact l3) hg
    (by rw [hdc]; exact stable_clean D) (by rw [hkc]; exact stable_clean K)
    ⟨D, K, hg, himg3⟩
  intro w' a b
  exact hQ w' a (by rw [b]; rfl)

/-- `recover` restores one of the acceptable databases, and being interrupted does no harm.
Failing reads are excluded when the log is longer than the read buffer. -/
theorem wp_recover {L : Nat} {G : Bytes → Bytes → Prop} {w : World}
    (hGdb : ∀ D K, G D K → ∃ recs B view, Db c cf D K recs B view)
    (hσ : (∀ i k, σ i ≠ .fail k) ∨ L ≤ 62 + 1024 * cf.blockSize)
    (hs : Safe c cf L G w.fs)
    {Q : Unit → World → Prop}
    (hQ : ∀ w' D K, Closed D K w'.fs → G D K → w'.out = w.out → Q () w') :
    wp σ (recover c) Q (XP σ (Safe c cf L G) True True) w := by
  -- what all states have in common
  have hall : ∃ df kf D K recs B view ns, w.fs .dat = some df ∧ w.fs .key = some kf ∧
      Db c cf D K recs B view ∧ D <+: df.cur ∧ Agree cf.blockSize K ns kf.cur := by
    cases hs with
    | clear df kf D K hd hk hl hg sd sk =>
      obtain ⟨recs, B, view, h⟩ := hGdb D K hg
      exact ⟨df, kf, D, K, recs, B, view, [], hd, hk, h, by rw [sd.cur]; exact List.prefix_refl _,
        by rw [sk.cur]; exact agree_self _ _ _⟩
    | short df kf lf D K hd hk hl hlen hg sd sk img =>
      obtain ⟨recs, B, view, h⟩ := hGdb D K hg
      exact ⟨df, kf, D, K, recs, B, view, [], hd, hk, h, by rw [sd.cur]; exact List.prefix_refl _,
        by rw [sk.cur]; exact agree_self _ _ _⟩
    | long df kf lf D K hd hk hl hlen hg img none =>
      obtain ⟨recs, B, view, ns, rest, a1, a2, a3, a4, a5, a6, a7⟩ := img _ (ordered_cur lf) hlen
      exact ⟨df, kf, D, K, recs, B, view, ns, hd, hk, a1, a6 _ (version_cur df), a7 _ (version_cur kf)⟩
  obtain ⟨df, kf, D0, K0, recs0, B0, view0, ns0, hd, hk, hdb0, hpd, hag⟩ := hall
  have hcf := hdb0.conf
  have hf : ∀ (w' : World) (x : Exc), w'.fs = w.fs → IsFault x → Faulty σ →
      XP σ (Safe c cf L G) True True x (w'.tick w'.fs) := by
    intro w' x h1 hx hfa
    exact ⟨by simp only [tick_fs]; rw [h1]; exact hs, .inl ⟨hx, hfa⟩⟩
  have hdl : 92 ≤ df.cur.length := by
    have := hpd.length_le
    rw [hdb0.dat.eq] at this
    simp at this; omega
  have hkl : 104 < kf.cur.length := by
    have := hag.le; have := hdb0.klen.1; omega
  unfold recover
  apply wp_bind
  apply wp_fOpen hd _ (fun x hx hfa => hf w x rfl hx hfa)
  apply wp_bind
  apply wp_fSize (by exact hd) _ (by exact fun x hx hfa => hf (w.tick w.fs) x rfl hx hfa)
  apply wp_bind
  unfold readDatHeader
  apply wp_bind
  apply wp_fRead (by exact hd) (by simpa [datHeaderSize] using hdl) _ (by exact fun x hx hfa => hf (w.tick w.fs) x rfl hx hfa)
  apply wp_ret
  simp only [datHeaderSize, get_dh hdb0.dat hcf hpd]
  apply wp_bind
  apply wp_check_ok (verifyDat_ok hcf)
  apply wp_bind
  apply wp_fOpen (by exact hk) _ (by exact fun x hx hfa => hf (w.tick w.fs) x rfl hx hfa)
  apply wp_bind
  apply wp_fSize (by exact hk) _ (by exact fun x hx hfa => hf (w.tick w.fs) x rfl hx hfa)
  rw [if_neg (by simp only [keyHeaderSize]; omega)]
  apply wp_bind
  apply wp_attempt
  cases hs with
  | clear df1 kf1 D K hd1 hk1 hl hg sd sk =>
    apply wp_fOpen_none (by exact hl)
    · simp only
      apply wp_ret
      exact hQ _ D K ⟨⟨df1, hd1, sd⟩, ⟨kf1, hk1, sk⟩, hl⟩ hg rfl
    · intro x hx hfa
      rcases hx with rfl | rfl
      · exact hf (w.tick w.fs) _ rfl (.inl rfl) hfa
      · simp only
        exact wp_fail (hf (w.tick w.fs) _ rfl (.inr rfl) hfa)
  | short df1 kf1 lf D K hd1 hk1 hl hlen hg sd sk img =>
    apply wp_fOpen (by exact hl)
    rotate_left
    · intro x hx hfa
      rcases hx with rfl | rfl
      · exact hf (w.tick w.fs) _ rfl (.inl rfl) hfa
      · simp only
        exact wp_fail (hf (w.tick w.fs) _ rfl (.inr rfl) hfa)
    simp only
    apply wp_bind
    apply wp_fSize (by exact hl) _ (by exact fun x hx hfa => hf (w.tick w.fs) x rfl hx hfa)
    apply wp_bind
    apply wp_attempt
    unfold readLogHeader
    apply wp_bind
    apply wp_fRead_short (by exact hl) (by decide) (by simpa [logHeaderSize] using hlen)
    · simp only
      apply wp_clearLog (D := D) (K := K) (by exact .short df1 kf1 lf D K hd1 hk1 hl hlen hg sd sk img)
        (by exact hd1) (by exact hk1) (by exact hl) hg sd sk img
      intro w' a b
      exact hQ w' D K a hg (by rw [b]; rfl)
    · intro x hx hfa
      rcases hx with rfl | rfl
      · exact hf (w.tick w.fs) _ rfl (.inl rfl) hfa
      · simp only
        exact wp_fail (hf (w.tick w.fs) _ rfl (.inr rfl) hfa)
  | long df1 kf1 lf D K hd1 hk1 hl hlen hg img none =>
    rw [hd] at hd1; cases hd1
    rw [hk] at hk1; cases hk1
    have hRep : RepP c cf L D K df lf w.fs := ⟨hd, hl, kf, hk, img, none⟩
    obtain ⟨recs, B, view, ns, rest, a1, a2, a3, a4, a5, a6, a7⟩ := img _ (ordered_cur lf) hlen
    have hagK := a7 _ (version_cur kf)
    have hpD := a6 _ (version_cur df)
    have hkn := a1.klen
    apply wp_fOpen (by exact hl)
    rotate_left
    · intro x hx hfa
      rcases hx with rfl | rfl
      · exact hf (w.tick w.fs) _ rfl (.inl rfl) hfa
      · simp only
        exact wp_fail (hf (w.tick w.fs) _ rfl (.inr rfl) hfa)
    simp only
    apply wp_bind
    apply wp_fSize (by exact hl) _ (by exact fun x hx hfa => hf (w.tick w.fs) x rfl hx hfa)
    apply wp_bind
    apply wp_attempt
    unfold readLogHeader
    apply wp_bind
    apply wp_fRead (by exact hl) (by simpa [logHeaderSize] using hlen)
    rotate_left
    · intro x hx hfa
      rcases hx with rfl | rfl
      · exact hf (w.tick w.fs) _ rfl (.inl rfl) hfa
      · simp only
        exact wp_fail (hf (w.tick w.fs) _ rfl (.inr rfl) hfa)
    apply wp_ret
    have hlh : getLogHeader (slice lf.cur 0 logHeaderSize) = cf.lh c.H K.length D.length := by
      refine get_lh (rest := ns.flatMap (logRec view) ++ rest) hcf ?_ hkn.2.1 (by have := a1.dlen; omega)
      rw [a3, logBytes]; simp
    simp only [hlh]
    apply wp_bind
    apply wp_check_ok (verifyLog_ok hcf)
    have hK0 : K.length ≠ 0 := by omega
    rw [if_neg (by exact hK0)]
    apply wp_bind
    -- replay
    apply wp_conseq (Q := fun _ w' => ∃ kf', RepP c cf L D K df lf w'.fs ∧ w'.fs .key = some kf' ∧
        K <+: kf'.cur ∧ w'.out = w.out)
      (X := XP σ (RepP c cf L D K df lf) True True)
    · have hX : ∀ (x : Exc), IsFault x → Faulty σ → XP σ (RepP c cf L D K df lf) True True x (w.tick w.fs) :=
        XP.fault hRep
      unfold replayLog
      apply wp_bind
      unfold readKeyHeader
      apply wp_bind
      apply wp_fRead (by exact hk) (by simp only [keyHeaderSize]; omega) _ (by exact fun x hx hfa => hX x hx hfa)
      apply wp_bind
      apply wp_fSize (by exact hk) _ (by exact fun x hx hfa => hX x hx hfa)
      apply wp_ret
      have hBk := a1.buckets_le hagK.le
      have hkh : getKeyHeader (slice kf.cur 0 keyHeaderSize) kf.cur.length =
          cf.kh c.H (kf.cur.length / cf.blockSize - 1) := by
        apply get_kh (B := B) hcf
        rw [agree_head hagK hcf.bs1 (by omega), a1.key.head]
      simp only [hkh]
      have h1B := a1.b1
      apply wp_bind
      apply wp_check_ok (verifyKey_ok hcf (by omega))
      apply wp_bind
      apply wp_check_ok (verifyDatKey_ok hcf (by omega))
      apply wp_bind
      apply wp_check_ok (verifyKeyLog_ok hcf)
      have h104 := hcf.bs1
      obtain ⟨b, e1, e2, e3⟩ := ofMem_any (bs := cf.blockSize) (p := c.fresh cf.blockSize) (by simp; omega)
      apply wp_bind
      apply wp_lift_ok e1
      apply wp_recoverLoop (recs := recs) (B := B) (view := view) (rest := rest) a1 hBk hpD.length_le a4 ns
      · exact a2
      · exact rinv_new c .log (Nat.le_refl _) hlen
      · rfl
      · rfl
      · rcases hσ with hσ | hσ
        · exact .inl (.inl hσ)
        · right
          refine ⟨rfl, ?_⟩
          simp only [Reader.new, Reader.pos, fresh_length, logHeaderSize, Conf.kh]
          omega
      · simp only [Reader.new, Reader.pos, logHeaderSize]
        rw [a3, logBytes]
        simp [List.drop_append]
      · have : ns.length ≤ (ns.flatMap (logRec view)).length := by
          clear a2 a3 a4 a5 a6 a7 hagK
          induction ns with
          | nil => simp
          | cons n ns ih =>
            simp only [List.flatMap_cons, List.length_append, List.length_cons, logRec_length, bucketSize]
            omega
        have h2 := congrArg List.length a3
        simp only [logBytes, List.length_append, putLogHeader_length] at h2
        omega
      · exact e2
      · rw [e3]; simp
      · exact hRep
      · exact hk
      · exact hagK
      · intro w' kf' b1 b2 b3 b4
        exact ⟨kf', b1, b2, b3, by rw [b4]; rfl⟩
    · rintro _ w1 ⟨kf', b1, b2, b3, b4⟩
      apply wp_truncFiles hlen hg b1 b2 b3 hK0
      intro w' d1 d2
      exact hQ w' D K d1 hg (by rw [d2, b4])
    · rintro x w1 ⟨h1, h2⟩
      exact ⟨h1.safe hlen hg, h2⟩

end

end NuDB
