import Verif.Proof.VerifySound4
/- Files accepted by `verify`. -/
namespace NuDB

open Spec

/-- `m` ends in `Q` unless the file system fails. -/
abbrev tot (σ : Schedule) (m : M α) (Q : α → World → Prop) (w : World) : Prop :=
  wp σ m Q (fun x _ => IsFault x ∧ Faulty σ) w

section
variable {σ : Schedule} {w : World}

theorem tot_shortAs {m : M α} {e : Err} {Q : α → World → Prop} (h : tot σ m Q w) : tot σ (shortAs e m) Q w := by
  unfold shortAs
  apply wp_bind
  apply wp_attempt
  refine wp_conseq h (fun a w' hq => wp_ret hq) ?_
  rintro x w' ⟨hx, hf⟩
  rcases hx with rfl | rfl
  · exact ⟨.inl rfl, hf⟩
  · exact wp_fail ⟨.inr rfl, hf⟩

theorem tot_fRead {p : Path} {f : FileSt} {o n : Nat} {Q : Bytes → World → Prop} (hf : w.fs p = some f)
    (hl : o + n ≤ f.cur.length) (hQ : Q (slice f.cur o n) (w.tick w.fs)) : tot σ (fRead p o n) Q w :=
  wp_fRead hf hl hQ (fun _ hx hy => ⟨hx, hy⟩)

theorem tot_prepare {c : Cfg} {r : Reader} {f : FileSt} {n : Nat} {Q : Bytes × Reader → World → Prop}
    (hf : w.fs r.path = some f) (hr : RInv r f.cur) (hl : r.pos + n ≤ r.last)
    (hQ : ∀ r' w', RNext r r' f.cur n → Quiet w w' → Q (slice f.cur r.pos n, r') w') : tot σ (r.prepare c n) Q w :=
  wp_prepare hf hr (fun r' w' h1 h2 h3 => hQ r' w' h1 ⟨h2, h3⟩) (fun h => by omega) (fun _ hx hy _ _ => ⟨hx, hy⟩)

theorem tot_lookupFuel {Q : Nat → World → Prop} {f : FileSt} (hf : w.fs .dat = some f) (h : Q (f.cur.length + 2) w) : tot σ lookupFuel Q w := by
  show wp σ _ _ _ _
  unfold wp lookupFuel
  simp only [hf]
  exact h

end

/-- A bucket as the library writes it. -/
structure GoodBlk (bs : Nat) (blk : Bytes) : Prop where
  room : countIn blk ≤ (bs - 8) / 18
  sorted : ∀ i j, i ≤ j → j < countIn blk → (itemAt blk i).hash ≤ (itemAt blk j).hash
  sizes : ∀ i, i < countIn blk → (itemAt blk i).size < 2 ^ 32

theorem Loaded.get_ok {b : Bkt} {blk : Bytes} (hb : Loaded b blk) {i : Nat} (hi : i < b.size)
    (hs : (itemAt blk i).size < 2 ^ 32) : b.get i = .ok (itemAt blk i) := by
  have hf := hb.fits
  have hl := hb.pre.length_le
  cases h : b.get i with
  | ok e => rw [hb.get hi h]
  | error x =>
    exfalso
    unfold Bkt.get at h
    rw [peek_ok (by omega)] at h
    simp only [bind, Except.bind] at h
    rw [slice_slice (by omega), slice_slice (by omega), slice_slice (by omega)] at h
    unfold getSize48 at h
    rw [C18_u48.reads _ (slice_length_of_le (by omega))] at h
    have e : value (slice b.p (2 + 6 + i * 18 + 6) 6) = (itemAt blk i).size := by
      unfold itemAt
      rw [slice_prefix hb.pre (by omega), show 2 + 6 + i * 18 + 6 = 14 + 18 * i by omega]
      rfl
    rw [e] at h
    simp only [bind, Except.bind, assert] at h
    rw [if_pos (by simp; omega)] at h
    simp [pure, Except.pure] at h

theorem seekEntry_total {b : Bkt} {blk : Bytes} {bs : Nat} (hb : Loaded b blk) (hg : GoodBlk bs blk) {h offset : Nat} (fuel : Nat) :
    ∀ i f, countIn blk - i < fuel → (∀ j, j < countIn blk → i ≤ j → h ≤ (itemAt blk j).hash) →
    ∃ found f', seekEntry h offset b fuel i f = .ok (found, f') ∧
      ((∃ j, i ≤ j ∧ j < countIn blk ∧ (itemAt blk j).hash = h ∧ (itemAt blk j).offset = offset) → found = true) := by
  have hz := hb.size
  induction fuel with
  | zero =>
    intro i f hi _
    omega
  | succ fuel ih =>
    intro i f hi hlo
    unfold seekEntry
    split
    · rename_i hlt
      rw [hb.get_ok hlt (hg.sizes i (by omega))]
      simp only [bind, Except.bind]
      split
      · rename_i hne
        refine ⟨false, f, rfl, ?_⟩
        rintro ⟨j, h1, h2, h3, _⟩
        have e1 := hlo i (by omega) (Nat.le_refl _)
        have e2 := hg.sorted i j h1 h2
        omega
      · rename_i heq
        split
        · exact ⟨true, f, rfl, fun _ => rfl⟩
        · rename_i hno
          obtain ⟨found, f', h1, h2⟩ := ih (i + 1) (f + 1) (by omega) (fun j hj hij => hlo j hj (by omega))
          refine ⟨found, f', h1, ?_⟩
          rintro ⟨j, hij, hj, e1, e2⟩
          refine h2 ⟨j, ?_, hj, e1, e2⟩
          rcases Nat.lt_or_eq_of_le hij with h3 | h3
          · exact h3
          · subst h3; exact absurd e2 hno
    · refine ⟨false, f, rfl, ?_⟩
      rintro ⟨j, h1, h2, _⟩
      omega

/-- Each bucket of the chain is as the library writes it. -/
def GoodChain (bs : Nat) (cs : List Bytes) : Prop := ∀ b ∈ cs, GoodBlk bs b

section
variable {σ : Schedule} {w : World} {df kf : FileSt}

theorem tot_readFile {b : Bkt} {p : Path} {off : Nat} {f : FileSt} {Q : Bkt → World → Prop} (hf : w.fs p = some f)
    (hbs : 104 ≤ b.bs) (hpl : b.bs ≤ b.p.length) (hl : off + bucketBytes b.bs ≤ f.cur.length)
    (hroom : countIn (bytesAt f.cur off (bucketBytes b.bs)) ≤ (b.bs - 8) / 18)
    (hQ : ∀ b' w', Quiet w w' → Loaded b' (bytesAt f.cur off (bucketBytes b.bs)) →
      b'.bs = b.bs → b'.p.length = b.p.length → Q b' w') : tot σ (b.readFile p off) Q w := by
  have hbb := bucketBytes_eq hbs
  have hpos : 8 ≤ bucketBytes b.bs ∧ bucketBytes b.bs ≤ b.bs := by unfold bucketBytes; omega
  have hcap : bucketCapacity b.bs = (b.bs - 8) / 18 := by
    unfold bucketCapacity keyHeaderSize
    rw [if_neg (by simp; omega)]
  unfold Bkt.readFile
  apply wp_bind
  rw [← hbb]
  apply tot_fRead hf hl
  have hsl := slice_length_of_le hl
  apply wp_bind
  apply wp_lift_ok (poke_ok (by omega))
  have hml : (put b.p 0 (slice f.cur off (bucketBytes b.bs))).length = b.p.length := put_length (by omega)
  have hpre : bytesAt f.cur off (bucketBytes b.bs) <+: put b.p 0 (slice f.cur off (bucketBytes b.bs)) := by
    simp only [put, List.take_zero, List.nil_append, bytesAt_eq]
    exact List.prefix_append _ _
  obtain ⟨b', h1, h2, h3⟩ := ofMem_any (bs := b.bs) (p := put b.p 0 (slice f.cur off (bucketBytes b.bs))) (by omega)
  apply wp_bind
  apply wp_lift_ok h1
  obtain ⟨_, _, h4, h5⟩ := ofMem_loaded h1 hpre (by rw [bytesAt_eq, hsl]; exact hpos.1)
  rw [if_neg (by omega)]
  apply wp_ret
  refine hQ b' _ (Quiet.tick w) ⟨by rw [h3]; exact hpre, h4, h5, ?_⟩ h2 (by rw [h3]; exact hml)
  rw [bytesAt_eq, hsl]; unfold bucketBytes; omega

theorem mem_itemsIn_iff {blk : Bytes} {e : Entry} : e ∈ itemsIn blk ↔ ∃ i, i < countIn blk ∧ e = itemAt blk i := by
  simp only [itemsIn, List.mem_map, List.mem_range]
  constructor
  · rintro ⟨i, h, rfl⟩; exact ⟨i, h, rfl⟩
  · rintro ⟨i, h, rfl⟩; exact ⟨i, h, rfl⟩

theorem tot_seekValue {h offset : Nat} {Q : Nat → World → Prop} (fuel : Nat) :
    ∀ {b : Bkt} {blk : Bytes} {cs : List Bytes} {fetches : Nat} {w : World}, w.fs .dat = some df → Loaded b blk → 104 ≤ b.bs →
    b.bs ≤ b.p.length → Chained df.cur (bucketBytes b.bs) blk cs → GoodChain b.bs cs → cs.length ≤ fuel →
    (∃ e ∈ cs.flatMap itemsIn, e.offset = offset ∧ e.hash = h) →
    (∀ n w', Quiet w w' → Q n w') → tot σ (seekValue h offset fuel b fetches) Q w := by
  induction fuel with
  | zero =>
    intro b blk cs fetches w hf hb hbs hpl hch hg hfu _ _
    obtain ⟨t, rfl⟩ := hch.head
    simp at hfu
  | succ fuel ih =>
    intro b blk cs fetches w hf hb hbs hpl hch hg hfu he hQ
    obtain ⟨t, ht⟩ := hch.head
    have hgb : GoodBlk b.bs blk := hg blk (by rw [ht]; simp)
    unfold seekValue
    obtain ⟨i, hi, hle, hlo, hhi⟩ := hb.lowerBound hgb.sorted h
    apply wp_bind
    apply wp_lift_ok hi
    obtain ⟨found, f', hs, hfd⟩ := seekEntry_total hb hgb (h := h) (offset := offset) (b.size + 1) i fetches (by have := hb.size; omega) hhi
    apply wp_bind
    apply wp_lift_ok hs
    dsimp only
    cases found with
    | true =>
      rw [if_pos rfl]
      exact wp_ret (hQ _ _ (Quiet.refl _))
    | false =>
      rw [if_neg (by simp)]
      have hno : ¬ ∃ e ∈ itemsIn blk, e.offset = offset ∧ e.hash = h := by
        rintro ⟨e, h1, h2, h3⟩
        obtain ⟨j, hj, rfl⟩ := mem_itemsIn_iff.1 h1
        have hij : i ≤ j := by
          apply Classical.byContradiction
          intro hlt
          have := hlo j (by omega)
          omega
        exact absurd (hfd ⟨j, hij, hj, h3, h2⟩) (by simp)
      cases hch with
      | last h0 =>
        exfalso
        apply hno
        simpa using he
      | @more _ cs' h0 hr hch' =>
        rw [if_neg (by rw [hb.spill]; exact h0)]
        apply wp_bind
        apply tot_shortAs
        obtain ⟨t', ht'⟩ := hch'.head
        have hgb' := hg (bytesAt df.cur (linkIn blk) (bucketBytes b.bs)) (by rw [ht']; simp)
        rw [hb.spill]
        apply tot_readFile hf hbs hpl hr hgb'.room
        intro b' w' hq hld hbs' hpl'
        apply ih (b := b') (blk := bytesAt df.cur (linkIn blk) (bucketBytes b.bs)) (cs := cs') (by rw [hq.fs]; exact hf) hld
          (by omega) (by omega) (by rw [hbs']; exact hch') (by rw [hbs']; exact fun x hx => hg x (by simp [hx]))
          (by simp at hfu; omega)
        · obtain ⟨e, h1, h2⟩ := he
          rw [List.flatMap_cons, List.mem_append] at h1
          rcases h1 with h1 | h1
          · exact absurd ⟨e, h1, h2⟩ hno
          · exact ⟨e, h1, h2⟩
        · intro n w'' hq'
          exact hQ n w'' (hq.trans hq')

theorem tot_seekValueFast {h offset : Nat} {Q : Nat × Bkt → World → Prop} (fuel : Nat) :
    ∀ {b tmp : Bkt} {blk : Bytes} {cs : List Bytes} {fetches : Nat} {w : World}, w.fs .dat = some df → Loaded b blk → 104 ≤ tmp.bs →
    tmp.bs ≤ tmp.p.length → Chained df.cur (bucketBytes tmp.bs) blk cs → GoodChain tmp.bs cs → cs.length ≤ fuel →
    (∃ e ∈ cs.flatMap itemsIn, e.offset = offset ∧ e.hash = h) →
    (∀ n p w', Quiet w w' → p.length = tmp.p.length → Q (n, { tmp with p := p }) w') →
    tot σ (seekValueFast h offset fuel b tmp fetches) Q w := by
  induction fuel with
  | zero =>
    intro b tmp blk cs fetches w hf hb hbs hpl hch hg hfu _ _
    obtain ⟨t, rfl⟩ := hch.head
    simp at hfu
  | succ fuel ih =>
    intro b tmp blk cs fetches w hf hb hbs hpl hch hg hfu he hQ
    obtain ⟨t, ht⟩ := hch.head
    have hgb : GoodBlk tmp.bs blk := hg blk (by rw [ht]; simp)
    unfold seekValueFast
    obtain ⟨i, hi, hle, hlo, hhi⟩ := hb.lowerBound hgb.sorted h
    apply wp_bind
    apply wp_lift_ok hi
    obtain ⟨found, f', hs, hfd⟩ := seekEntry_total hb hgb (h := h) (offset := offset) (b.size + 1) i fetches (by have := hb.size; omega) hhi
    apply wp_bind
    apply wp_lift_ok hs
    dsimp only
    cases found with
    | true =>
      rw [if_pos rfl]
      exact wp_ret (hQ _ tmp.p _ (Quiet.refl _) rfl)
    | false =>
      rw [if_neg (by simp)]
      have hno : ¬ ∃ e ∈ itemsIn blk, e.offset = offset ∧ e.hash = h := by
        rintro ⟨e, h1, h2, h3⟩
        obtain ⟨j, hj, rfl⟩ := mem_itemsIn_iff.1 h1
        have hij : i ≤ j := by
          apply Classical.byContradiction
          intro hlt
          have := hlo j (by omega)
          omega
        exact absurd (hfd ⟨j, hij, hj, h3, h2⟩) (by simp)
      cases hch with
      | last h0 =>
        exfalso
        apply hno
        simpa using he
      | @more _ cs' h0 hr hch' =>
        rw [if_neg (by rw [hb.spill]; exact h0)]
        apply wp_bind
        apply tot_shortAs
        obtain ⟨t', ht'⟩ := hch'.head
        have hgb' := hg (bytesAt df.cur (linkIn blk) (bucketBytes tmp.bs)) (by rw [ht']; simp)
        rw [hb.spill]
        apply tot_readFile hf hbs hpl hr hgb'.room
        intro b' w' hq hld hbs' hpl'
        apply ih (b := b') (tmp := { tmp with p := b'.p }) (blk := bytesAt df.cur (linkIn blk) (bucketBytes tmp.bs)) (cs := cs')
          (by rw [hq.fs]; exact hf) hld (by exact hbs) (by show tmp.bs ≤ b'.p.length; omega) (by exact hch')
          (by exact fun x hx => hg x (by simp [hx])) (by simp at hfu; omega)
        · obtain ⟨e, h1, h2⟩ := he
          rw [List.flatMap_cons, List.mem_append] at h1
          rcases h1 with h1 | h1
          · exact absurd ⟨e, h1, h2⟩ hno
          · exact ⟨e, h1, h2⟩
        · intro n p w'' hq' hp'
          exact hQ n p w'' (hq.trans hq') (hp'.trans hpl')

end

/-- A record of the data file as it appears to `verify_normal`: for overflow records the length
in front of the bucket is compared with the block size, but not used to find the next record. -/
inductive Loose
  | value (k v : Bytes)
  | spill (body : Bytes)

def Loose.bytes (cap : Nat) : Loose → Bytes
  | .value k v => (Record.value k v).bytes
  | .spill body => putU48 0 ++ (putU16 (bucketSize cap) ++ body)

def Loose.Ok (ks cap : Nat) : Loose → Prop
  | .value k v => (Record.value k v).Ok ks
  | .spill body => body.length = 8 + 18 * countIn body ∧ countIn body ≤ cap

def locatedL (cap : Nat) : Nat → List Loose → List (Nat × Bytes)
  | _, [] => []
  | o, .value k v :: ls => (o, k) :: locatedL cap (o + (Record.value k v).bytes.length) ls
  | o, .spill b :: ls => locatedL cap (o + ((Loose.spill b).bytes cap).length) ls

def looseLayout (cap : Nat) (ls : List Loose) : Bytes := ls.flatMap (Loose.bytes cap)

/-- The table is as the library writes it. -/
structure GoodTable (kh : KeyHeader) (D K : Bytes) (T : Nat → List Bytes) : Prop where
  h104 : 104 ≤ kh.blockSize
  bs16 : kh.blockSize < 2 ^ 16
  cap : kh.capacity = bucketCapacity kh.blockSize
  mod : kh.modulus ≤ 2 ^ 32
  len : (kh.buckets + 1) * kh.blockSize ≤ K.length
  chain : ∀ n, n < kh.buckets → Chained D (bucketBytes kh.blockSize) (bytesAt K ((n + 1) * kh.blockSize) (bucketBytes kh.blockSize)) (T n)
  good : ∀ n, n < kh.buckets → GoodChain kh.blockSize (T n)
  fuel : ∀ n, n < kh.buckets → (T n).length ≤ D.length + 2

theorem GoodTable.block {kh : KeyHeader} {D K : Bytes} {T : Nat → List Bytes} (h : GoodTable kh D K T) {n : Nat} (hn : n < kh.buckets) :
    (n + 1) * kh.blockSize + bucketBytes kh.blockSize ≤ K.length ∧
    GoodBlk kh.blockSize (bytesAt K ((n + 1) * kh.blockSize) (bucketBytes kh.blockSize)) := by
  have h1 := h.len
  have h2 : (n + 1 + 1) * kh.blockSize ≤ (kh.buckets + 1) * kh.blockSize := Nat.mul_le_mul_right _ (by omega)
  have h3 := Nat.add_mul (n + 1) 1 kh.blockSize
  have h4 := h.h104
  have h5 : bucketBytes kh.blockSize ≤ kh.blockSize := by unfold bucketBytes; omega
  obtain ⟨t, ht⟩ := (h.chain n hn).head
  exact ⟨by omega, h.good n hn _ (by rw [ht]; simp)⟩

/-- Each value record has an item in the bucket it belongs to. -/
def Indexed (c : Cfg) (kh : KeyHeader) (T : Nat → List Bytes) (l : List (Nat × Bytes)) : Prop :=
  ∀ x ∈ l, homeOf c kh x.2 < kh.buckets ∧
    ∃ e ∈ (T (homeOf c kh x.2)).flatMap itemsIn, e.offset = x.1 ∧ e.hash = hashKey c.H kh.salt x.2

section
variable {σ : Schedule} {c : Cfg} {kh : KeyHeader} {df kf : FileSt} {nwork : Nat} {T : Nat → List Bytes}

theorem tot_normal_value {pre k v post : Bytes} {b : Bkt} {r : Reader} {work : Nat} {info : Info} {w : World}
    {Q : Bkt × Reader × Nat × Info → World → Prop} (hT : GoodTable kh df.cur kf.cur T)
    (hD : df.cur = pre ++ ((Record.value k v).bytes ++ post))
    (hok : (Record.value k v).Ok kh.keySize) (hf : w.fs .dat = some df) (hk : w.fs .key = some kf)
    (hs : ScanAt kh df b r pre.length) (hi : Indexed c kh T [(pre.length, k)])
    (hQ : ∀ b' r' w' work' info', ScanAt kh df b' r' (pre ++ (Record.value k v).bytes).length → w'.fs = w.fs →
      Q (b', r', work', info') w') :
    tot σ (normalStep c kh nwork b r work info) Q w := by
  have h104 := hT.h104
  obtain ⟨hkl, hv1, hv2⟩ := hok
  have hlen := congrArg List.length hD
  rw [value_record] at hlen
  simp only [List.length_append, putU48_length] at hlen
  unfold normalStep
  dsimp only
  have a3 := hs.pos
  have a0 := hs.last
  apply wp_bind
  apply tot_prepare (f := df) (by rw [hs.path]; exact hf) hs.inv (by omega)
  intro r1 w1 n1 q1
  have a1 := n1.pos
  have a1' := n1.last
  apply wp_bind
  rw [hs.pos]
  have e1 : slice df.cur pre.length 6 = putU48 v.length := by
    rw [hD, value_record, List.append_assoc]
    exact slice_mid' rfl (by simp)
  rw [e1]
  apply wp_lift_ok (getSize48_ok hv2)
  dsimp only
  rw [if_pos (by omega)]
  apply wp_bind
  apply tot_prepare (f := df) (by rw [n1.path, hs.path, q1.fs]; exact hf) n1.inv (by omega)
  intro r2 w2 n2 q2
  have a2 := n2.pos
  have e2 : (slice df.cur r1.pos (kh.keySize + v.length)).take kh.keySize = k := by
    rw [n1.pos, hs.pos, hD, value_record]
    rw [show pre ++ (putU48 v.length ++ (k ++ v) ++ post) = (pre ++ putU48 v.length) ++ ((k ++ v) ++ post) by simp,
      slice_mid' (by simp) (by simp [hkl]), ← hkl]
    simp
  rw [e2]
  obtain ⟨hlt, hit⟩ := hi _ (List.mem_singleton.2 rfl)
  dsimp only at hlt hit
  apply wp_bind
  apply wp_lift_ok (bucketIndexA_ok hT.mod)
  obtain ⟨b1, b2⟩ := hT.block hlt
  have hpl := hs.plen
  apply wp_bind
  apply tot_readFile (f := kf) (by rw [q2.fs, q1.fs]; exact hk) (by rw [hs.bs]; exact h104) (by rw [hs.bs]; omega)
    (by rw [hs.bs]; exact b1) (by rw [hs.bs]; exact b2.room)
  intro b' w3 q3 hld hbs' hpl'
  rw [hs.bs] at hld hbs'
  dsimp only
  apply wp_bind
  apply tot_lookupFuel (f := df) (by rw [q3.fs, q2.fs, q1.fs]; exact hf)
  apply wp_bind
  apply tot_seekValue (df := df) (cs := T (homeOf c kh k)) _ (by rw [q3.fs, q2.fs, q1.fs]; exact hf) hld (by rw [hbs']; exact h104)
    (by omega) (by rw [hbs']; exact hT.chain _ hlt) (by rw [hbs']; exact hT.good _ hlt) (hT.fuel _ hlt) hit
  intro f w4 q4
  apply wp_bind
  apply wp_emit
  apply wp_ret
  refine hQ b' r2 _ _ _ ⟨hbs', hpl'.trans hs.plen, n2.inv, n2.path.trans (n1.path.trans hs.path),
    n2.last.trans (n1.last.trans hs.last), ?_⟩ ?_
  · rw [List.length_append, value_record]; simp only [List.length_append, putU48_length]; omega
  · show w4.fs = _; rw [q4.fs, q3.fs, q2.fs, q1.fs]

theorem update_any {b : Bkt} (h1 : b.size ≤ 0xffff) (h2 : b.spill ≤ 0xffffffffffff) (h3 : 8 ≤ b.p.length) :
    ∃ p, b.update = .ok { b with p := p } ∧ p.length = b.p.length := by
  refine ⟨put b.p 0 (putU16 b.size ++ putU48 b.spill), ?_, put_length (by simp; omega)⟩
  unfold Bkt.update
  rw [assert_ok (by simpa using h1), assert_ok (by simpa using h2), poke_ok (by simp; omega)]
  rfl

theorem tot_normal_spill {pre body post : Bytes} {b : Bkt} {r : Reader} {work : Nat} {info : Info} {w : World}
    {Q : Bkt × Reader × Nat × Info → World → Prop} (hT : GoodTable kh df.cur kf.cur T)
    (hD : df.cur = pre ++ ((Loose.spill body).bytes kh.capacity ++ post))
    (hok : (Loose.spill body).Ok kh.keySize kh.capacity) (hf : w.fs .dat = some df)
    (hs : ScanAt kh df b r pre.length)
    (hQ : ∀ b' r' w' work' info', ScanAt kh df b' r' (pre ++ (Loose.spill body).bytes kh.capacity).length → w'.fs = w.fs →
      Q (b', r', work', info') w') :
    tot σ (normalStep c kh nwork b r work info) Q w := by
  have h104 := hT.h104
  have hbs16 := hT.bs16
  obtain ⟨ht, hcap⟩ := hok
  have hcv : kh.capacity = (kh.blockSize - 8) / 18 := by
    rw [hT.cap]
    unfold bucketCapacity keyHeaderSize
    rw [if_neg (by simp; omega)]
  have hbsz : bucketSize kh.capacity < 2 ^ 16 := by unfold bucketSize; omega
  have hD' : df.cur = (pre ++ (putU48 0 ++ putU16 (bucketSize kh.capacity))) ++ (body ++ post) := by
    rw [hD, Loose.bytes]; simp
  have hlen := congrArg List.length hD'
  simp only [List.length_append, putU48_length, putU16_length] at hlen
  have a3 := hs.pos
  have a0 := hs.last
  unfold normalStep
  dsimp only
  apply wp_bind
  apply tot_prepare (f := df) (by rw [hs.path]; exact hf) hs.inv (by omega)
  intro r1 w1 n1 q1
  have a1 := n1.pos
  have a1' := n1.last
  apply wp_bind
  rw [hs.pos]
  have e1 : slice df.cur pre.length 6 = putU48 0 := by
    rw [hD, Loose.bytes, List.append_assoc]
    exact slice_mid' rfl (by simp)
  rw [e1]
  apply wp_lift_ok (getSize48_ok (by omega))
  dsimp only
  rw [if_neg (by omega)]
  apply wp_bind
  apply tot_shortAs
  apply tot_prepare (f := df) (by rw [n1.path, hs.path, q1.fs]; exact hf) n1.inv (by omega)
  intro r2 w2 n2 q2
  have a2 := n2.pos
  have a2' := n2.last
  have e2 : slice df.cur r1.pos 2 = putU16 (bucketSize kh.capacity) := by
    rw [a1, a3, hD, Loose.bytes]
    rw [show pre ++ (putU48 0 ++ (putU16 (bucketSize kh.capacity) ++ body) ++ post) =
      (pre ++ putU48 0) ++ (putU16 (bucketSize kh.capacity) ++ (body ++ post)) by simp]
    exact slice_mid' (by simp) (by simp)
  rw [e2, getU16_putU16 hbsz]
  rw [if_neg (by simp)]
  apply wp_bind
  apply tot_shortAs
  unfold Bkt.readBulk
  apply wp_bind
  unfold Bkt.readHead
  apply wp_bind
  apply tot_prepare (f := df) (by rw [n2.path, n1.path, hs.path, q2.fs, q1.fs]; exact hf) n2.inv (by omega)
  intro r3 w3 n3 q3
  have a4 := n3.pos
  have a4' := n3.last
  have hl8 : r2.pos = (pre ++ (putU48 0 ++ putU16 (bucketSize kh.capacity))).length := by
    simp only [List.length_append, putU48_length, putU16_length]; omega
  have e3 : slice df.cur r2.pos 8 = slice body 0 8 := by
    rw [hl8, hD', slice_append_right (Nat.le_refl _), Nat.sub_self, slice_append_left (by omega)]
  have hc : getU16 (slice (slice body 0 8) 0 2) = countIn body := by
    rw [slice_slice (by omega), C18_u16.reads _ (slice_length_of_le (by omega))]; rfl
  have hsp : getU48 (slice (slice body 0 8) 2 6) < 2 ^ 48 := by
    rw [slice_slice (by omega)]
    exact getU48_lt (slice_length_of_le (by omega))
  have hpl := hs.plen
  rw [e3]
  dsimp only
  rw [hc]
  obtain ⟨p1, hu, hp1⟩ := update_any (b := { b with size := countIn body, spill := getU48 (slice (slice body 0 8) 2 6) })
    (by show countIn body ≤ 0xffff; omega) (by show getU48 _ ≤ 0xffffffffffff; omega) (by show 8 ≤ b.p.length; omega)
  dsimp only at hp1
  apply wp_bind
  apply wp_lift_ok hu
  apply wp_ret
  dsimp only
  unfold Bkt.readBody
  apply wp_bind
  apply tot_prepare (f := df) (by rw [n3.path, n2.path, n1.path, hs.path, q3.fs, q2.fs, q1.fs]; exact hf) n3.inv (by dsimp only; omega)
  intro r4 w4 n4 q4
  have a5 := n4.pos
  dsimp only at a5 ⊢
  apply wp_bind
  have hb4 : (slice df.cur r3.pos (countIn body * 18)).length = countIn body * 18 := slice_length_of_le (by omega)
  have hpk : 8 + (slice df.cur r3.pos (countIn body * 18)).length ≤ p1.length := by omega
  apply wp_lift_ok (poke_ok hpk)
  apply wp_ret
  dsimp only
  apply wp_bind
  apply wp_emit
  apply wp_ret
  refine hQ _ r4 _ _ _ ⟨hs.bs, (put_length hpk).trans (hp1.trans hs.plen), n4.inv, n4.path.trans (n3.path.trans (n2.path.trans (n1.path.trans hs.path))),
    n4.last.trans (n3.last.trans (n2.last.trans (n1.last.trans hs.last))), ?_⟩ ?_
  · rw [List.length_append, Loose.bytes]; simp only [List.length_append, putU48_length, putU16_length]; omega
  · show w4.fs = _; rw [q4.fs, q3.fs, q2.fs, q1.fs]

theorem loose_pos (cap : Nat) (l : Loose) : 6 ≤ (l.bytes cap).length := by
  cases l with
  | value k v => exact record_pos (.value k v)
  | spill b => simp [Loose.bytes]

theorem locatedL_cons (cap o : Nat) (x : Loose) (ls : List Loose) :
    ∃ a, locatedL cap o (x :: ls) = a ++ locatedL cap (o + (x.bytes cap).length) ls ∧ ∀ k v, x = .value k v → a = [(o, k)] := by
  cases x with
  | value k v => exact ⟨[(o, k)], rfl, by rintro k' v' h; cases h; rfl⟩
  | spill b => exact ⟨[], by simp [locatedL], by intro k v h; cases h⟩

theorem tot_normalScan {Q : Bkt × Nat × Info → World → Prop} (hT : GoodTable kh df.cur kf.cur T) (ls : List Loose) :
    ∀ {pre : Bytes} {fuel : Nat} {b : Bkt} {r : Reader} {work : Nat} {info : Info} {w : World},
    df.cur = pre ++ looseLayout kh.capacity ls → (∀ x ∈ ls, x.Ok kh.keySize kh.capacity) →
    Indexed c kh T (locatedL kh.capacity pre.length ls) → ls.length < fuel →
    w.fs .dat = some df → w.fs .key = some kf → ScanAt kh df b r pre.length →
    (∀ b' work' info' w', b'.bs = kh.blockSize → b'.p.length = kh.blockSize + (6 + kh.keySize) → w'.fs = w.fs → Q (b', work', info') w') →
    tot σ (normalScan c kh nwork fuel b r work info) Q w := by
  induction ls with
  | nil =>
    intro pre fuel b r work info w hD hok hi hfu hf hk hs hQ
    cases fuel with
    | zero => simp at hfu
    | succ fuel =>
      unfold normalScan
      rw [if_pos]
      · exact wp_ret (hQ _ _ _ _ hs.bs hs.plen rfl)
      · unfold Reader.eof
        rw [hs.pos, hs.last, hD]
        simp [looseLayout]
  | cons x ls ih =>
    intro pre fuel b r work info w hD hok hi hfu hf hk hs hQ
    cases fuel with
    | zero => simp at hfu
    | succ fuel =>
      have hD1 : df.cur = pre ++ (x.bytes kh.capacity ++ looseLayout kh.capacity ls) := by
        rw [hD]; simp [looseLayout]
      have hD2 : df.cur = (pre ++ x.bytes kh.capacity) ++ looseLayout kh.capacity ls := by rw [hD1, List.append_assoc]
      have hp := loose_pos kh.capacity x
      obtain ⟨a, ha, hav⟩ := locatedL_cons kh.capacity pre.length x ls
      rw [ha] at hi
      have hi2 : Indexed c kh T (locatedL kh.capacity (pre ++ x.bytes kh.capacity).length ls) := by
        rw [List.length_append]
        exact fun y hy => hi y (List.mem_append_right _ hy)
      unfold normalScan
      rw [if_neg]
      · apply wp_bind
        cases x with
        | value k v =>
          rw [hav k v rfl] at hi
          apply tot_normal_value hT hD1 (hok (.value k v) (by simp)) hf hk hs (fun y hy => hi y (List.mem_append_left _ hy))
          intro b' r' w' work' info' hs' hfs
          apply ih hD2 (fun y hy => hok y (by simp [hy])) hi2 (by simp at hfu; omega) (by rw [hfs]; exact hf) (by rw [hfs]; exact hk) hs'
          intro b2 work2 info2 w2 h1 h2 h3
          exact hQ _ _ _ _ h1 h2 (h3.trans hfs)
        | spill body =>
          apply tot_normal_spill hT hD1 (hok _ (by simp)) hf hs
          intro b' r' w' work' info' hs' hfs
          apply ih hD2 (fun y hy => hok y (by simp [hy])) hi2 (by simp at hfu; omega) (by rw [hfs]; exact hf) (by rw [hfs]; exact hk) hs'
          intro b2 work2 info2 w2 h1 h2 h3
          exact hQ _ _ _ _ h1 h2 (h3.trans hfs)
      · unfold Reader.eof
        rw [hs.pos, hs.last, hD1]
        simp only [List.length_append, decide_eq_true_eq]
        omega

theorem tot_normalEntries {b : Bkt} {blk : Bytes} {bs : Nat} {spill : Bool} {Q : Nat → World → Prop} (hb : Loaded b blk) (hg : GoodBlk bs blk)
    (hl : ∀ e ∈ itemsIn blk, Looks c.H kh.salt kh.keySize df.cur e)
    (fuel : Nat) : ∀ {i work : Nat} {w : World}, w.fs .dat = some df → b.size - i < fuel →
    (∀ n w', Quiet w w' → Q n w') → tot σ (normalEntries c kh b spill fuel i work) Q w := by
  induction fuel with
  | zero => intro i work w _ h; omega
  | succ fuel ih =>
    intro i work w hf hi hQ
    unfold normalEntries
    split
    · rename_i hlt
      have hc : i < countIn blk := by rw [← hb.size]; exact hlt
      have hlk := hl _ (mem_itemsIn hc)
      apply wp_bind
      apply wp_lift_ok (hb.get_ok hlt (hg.sizes i hc))
      apply wp_bind
      apply tot_shortAs
      have hr := hlk.range
      apply tot_fRead hf (by omega)
      dsimp only
      rw [slice_slice (by omega), slice_slice (by omega), C18_u48.reads _ (slice_length_of_le (by omega))]
      have h1 := hlk.size
      have h2 := hlk.hash
      rw [bytesAt_eq] at h1 h2
      rw [if_neg (by simpa using h1), if_neg (by rw [hashKey_eq]; simpa using h2)]
      apply ih (by exact hf) (by omega)
      intro n w' hq
      exact hQ n w' ((Quiet.tick w).trans hq)
    · exact wp_ret (hQ _ _ (Quiet.refl w))

theorem tot_normalChain {Q : Bkt × Nat × Nat × Info → World → Prop} (h104 : 104 ≤ kh.blockSize) (fuel : Nat) :
    ∀ {b : Bkt} {blk : Bytes} {cs : List Bytes} {spill : Bool} {work nspill : Nat} {info : Info} {w : World}, w.fs .dat = some df →
    Loaded b blk → b.bs = kh.blockSize → b.bs ≤ b.p.length → Chained df.cur (bucketBytes kh.blockSize) blk cs → GoodChain kh.blockSize cs →
    (∀ e ∈ cs.flatMap itemsIn, Looks c.H kh.salt kh.keySize df.cur e) → cs.length ≤ fuel →
    (∀ b' n1 n2 info' w', Quiet w w' → b'.bs = kh.blockSize → b'.p.length = b.p.length → Q (b', n1, n2, info') w') →
    tot σ (normalChain c kh fuel b spill work nspill info) Q w := by
  induction fuel with
  | zero =>
    intro b blk cs spill work nspill info w hf hb hbs hpl hch hg hl hfu hQ
    obtain ⟨t, rfl⟩ := hch.head
    simp at hfu
  | succ fuel ih =>
    intro b blk cs spill work nspill info w hf hb hbs hpl hch hg hl hfu hQ
    obtain ⟨t, ht⟩ := hch.head
    have hgb : GoodBlk kh.blockSize blk := hg blk (by rw [ht]; simp)
    unfold normalChain
    dsimp only
    apply wp_bind
    apply tot_normalEntries hb hgb (fun e he => hl e (by rw [ht, List.flatMap_cons]; exact List.mem_append_left _ he)) _ hf (by omega)
    intro wk w1 q1
    cases hch with
    | last h0 =>
      rw [if_pos (by rw [hb.spill]; exact h0)]
      exact wp_ret (hQ _ _ _ _ _ q1 hbs rfl)
    | @more _ cs' h0 hr hch' =>
      rw [if_neg (by rw [hb.spill]; exact h0)]
      obtain ⟨t', ht'⟩ := hch'.head
      have hgb' := hg (bytesAt df.cur (linkIn blk) (bucketBytes kh.blockSize)) (by rw [ht']; simp)
      apply wp_bind
      rw [hb.spill]
      apply tot_readFile (f := df) (by rw [q1.fs]; exact hf) (by rw [hbs]; exact h104) hpl (by rw [hbs]; exact hr) (by rw [hbs]; exact hgb'.room)
      intro b2 w2 q2 hld hbs2 hpl2
      rw [hbs] at hld
      apply ih (cs := cs') (by rw [q2.fs, q1.fs]; exact hf) hld (hbs2.trans hbs) (by omega) hch' (fun x hx => hg x (by simp [hx]))
        (fun e he => hl e (by rw [List.flatMap_cons]; exact List.mem_append_right _ he)) (by simp at hfu; omega)
      intro b' n1 n2 info' w' q' h1 h2
      exact hQ _ _ _ _ _ (q1.trans (q2.trans q')) h1 (h2.trans hpl2)

theorem tot_normalBuckets {Q : Info → World → Prop} (hT : GoodTable kh df.cur kf.cur T)
    (hl : ∀ n, n < kh.buckets → ∀ e ∈ (T n).flatMap itemsIn, Looks c.H kh.salt kh.keySize df.cur e) (k : Nat) :
    ∀ {n work : Nat} {b : Bkt} {info : Info} {w : World}, n + k ≤ kh.buckets → w.fs .dat = some df → w.fs .key = some kf →
    b.bs = kh.blockSize → b.bs ≤ b.p.length →
    (∀ info' w', w'.fs = w.fs → Q info' w') → tot σ (normalBuckets c kh nwork k n b work info) Q w := by
  induction k with
  | zero =>
    intro n work b info w hn hf hk hb hpl hQ
    unfold normalBuckets
    exact wp_ret (hQ _ w rfl)
  | succ k ih =>
    intro n work b info w hn hf hk hb hpl hQ
    have h104 := hT.h104
    obtain ⟨b1, b2⟩ := hT.block (n := n) (by omega)
    unfold normalBuckets
    apply wp_bind
    apply tot_readFile (f := kf) hk (by rw [hb]; exact h104) hpl (by rw [hb]; exact b1) (by rw [hb]; exact b2.room)
    intro b1 w1 q1 hld hbs1 hpl1
    rw [hb] at hld hbs1
    apply wp_bind
    apply tot_lookupFuel (f := df) (by rw [q1.fs]; exact hf)
    apply wp_bind
    apply tot_normalChain (cs := T n) h104 _ (by rw [q1.fs]; exact hf) hld hbs1 (by omega) (hT.chain n (by omega)) (hT.good n (by omega))
      (hl n (by omega)) (hT.fuel n (by omega))
    intro b' n1 n2 info' w' q' hbs' hpl'
    dsimp only
    apply wp_bind
    apply wp_emit
    apply ih (by omega) (by show w'.fs _ = _; rw [q'.fs, q1.fs]; exact hf) (by show w'.fs _ = _; rw [q'.fs, q1.fs]; exact hk) hbs' (by omega)
    intro info'' w'' hfs
    apply hQ
    rw [hfs]; show w'.fs = _; rw [q'.fs, q1.fs]

theorem looseLayout_len (cap : Nat) (ls : List Loose) : ls.length ≤ (looseLayout cap ls).length := by
  induction ls with
  | nil => simp
  | cons x ls ih =>
    have := loose_pos cap x
    rw [show looseLayout cap (x :: ls) = x.bytes cap ++ looseLayout cap ls by simp [looseLayout], List.length_append, List.length_cons]
    omega

theorem tot_verifyNormal {Q : Info → World → Prop} {w : World} {ls : List Loose} (h92 : 92 ≤ df.cur.length) (hT : GoodTable kh df.cur kf.cur T)
    (hl : ∀ n, n < kh.buckets → ∀ e ∈ (T n).flatMap itemsIn, Looks c.H kh.salt kh.keySize df.cur e)
    (hD : df.cur = df.cur.take 92 ++ looseLayout kh.capacity ls) (hok : ∀ x ∈ ls, x.Ok kh.keySize kh.capacity)
    (hi : Indexed c kh T (locatedL kh.capacity 92 ls)) (hf : w.fs .dat = some df) (hk : w.fs .key = some kf)
    (hQ : ∀ info w', w'.fs = w.fs → Q info w') :
    tot σ (verifyNormal c kh df.cur.length kf.cur.length) Q w := by
  have hp92 : (df.cur.take 92).length = 92 := by simp; omega
  have h104 := hT.h104
  have hlen := looseLayout_len kh.capacity ls
  have hlen2 := congrArg List.length hD
  rw [List.length_append, hp92] at hlen2
  unfold verifyNormal
  apply wp_bind
  apply wp_emit
  have hfl : (c.fresh (kh.blockSize + (6 + kh.keySize))).length = kh.blockSize + (6 + kh.keySize) := by simp [Cfg.fresh]
  obtain ⟨b, h1, h2, h3⟩ := ofMem_any (bs := kh.blockSize) (p := c.fresh (kh.blockSize + (6 + kh.keySize))) (by omega)
  apply wp_bind
  apply wp_lift_ok h1
  apply wp_bind
  apply tot_normalScan (pre := df.cur.take 92) hT ls hD hok (by rw [hp92]; exact hi) (by omega) (by exact hf) (by exact hk)
  · rw [hp92]
    exact ⟨h2, by rw [h3, hfl], rinv_new c _ (Nat.le_refl _) h92, rfl, rfl, rfl⟩
  intro b' work info w1 hbs hpl hfs
  dsimp only
  apply tot_normalBuckets hT hl _ (by omega) (by rw [hfs]; exact hf) (by rw [hfs]; exact hk) hbs (by omega)
  intro info' w' hfs'
  exact hQ _ _ (hfs'.trans hfs)

end

end NuDB
