import Verif.Spec.Cost
import Verif.Props.Conform
/-
C73: lookups need few file operations.
-/
namespace NuDB

open Spec

section
variable {σ : Schedule} {α β : Type}

/-- At most `n` more operations than in `w`, no file changed. -/
private def Within (w : World) (n : Nat) (w' : World) : Prop := w'.fs = w.fs ∧ w'.clock ≤ w.clock + n

/-- `Reads`, and the result satisfies `Q`. -/
private def spend (σ : Schedule) (m : M α) (n : Nat) (Q : α → Prop) (w : World) : Prop :=
  wp σ m (fun a w' => Within w n w' ∧ Q a) (fun _ w' => Within w n w') w

private theorem Within.refl {w : World} {n : Nat} : Within w n w := ⟨rfl, Nat.le_add_right _ _⟩

private theorem Within.trans {a b c : World} {m n k : Nat} (h : Within a m b) (h' : Within b n c) (hk : m + n ≤ k) : Within a k c := by
  have h1 := h.2
  have h2 := h'.2
  exact ⟨h'.1.trans h.1, by omega⟩

private theorem spend_reads {m : M α} {n : Nat} {Q : α → Prop} {w : World} (h : spend σ m n Q w) : Reads σ w m n := by
  unfold spend wp at h
  unfold Reads
  split at h
  · rename_i e; rw [e]; exact h.1
  · rename_i e; rw [e]; exact h

private theorem spend_ret {a : α} {n : Nat} {Q : α → Prop} {w : World} (h : Q a) : spend σ (M.ret a) n Q w := wp_ret ⟨.refl, h⟩

private theorem spend_fail {e : Err} {n : Nat} {Q : α → Prop} {w : World} : spend σ (M.fail e) n Q w := wp_fail .refl

private theorem spend_raise {x : Exc} {n : Nat} {Q : α → Prop} {w : World} : spend σ (M.raise x) n Q w := wp_raise .refl

private theorem spend_lift {r : Res α} {Q : α → Prop} {w : World} (h : ∀ a, r = .ok a → Q a) : spend σ (M.lift r) 0 Q w := by
  cases e : r with
  | ok a => exact wp_lift_ok rfl ⟨.refl, h a e⟩
  | error x => exact wp_lift_error rfl .refl

private theorem spend_bind {m : M α} {k : α → M β} {i j n : Nat} {Q : α → Prop} {R : β → Prop} {w : World} (hn : i + j ≤ n)
    (h : spend σ m i Q w) (hk : ∀ a w', w'.fs = w.fs → Q a → spend σ (k a) j R w') : spend σ (m >>= k) n R w := by
  refine wp_bind (wp_conseq h (fun a w' ha => ?_) (fun x w' hx => ⟨hx.1, by have := hx.2; omega⟩))
  exact wp_conseq (hk a w' ha.1.1 ha.2) (fun b w'' hb => ⟨ha.1.trans hb.1 hn, hb.2⟩) (fun x w'' hx => ha.1.trans hx hn)

private theorem spend_fRead {p : Path} {o n : Nat} {Q : Bytes → Prop} {w : World}
    (h : ∀ f, w.fs p = some f → n = 0 ∨ o + n ≤ f.cur.length → Q (slice f.cur o n)) : spend σ (fRead p o n) 1 Q w := by
  unfold spend fRead wp fileOp
  cases σ w.clock with
  | none =>
    dsimp only
    cases e : w.fs p with
    | none => exact ⟨rfl, Nat.le_refl _⟩
    | some f =>
      dsimp only
      by_cases hl : n = 0 ∨ o + n ≤ f.cur.length
      · rw [if_pos hl]; exact ⟨⟨rfl, Nat.le_refl _⟩, h f e hl⟩
      · rw [if_neg hl]; exact ⟨rfl, Nat.le_refl _⟩
  | fail k => exact ⟨rfl, Nat.le_refl _⟩
  | crash k => exact ⟨rfl, Nat.le_refl _⟩

private theorem spend_readFile {b : Bkt} {p : Path} {off : Nat} {w : World} (hbs : 104 ≤ b.bs) :
    spend σ (b.readFile p off) 1
      (fun b' => b'.bs = b.bs ∧ ∃ f, w.fs p = some f ∧ Loaded b' (bytesAt f.cur off (bucketBytes b.bs))) w := by
  have hbb := bucketBytes_eq hbs
  have hpos : 8 ≤ bucketBytes b.bs := by unfold bucketBytes; omega
  unfold Bkt.readFile
  dsimp only
  rw [← hbb]
  refine spend_bind (i := 1) (j := 0) (by omega) (spend_fRead (Q := fun d => ∃ f, w.fs p = some f ∧ off + bucketBytes b.bs ≤ f.cur.length ∧
    d = slice f.cur off (bucketBytes b.bs)) (fun f hf hl => ⟨f, hf, by omega, rfl⟩)) ?_
  rintro d w1 e1 ⟨f, hf, hl, rfl⟩
  have hsl := slice_length_of_le hl
  refine spend_bind (i := 0) (j := 0) (by omega) (spend_lift (Q := fun mem => bytesAt f.cur off (bucketBytes b.bs) <+: mem) ?_) ?_
  · intro mem hm
    unfold poke at hm
    split at hm
    · injection hm with hm
      rw [← hm]
      simp only [put, List.take_zero, List.nil_append, bytesAt_eq]
      exact List.prefix_append _ _
    · simp at hm
  intro mem w2 e2 hmem
  refine spend_bind (i := 0) (j := 0) (by omega) (spend_lift (Q := fun b' => Bkt.ofMem b.bs mem = .ok b') (fun _ h => h)) ?_
  intro b' w3 e3 hb'
  obtain ⟨h1, h2, h3, h4⟩ := ofMem_loaded hb' hmem (by rw [bytesAt_eq, hsl]; exact hpos)
  split
  · exact spend_fail
  · rename_i hc
    have hcap : bucketCapacity b.bs = (b.bs - 8) / 18 := by
      unfold bucketCapacity keyHeaderSize
      rw [if_neg (by simp; omega)]
    refine spend_ret ⟨h1, f, hf, by rw [h2]; exact hmem, h3, h4, ?_⟩
    rw [bytesAt_eq, hsl]; unfold bucketBytes; omega

/-- The items with hash `h` from position `i` on. -/
private def matching (h : Nat) (blk : Bytes) (i : Nat) : Nat := ((itemsIn blk).drop i).countP (fun e => e.hash = h)

private theorem matching_succ {h i : Nat} {blk : Bytes} (hi : i < countIn blk) (hh : (itemAt blk i).hash = h) :
    matching h blk i = matching h blk (i + 1) + 1 := by
  unfold matching
  have hl : i < (itemsIn blk).length := by simpa [itemsIn] using hi
  rw [List.drop_eq_getElem_cons hl, List.countP_cons_of_pos]
  simp [itemsIn, hh]

private theorem matching_le {h i : Nat} {blk : Bytes} : matching h blk i ≤ (itemsIn blk).countP (fun e => e.hash = h) :=
  List.Sublist.countP_le (List.drop_sublist _ _)

private theorem spend_fetchScan {ks h : Nat} {key : Bytes} {b : Bkt} {blk : Bytes} (hb : Loaded b blk) : ∀ (fuel i : Nat) (w : World),
    spend σ (fetchScan ks h key b fuel i) (matching h blk i) (fun _ => True) w
  | 0, i, w => spend_raise
  | fuel + 1, i, w => by
    unfold fetchScan
    split
    · rename_i hi
      refine spend_bind (i := 0) (j := matching h blk i) (by omega) (spend_lift (Q := fun e => b.get i = .ok e) (fun _ h => h)) ?_
      intro e w1 _ he
      have he := hb.get hi he
      split
      · exact spend_ret trivial
      · rename_i hh
        simp only [ne_eq, Decidable.not_not] at hh
        have := matching_succ (h := h) (i := i) (blk := blk) (by rw [← hb.size]; exact hi) (by rw [← he]; exact hh)
        refine spend_bind (i := 1) (j := matching h blk (i + 1)) (by omega) (spend_fRead (Q := fun _ => True) (fun _ _ _ => trivial)) ?_
        intro d w2 _ _
        split
        · exact spend_ret trivial
        · exact spend_fetchScan hb fuel (i + 1) w2
    · exact spend_ret trivial

private theorem spend_existsScan {ks h : Nat} {key : Bytes} {b : Bkt} {blk : Bytes} (hb : Loaded b blk) : ∀ (fuel i : Nat) (w : World),
    spend σ (existsScan ks h key b fuel i) (matching h blk i) (fun _ => True) w
  | 0, i, w => spend_raise
  | fuel + 1, i, w => by
    unfold existsScan
    split
    · rename_i hi
      refine spend_bind (i := 0) (j := matching h blk i) (by omega) (spend_lift (Q := fun e => b.get i = .ok e) (fun _ h => h)) ?_
      intro e w1 _ he
      have he := hb.get hi he
      split
      · exact spend_ret trivial
      · rename_i hh
        simp only [ne_eq, Decidable.not_not] at hh
        have := matching_succ (h := h) (i := i) (blk := blk) (by rw [← hb.size]; exact hi) (by rw [← he]; exact hh)
        refine spend_bind (i := 1) (j := matching h blk (i + 1)) (by omega) (spend_fRead (Q := fun _ => True) (fun _ _ _ => trivial)) ?_
        intro d w2 _ _
        split
        · exact spend_ret trivial
        · exact spend_existsScan hb fuel (i + 1) w2
    · exact spend_ret trivial

/-- Items with hash `h` in a chain. -/
private def inChain (h : Nat) (bs : List Bytes) : Nat := (bs.flatMap itemsIn).countP (fun e => e.hash = h)

private theorem inChain_cons {h : Nat} {b : Bytes} {bs : List Bytes} :
    inChain h (b :: bs) = (itemsIn b).countP (fun e => e.hash = h) + inChain h bs := by
  unfold inChain
  rw [List.flatMap_cons, List.countP_append]

private theorem spend_ofMem {bs : Nat} {p : Bytes} {w : World} : spend σ (M.lift (Bkt.ofMem bs p)) 0 (fun b => b.bs = bs) w := by
  refine spend_lift fun b hb => ?_
  unfold Bkt.ofMem at hb
  simp only [bind, Except.bind, pure, Except.pure] at hb
  split at hb
  · cases hb
  · split at hb
    · cases hb
    · cases hb; rfl

private theorem spend_fetchBucket {c : Cfg} {kh : KeyHeader} {h : Nat} {key : Bytes} {f : FileSt} (h104 : 104 ≤ kh.blockSize) :
    ∀ (fuel : Nat) (b : Bkt) (blk : Bytes) (bs : List Bytes) (w : World), w.fs .dat = some f → Loaded b blk →
    Chained f.cur (bucketBytes kh.blockSize) blk bs →
    spend σ (fetchBucket c kh h key fuel b) (bs.length - 1 + inChain h bs) (fun _ => True) w
  | 0, b, blk, bs, w, _, _, _ => spend_raise
  | fuel + 1, b, blk, bs, w, hf, hb, hch => by
    obtain ⟨t, rfl⟩ := hch.head
    rw [inChain_cons]
    unfold fetchBucket
    refine spend_bind (i := 0) (j := t.length + ((itemsIn blk).countP (fun e => e.hash = h) + inChain h t)) (by simp)
      (spend_lift (Q := fun _ => True) (fun _ _ => trivial)) ?_
    intro i w1 e1 _
    refine spend_bind (i := (itemsIn blk).countP (fun e => e.hash = h)) (j := t.length + inChain h t) (by omega) (Q := fun _ => True) ?_ ?_
    · exact wp_conseq (spend_fetchScan hb _ i w1) (fun a w' ha => ⟨⟨ha.1.1, Nat.le_trans ha.1.2 (Nat.add_le_add_left matching_le _)⟩, ha.2⟩)
        (fun x w' hx => ⟨hx.1, Nat.le_trans hx.2 (Nat.add_le_add_left matching_le _)⟩)
    · intro r w2 e2 _
      cases r with
      | some v => exact spend_ret trivial
      | none =>
        dsimp only
        split
        · exact spend_fail
        · rename_i h0
          cases hch with
          | last h => exact absurd (hb.spill.trans h) h0
          | more _ _ ht =>
            obtain ⟨t', ht'⟩ := ht.head
            subst ht'
            generalize hx : bytesAt f.cur (linkIn blk) (bucketBytes kh.blockSize) = x at ht
            refine spend_bind (i := 0) (j := t'.length + 1 + inChain h (x :: t')) (by simp) spend_ofMem ?_
            intro nb w3 e3 hnb
            refine spend_bind (i := 1) (j := t'.length + inChain h (x :: t')) (by omega) (spend_readFile (by omega)) ?_
            rintro nb' w4 e4 ⟨h1, f', hf', hl⟩
            have hw : w3.fs .dat = some f := by rw [e3, e2, e1]; exact hf
            obtain rfl : f = f' := by rw [hw] at hf'; injection hf'
            rw [hb.spill, hnb, hx] at hl
            have := spend_fetchBucket h104 fuel nb' _ _ w4 (by rw [e4]; exact hw) hl ht (c := c) (h := h) (key := key)
            simpa using this

private theorem spend_existsBucket {c : Cfg} {kh : KeyHeader} {h : Nat} {key : Bytes} {f : FileSt} (h104 : 104 ≤ kh.blockSize) :
    ∀ (fuel : Nat) (b : Bkt) (blk : Bytes) (bs : List Bytes) (w : World), w.fs .dat = some f → Loaded b blk →
    Chained f.cur (bucketBytes kh.blockSize) blk bs →
    spend σ (existsBucket c kh h key fuel b) (bs.length - 1 + inChain h bs) (fun _ => True) w
  | 0, b, blk, bs, w, _, _, _ => spend_raise
  | fuel + 1, b, blk, bs, w, hf, hb, hch => by
    obtain ⟨t, rfl⟩ := hch.head
    rw [inChain_cons]
    unfold existsBucket
    refine spend_bind (i := 0) (j := t.length + ((itemsIn blk).countP (fun e => e.hash = h) + inChain h t)) (by simp)
      (spend_lift (Q := fun _ => True) (fun _ _ => trivial)) ?_
    intro i w1 e1 _
    refine spend_bind (i := (itemsIn blk).countP (fun e => e.hash = h)) (j := t.length + inChain h t) (by omega) (Q := fun _ => True) ?_ ?_
    · exact wp_conseq (spend_existsScan hb _ i w1) (fun a w' ha => ⟨⟨ha.1.1, Nat.le_trans ha.1.2 (Nat.add_le_add_left matching_le _)⟩, ha.2⟩)
        (fun x w' hx => ⟨hx.1, Nat.le_trans hx.2 (Nat.add_le_add_left matching_le _)⟩)
    · intro r w2 e2 _
      cases r with
      | true => exact spend_ret trivial
      | false =>
        rw [if_neg (by simp)]
        split
        · exact spend_ret trivial
        · rename_i h0
          cases hch with
          | last h => exact absurd (hb.spill.trans h) h0
          | more _ _ ht =>
            obtain ⟨t', ht'⟩ := ht.head
            subst ht'
            generalize hx : bytesAt f.cur (linkIn blk) (bucketBytes kh.blockSize) = x at ht
            refine spend_bind (i := 0) (j := t'.length + 1 + inChain h (x :: t')) (by simp) spend_ofMem ?_
            intro nb w3 e3 hnb
            refine spend_bind (i := 1) (j := t'.length + inChain h (x :: t')) (by omega) (spend_readFile (by omega)) ?_
            rintro nb' w4 e4 ⟨h1, f', hf', hl⟩
            have hw : w3.fs .dat = some f := by rw [e3, e2, e1]; exact hf
            obtain rfl : f = f' := by rw [hw] at hf'; injection hf'
            rw [hb.spill, hnb, hx] at hl
            have := spend_existsBucket h104 fuel nb' _ _ w4 (by rw [e4]; exact hw) hl ht (c := c) (h := h) (key := key)
            simpa using this

end

private theorem located_values : ∀ (o : Nat) (rs : List Record), (located o rs).map (·.2) = values rs
  | _, [] => rfl
  | o, .value k v :: rs => by
    show _ :: (located _ rs).map (·.2) = _
    rw [located_values]; rfl
  | o, .overflow b :: rs => by
    show (located _ rs).map (·.2) = _
    rw [located_values]; rfl

/-- What the files of an open store look like, and what follows for a lookup of `k`. -/
private theorem lookup_bound {c : Cfg} {a : CreateArgs} {lf : Nat} {short : Prop} {t : List Label} {s : Store} {fs : Fs} {D K k : Bytes}
    (hc : Creatable a lf) (hr : Reachable c a short t (some s, fs)) (he : s.ec = none)
    (hD : bytesOf fs .dat = some D) (hK : bytesOf fs .key = some K) :
    ∃ m rs cs, Conforms c.H a lf D K m rs cs ∧ s.p0 = [] ∧ s.c1 = [] ∧ 104 ≤ s.kh.blockSize ∧
      ∃ n bs df kf, fs .dat = some df ∧ fs .key = some kf ∧ bucketIndexA (hashKey c.H s.kh.salt k) s.buckets s.modulus = .ok n ∧
        Chained df.cur (bucketBytes s.kh.blockSize) (bytesAt kf.cur ((n + 1) * s.kh.blockSize) (bucketBytes s.kh.blockSize)) bs ∧
        inChain (hashKey c.H s.kh.salt k) bs ≤ rivals c.H a.salt k (values rs) ∧
        ∀ i (hi : i < cs.length), Addressed (hash48 (c.H (UInt64.ofNat a.salt) k)) (bucketsOf K) i → bs = cs[i] := by
  obtain ⟨st, _, hR⟩ := simulation hc hr
  cases hR with
  | failed h => rw [he] at h; cases h
  | @opened _ _ D0 K0 recs B view hS base hz hf =>
    obtain ⟨kf, k1, k2⟩ := hS.idle.key
    obtain ⟨df, d1, d2⟩ := hS.idle.dat
    obtain rfl : K0 = K := by simpa [bytesOf, k1, k2.cur] using hK
    obtain rfl : D0 = D := by simpa [bytesOf, d1, d2.cur] using hD
    obtain ⟨cs, hcf, _, T, rfl, hT, hP⟩ := conforms_of (m := kvOf (pairsOf recs)) hS.db (fun _ _ => rfl)
    have hcf := conforms_settled (cf := a.conf lf) (a := a) hcf rfl rfl rfl rfl rfl
    obtain ⟨Bk, hkh⟩ := hS.kh
    have hbs : s.kh.blockSize = a.blockSize := by rw [hkh]; rfl
    have hsalt : s.kh.salt = a.salt := by rw [hkh]; rfl
    have h1 := hS.db.b1
    have h2 := hS.db.b2
    have hlen := hcf.len
    simp only [List.length_map, List.length_range] at hlen
    have hadr := C21_in_range h1 (by omega) (hashKey c.H a.salt k)
    refine ⟨_, _, _, hcf, hS.p0, hS.c1, by rw [hbs]; exact hT.h104, bucketIndex (hashKey c.H a.salt k) B (ceilPow2 B),
      T (bucketIndex (hashKey c.H a.salt k) B (ceilPow2 B)), df, kf, d1, k1, ?_, ?_, ?_, ?_⟩
    · rw [hS.buckets, hS.modulus, hsalt]; exact bucketIndexA_ok hS.db.mod
    · rw [hbs, d2.cur, k2.cur]; exact hT.chain _ hadr.2.1
    · unfold inChain rivals
      rw [(hP _ hadr.2.1).countP_eq, hS.db.listed, List.countP_map, List.countP_filter, ← located_values 92, List.countP_map]
      apply List.countP_mono_left
      intro y _ hy
      simp only [Function.comp, Bool.and_eq_true, decide_eq_true_eq] at hy ⊢
      rw [← hashKey_eq, ← hashKey_eq]
      rw [hsalt] at hy
      exact hy.1
    · intro i hi ha
      rw [← hlen, ← hashKey_eq] at ha
      have := addressed_unique hadr.2.2 ha
      simp [this]

section
variable {c : Cfg} {a : CreateArgs} {lf : Nat} {short : Prop} {t : List Label} {s : Store} {fs : Fs} {D K : Bytes}

private theorem spend_fuel {σ : Schedule} {w : World} : spend σ lookupFuel 0 (fun _ => True) w := by
  unfold spend wp lookupFuel
  exact ⟨.refl, trivial⟩

/-- C73: a lookup reads the block of its bucket, the overflow records of that bucket, and the value records of keys with the same
hash, whether operations fail or not. It changes no file. -/
theorem C73_fetch (hc : Creatable a lf) (hr : Reachable c a short t (some s, fs)) (he : s.ec = none)
    (hD : bytesOf fs .dat = some D) (hK : bytesOf fs .key = some K) (k : Bytes) (σ : Schedule) (w : World) (hw : w.fs = fs) :
    ∃ m rs cs, Conforms c.H a lf D K m rs cs ∧
      ∀ n (hn : n < cs.length), Addressed (hash48 (c.H (UInt64.ofNat a.salt) k)) (bucketsOf K) n →
        Reads σ w (fetch c s k) (cs[n].length + rivals c.H a.salt k (values rs)) := by
  subst hw
  obtain ⟨m, rs, cs, h1, h2, h3, h4, n, bs, df, kf, h5, h6, h7, h8, h9, h10⟩ := lookup_bound (k := k) hc hr he hD hK
  refine ⟨m, rs, cs, h1, fun i hi ha => ?_⟩
  rw [← h10 i hi ha]
  obtain ⟨b0, hb0⟩ := h8.head
  unfold fetch
  rw [he]
  dsimp only
  cases s.p1.find k with
  | some it => exact spend_reads (Q := fun _ => True) (spend_ret trivial)
  | none =>
    simp only [h2, h3, h7]
    refine spend_reads (Q := fun _ => True) ?_
    refine spend_bind (i := 0) (Nat.le_of_eq (Nat.zero_add _)) (spend_lift (Q := fun i => i = n) (fun _ h => by cases h; rfl)) ?_
    rintro _ w1 e1 rfl
    refine spend_bind (i := 0) (Nat.le_of_eq (Nat.zero_add _)) spend_fuel ?_
    intro fuel w2 e2 _
    refine spend_bind (i := 0) (Nat.le_of_eq (Nat.zero_add _)) spend_ofMem ?_
    intro b w3 e3 hb
    have hl : bs.length = b0.length + 1 := by rw [hb0]; rfl
    refine spend_bind (i := 1) (j := b0.length + rivals c.H a.salt k (values rs)) (by omega) (spend_readFile (by omega)) ?_
    rintro b' w4 e4 ⟨_, f, hf, hb'⟩
    rw [e3, e2, e1, h6] at hf
    obtain rfl : kf = f := by injection hf
    rw [hb] at hb'
    have hd : w4.fs .dat = some df := by rw [e4, e3, e2, e1]; exact h5
    exact wp_conseq (spend_fetchBucket h4 fuel b' _ bs w4 hd hb' h8)
      (fun _ w' h => ⟨⟨h.1.1, Nat.le_trans h.1.2 (by omega)⟩, h.2⟩) (fun _ w' h => ⟨h.1, Nat.le_trans h.2 (by omega)⟩)

/-- C73: likewise `insert`, which writes nothing. -/
theorem C73_insert (hc : Creatable a lf) (hr : Reachable c a short t (some s, fs)) (he : s.ec = none)
    (hD : bytesOf fs .dat = some D) (hK : bytesOf fs .key = some K) (k v : Bytes) (σ : Schedule) (w : World) (hw : w.fs = fs) :
    ∃ m rs cs, Conforms c.H a lf D K m rs cs ∧
      ∀ n (hn : n < cs.length), Addressed (hash48 (c.H (UInt64.ofNat a.salt) k)) (bucketsOf K) n →
        Reads σ w (insert c s k v) (cs[n].length + rivals c.H a.salt k (values rs)) := by
  subst hw
  obtain ⟨m, rs, cs, h1, h2, h3, h4, n, bs, df, kf, h5, h6, h7, h8, h9, h10⟩ := lookup_bound (k := k) hc hr he hD hK
  refine ⟨m, rs, cs, h1, fun i hi ha => ?_⟩
  rw [← h10 i hi ha]
  obtain ⟨b0, hb0⟩ := h8.head
  unfold insert
  rw [he]
  dsimp only
  refine spend_reads (Q := fun _ => True) ?_
  refine spend_bind (i := 0) (Nat.le_of_eq (Nat.zero_add _)) (spend_lift (Q := fun _ => True) (fun _ _ => trivial)) ?_
  intro _ w1 e1 _
  refine spend_bind (i := 0) (Nat.le_of_eq (Nat.zero_add _)) (spend_lift (Q := fun _ => True) (fun _ _ => trivial)) ?_
  intro _ w2 e2 _
  refine spend_bind (i := bs.length + rivals c.H a.salt k (values rs)) (j := 0) (Nat.le_refl _) (Q := fun _ => True) ?_ ?_
  · unfold insertCheck
    split
    · exact spend_fail
    · simp only [h3, h7]
      refine spend_bind (i := 0) (Nat.le_of_eq (Nat.zero_add _)) (spend_lift (Q := fun i => i = n) (fun _ h => by cases h; rfl)) ?_
      intro _ w3 e3 hn
      rw [hn]
      refine spend_bind (i := 0) (Nat.le_of_eq (Nat.zero_add _)) spend_fuel ?_
      intro fuel w4 e4 _
      refine spend_bind (i := 0) (Nat.le_of_eq (Nat.zero_add _)) spend_ofMem ?_
      intro b w5 e5 hb
      have hl : bs.length = b0.length + 1 := by rw [hb0]; rfl
      refine spend_bind (i := 1) (j := b0.length + rivals c.H a.salt k (values rs)) (by omega) (spend_readFile (by omega)) ?_
      rintro b' w6 e6 ⟨_, f, hf, hb'⟩
      rw [e5, e4, e3, e2, e1, h6] at hf
      obtain rfl : kf = f := by injection hf
      rw [hb] at hb'
      have hd : w6.fs .dat = some df := by rw [e6, e5, e4, e3, e2, e1]; exact h5
      refine spend_bind (j := 0) (by omega) (spend_existsBucket h4 fuel b' _ bs w6 hd hb' h8) ?_
      intro r w5 _ _
      split
      · exact spend_fail
      · exact spend_ret trivial
  · intro _ w3 _ _
    refine spend_bind (i := 0) (j := 0) (Nat.le_refl _) (spend_lift (Q := fun _ => True) (fun _ _ => trivial)) ?_
    intro _ w4 _ _
    exact spend_ret trivial

/-- C73: one operation for an absent key and two for a key that is present, if the bucket has no overflow record and no other
stored key has the same hash. -/
theorem C73_typical (hc : Creatable a lf) (hr : Reachable c a short t (some s, fs)) (he : s.ec = none)
    (hD : bytesOf fs .dat = some D) (hK : bytesOf fs .key = some K) (k : Bytes) (σ : Schedule) (w : World) (hw : w.fs = fs) :
    ∃ m rs cs, Conforms c.H a lf D K m rs cs ∧
      ∀ n (hn : n < cs.length), Addressed (hash48 (c.H (UInt64.ofNat a.salt) k)) (bucketsOf K) n → cs[n].length = 1 →
        (∀ k' v, (k', v) ∈ values rs → hash48 (c.H (UInt64.ofNat a.salt) k') = hash48 (c.H (UInt64.ofNat a.salt) k) → k' = k) →
        ((∀ v, (k, v) ∉ values rs) → Reads σ w (fetch c s k) 1) ∧ Reads σ w (fetch c s k) 2 := by
  obtain ⟨m, rs, cs, h1, h2⟩ := C73_fetch hc hr he hD hK k σ w hw
  refine ⟨m, rs, cs, h1, fun n hn ha h1' hu => ?_⟩
  have h3 := h2 n hn ha
  rw [h1'] at h3
  have hle : ∀ ps : List (Bytes × Bytes), (ps.map Prod.fst).Nodup → (∀ p ∈ ps,
      hash48 (c.H (UInt64.ofNat a.salt) p.1) = hash48 (c.H (UInt64.ofNat a.salt) k) → p.1 = k) → rivals c.H a.salt k ps ≤ 1 := by
    intro ps
    induction ps with
    | nil => intro _ _; exact Nat.zero_le _
    | cons p ps ih =>
      intro hnd hk
      simp only [List.map_cons, List.nodup_cons] at hnd
      have ih := ih hnd.2 (fun q hq => hk q (List.mem_cons_of_mem _ hq))
      unfold rivals at ih ⊢
      rw [List.countP_cons]
      split
      · rename_i hp
        have hp := hk p List.mem_cons_self (by simpa using hp)
        have : ps.countP (fun p => decide (hash48 (c.H (UInt64.ofNat a.salt) p.1) = hash48 (c.H (UInt64.ofNat a.salt) k))) = 0 := by
          rw [List.countP_eq_zero]
          intro q hq hq'
          exact hnd.1 (by rw [hp, ← hk q (List.mem_cons_of_mem _ hq) (by simpa using hq')]; exact List.mem_map_of_mem hq)
        omega
      · omega
  have h4 := hle (values rs) h1.keys (fun p hp => hu p.1 p.2 hp)
  constructor
  · intro hno
    have h0 : rivals c.H a.salt k (values rs) = 0 := by
      unfold rivals
      rw [List.countP_eq_zero]
      intro q hq hq'
      have hk := hu q.1 q.2 hq (by simpa using hq')
      exact hno q.2 (hk ▸ hq)
    rw [h0] at h3
    exact h3
  · exact ⟨h3.1, Nat.le_trans h3.2 (by omega)⟩

private theorem wp_any {α : Type} {σ : Schedule} {m : M α} {w : World} : wp σ m (fun _ _ => True) (fun _ _ => True) w := by
  unfold wp
  split <;> trivial

private theorem insert_find {p p' : Pool} {it : Item} (h : p.insert it = .ok p') : p'.find it.key = some it := by
  unfold Pool.insert at h
  by_cases hn : (p.find it.key).isNone
  · rw [assert_ok hn] at h
    have h : p' = p.place it := by injection h with h; exact h.symm
    subst h
    clear h
    induction p with
    | nil => simp [Pool.place, Pool.find]
    | cons x xs ih =>
      unfold Pool.place
      unfold Pool.find at hn ih ⊢
      split
      · simp
      · rw [List.find?_cons] at hn ⊢
        split at hn
        · simp at hn
        · exact ih hn
  · unfold assert at h
    simp [hn] at h
    cases h

/-- C73: a pair that was just inserted is found without any operation. -/
theorem C73_memory {k v : Bytes} {s s' : Store} {σ σ' : Schedule} {w w' w'' : World} (h : insert c s k v σ w = (.ok s', w')) :
    fetch c s' k σ' w'' = (.ok v, w'') := by
  have key := wp_elim (σ := σ) (m := insert c s k v) (w := w) (Q := fun s' _ => s'.ec = none ∧ ∃ it, s'.p1.find k = some it ∧ it.data = v) (X := fun _ _ => True) ?_ h
  · obtain ⟨h1, it, h2, h3⟩ := key
    unfold fetch
    rw [h1]
    simp only [h2, h3]
    rfl
  · unfold insert
    split
    · exact wp_fail trivial
    · rename_i he
      refine wp_bind (wp_conseq wp_any (fun _ w1 _ => ?_) (fun _ _ _ => trivial))
      refine wp_bind (wp_conseq wp_any (fun _ w2 _ => ?_) (fun _ _ _ => trivial))
      refine wp_bind (wp_conseq wp_any (fun _ w3 _ => ?_) (fun _ _ _ => trivial))
      refine wp_bind ?_
      cases e : s.p1.insert ⟨hashKey c.H s.kh.salt k, k, v⟩ with
      | error x => exact wp_lift_error rfl trivial
      | ok p =>
        refine wp_lift_ok rfl (wp_ret ⟨he, _, insert_find e, rfl⟩)

end

/-- A store with eight pairs in its files. -/
private theorem demo_files : ∃ t s w D K, Reachable demoCfg demoArgs False t (some s, w.fs) ∧ s.ec = none ∧
    bytesOf w.fs .dat = some D ∧ bytesOf w.fs .key = some K ∧
    (fetch demoCfg s [1, 1] calm w).2.clock = w.clock + 9 ∧ (insert demoCfg s [4, 8] [1] calm w).2.clock = w.clock + 9 := by
  have h : demoTest demoCfg demoArgs (demoOps.take 10) (fun s w => s.ec.isNone && (bytesOf w.fs .dat).isSome && (bytesOf w.fs .key).isSome &&
      decide ((fetch demoCfg s [1, 1] calm w).2.clock = w.clock + 9) &&
      decide ((insert demoCfg s [4, 8] [1] calm w).2.clock = w.clock + 9)) = true := by decide +kernel
  obtain ⟨rets, s, w, h1, h2⟩ := demo_test (demoOps_sound 10) h
  simp only [Bool.and_eq_true, Option.isSome_iff_exists, Option.isNone_iff_eq_none, decide_eq_true_eq] at h2
  obtain ⟨⟨⟨⟨h2, D, hD⟩, K, hK⟩, h3⟩, h4⟩ := h2
  exact ⟨_, s, w, D, K, h1, h2, hD, hK, h3, h4⟩

/-- The bound of `C73_fetch` is reached: seven keys share a hash, their bucket has one overflow record. -/
example : ∃ t s w D K, Creatable demoArgs 32768 ∧ Reachable demoCfg demoArgs False t (some s, w.fs) ∧ s.ec = none ∧
    bytesOf w.fs .dat = some D ∧ bytesOf w.fs .key = some K ∧ (fetch demoCfg s [1, 1] calm w).2.clock = w.clock + 9 := by
  obtain ⟨t, s, w, D, K, h1, h2, h3, h4, h5, _⟩ := demo_files
  exact ⟨t, s, w, D, K, demo_creatable, h1, h2, h3, h4, h5⟩

/-- The bound of `C73_insert` is reached. -/
example : ∃ t s w D K, Creatable demoArgs 32768 ∧ Reachable demoCfg demoArgs False t (some s, w.fs) ∧ s.ec = none ∧
    bytesOf w.fs .dat = some D ∧ bytesOf w.fs .key = some K ∧ (insert demoCfg s [4, 8] [1] calm w).2.clock = w.clock + 9 := by
  obtain ⟨t, s, w, D, K, h1, h2, h3, h4, _, h5⟩ := demo_files
  exact ⟨t, s, w, D, K, demo_creatable, h1, h2, h3, h4, h5⟩

/-- A hash function that spreads keys over the buckets. -/
def fairCfg : Cfg := { demoCfg with H := fun _ k => UInt64.ofNat ((k.headD 0).toNat * 2 ^ 16) }

/-- The calls of `C73_typical`: four pairs with different hashes; two operations for the key that is present, one for that which is not. -/
example : ∃ t s w D K, Creatable demoArgs 32768 ∧ Reachable fairCfg demoArgs False t (some s, w.fs) ∧ s.ec = none ∧
    bytesOf w.fs .dat = some D ∧ bytesOf w.fs .key = some K ∧ (fetch fairCfg s [2, 1] calm w).1 = .ok [20] ∧
    (fetch fairCfg s [2, 1] calm w).2.clock = w.clock + 2 ∧
    (fetch fairCfg s [8, 1] calm w).2.clock = w.clock + 1 := by
  have h : demoTest fairCfg demoArgs [.open, .insert [1, 1] [10], .insert [2, 1] [20], .insert [3, 1] [30], .insert [4, 1] [40], .flush]
      (fun s w => s.ec.isNone && (bytesOf w.fs .dat).isSome && (bytesOf w.fs .key).isSome && s.p1.isEmpty &&
      (match (fetch fairCfg s [2, 1] calm w).1 with | .ok v => v == [20] | .error _ => false) &&
      decide ((fetch fairCfg s [2, 1] calm w).2.clock = w.clock + 2) &&
      decide ((fetch fairCfg s [8, 1] calm w).2.clock = w.clock + 1)) = true := by decide +kernel
  obtain ⟨rets, s, w, h1, h2⟩ := demo_test (by
    intro op hop
    simp only [List.mem_cons, List.not_mem_nil, or_false] at hop
    rcases hop with h | h | h | h | h | h <;> subst h <;> simp [Op.Sound, demoArgs]) h
  simp only [Bool.and_eq_true, Option.isSome_iff_exists, Option.isNone_iff_eq_none, decide_eq_true_eq] at h2
  obtain ⟨⟨⟨⟨⟨⟨h2, D, hD⟩, K, hK⟩, _⟩, h3⟩, h4⟩, h5⟩ := h2
  refine ⟨_, s, w, D, K, demo_creatable, h1, h2, hD, hK, ?_, h4, h5⟩
  split at h3
  · rename_i v e; rw [e, eq_of_beq h3]
  · cases h3

/-- A successful insertion. -/
example : ∃ s w s' w', insert demoCfg s [5, 5] [55] calm w = (.ok s', w') := by
  have h : demoTest demoCfg demoArgs (demoOps.take 10) (fun s w =>
      match (insert demoCfg s [5, 5] [55] calm w).1 with | .ok _ => true | .error _ => false) = true := by decide +kernel
  obtain ⟨_, s, w, _, h2⟩ := demo_test (demoOps_sound 10) h
  split at h2
  · rename_i s' e; exact ⟨s, w, s', _, Prod.ext e rfl⟩
  · cases h2

end NuDB
