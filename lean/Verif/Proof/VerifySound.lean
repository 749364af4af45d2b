import Verif.Proof.Visit
import Verif.Proof.Fetch
import Verif.Spec.KeyLayout
import Verif.Model.Verify
/- What a successful run of `verify` implies for arbitrary files. -/
namespace NuDB

open Spec

/-- Partial correctness: if `m` ends normally then in `Q`. -/
abbrev pc (σ : Schedule) (m : M α) (Q : α → World → Prop) (w : World) : Prop := wp σ m Q (fun _ _ => True) w

section
variable {σ : Schedule} {w : World}

theorem pc_lift {x : Res α} {Q : α → World → Prop} (hQ : ∀ a, x = .ok a → Q a w) : pc σ (M.lift x) Q w :=
  wp_lift_any hQ (fun _ _ => trivial)

theorem pc_fail {e : Err} {Q : α → World → Prop} : pc σ (M.fail e) Q w := trivial
theorem pc_raise {x : Exc} {Q : α → World → Prop} : pc σ (M.raise x) Q w := trivial

theorem pc_check {x : Except Err α} {Q : α → World → Prop} (hQ : ∀ a, x = .ok a → Q a w) : pc σ (M.check x) Q w := by
  cases x with
  | error e => exact trivial
  | ok a => exact hQ a rfl

theorem pc_shortAs {m : M α} {e : Err} {Q : α → World → Prop} (h : pc σ m Q w) : pc σ (shortAs e m) Q w := by
  unfold shortAs
  apply wp_bind
  apply wp_attempt
  refine wp_conseq h (fun a w' hq => wp_ret hq) ?_
  intro x w' _
  cases x with
  | err e' => cases e' <;> exact trivial
  | _ => exact trivial

theorem pc_fRead {p : Path} {f : FileSt} {o n : Nat} {Q : Bytes → World → Prop} (hf : w.fs p = some f) (hn : n ≠ 0)
    (hQ : o + n ≤ f.cur.length → Q (slice f.cur o n) (w.tick w.fs)) : pc σ (fRead p o n) Q w := by
  by_cases h : o + n ≤ f.cur.length
  · exact wp_fRead hf h (hQ h) (fun _ _ _ => trivial)
  · exact wp_fRead_short hf hn (by omega) trivial (fun _ _ _ => trivial)

theorem pc_prepare {c : Cfg} {r : Reader} {f : FileSt} {n : Nat} {Q : Bytes × Reader → World → Prop}
    (hf : w.fs r.path = some f) (hr : RInv r f.cur)
    (hQ : ∀ r' w', RNext r r' f.cur n → Quiet w w' → Q (slice f.cur r.pos n, r') w') : pc σ (r.prepare c n) Q w :=
  wp_prepare hf hr (fun r' w' h1 h2 h3 => hQ r' w' h1 ⟨h2, h3⟩) (fun _ => trivial) (fun _ _ _ _ _ => trivial)

theorem pc_lookupFuel {Q : Nat → World → Prop} (h : ∀ n, Q n w) : pc σ lookupFuel Q w := h _

end

/-- `bucket_size` of the capacity. -/
theorem bucketBytes_eq {bs : Nat} (h : 104 ≤ bs) : bucketBytes bs = bucketSize (bucketCapacity bs) := by
  unfold bucketBytes bucketSize bucketCapacity keyHeaderSize
  rw [if_neg (by simp; omega)]
  omega

theorem slice_prefix {blk p : Bytes} (h : blk <+: p) {o n : Nat} (hn : o + n ≤ blk.length) : slice p o n = slice blk o n :=
  slice_eq_of_prefix h hn

/-- The bucket in memory consists of the bytes `blk`. -/
structure Loaded (b : Bkt) (blk : Bytes) : Prop where
  pre : blk <+: b.p
  size : b.size = countIn blk
  spill : b.spill = linkIn blk
  fits : 8 + 18 * b.size ≤ blk.length

theorem ofMem_loaded {bs : Nat} {p blk : Bytes} {b : Bkt} (h : Bkt.ofMem bs p = .ok b) (hp : blk <+: p)
    (h8 : 8 ≤ blk.length) : b.bs = bs ∧ b.p = p ∧ b.size = countIn blk ∧ b.spill = linkIn blk := by
  have hl := hp.length_le
  unfold Bkt.ofMem at h
  rw [peek_ok (by omega), peek_ok (by omega)] at h
  simp only [bind, Except.bind, pure, Except.pure] at h
  injection h with h
  rw [← h]
  refine ⟨rfl, rfl, ?_, ?_⟩
  · show getU16 _ = _
    rw [C18_u16.reads _ (slice_length_of_le (by omega)), slice_prefix hp (by omega)]; rfl
  · show getU48 _ = _
    rw [C18_u48.reads _ (slice_length_of_le (by omega)), slice_prefix hp (by omega)]; rfl

theorem getSize48_inv {p : Bytes} (hp : p.length = 6) {n : Nat} (h : getSize48 p = .ok n) : n = value p ∧ n < 2 ^ 32 := by
  unfold getSize48 at h
  rw [C18_u48.reads p hp] at h
  simp only [bind, Except.bind, assert] at h
  split at h
  · simp at h
  · rename_i hh
    split at hh
    · simp only [pure, Except.pure] at h
      injection h with h
      rename_i hle
      simp at hle
      omega
    · simp at hh

theorem Loaded.get {b : Bkt} {blk : Bytes} (hb : Loaded b blk) {i : Nat} (hi : i < b.size) {e : Entry}
    (h : b.get i = .ok e) : e = itemAt blk i := by
  have hf := hb.fits
  have hl := hb.pre.length_le
  unfold Bkt.get at h
  rw [peek_ok (by omega)] at h
  simp only [bind, Except.bind] at h
  rw [slice_slice (by omega), slice_slice (by omega), slice_slice (by omega)] at h
  split at h
  · simp at h
  · rename_i n hn
    have hn := (getSize48_inv (slice_length_of_le (by omega)) hn).1
    simp only [pure, Except.pure] at h
    injection h with h
    rw [← h]
    unfold itemAt
    rw [C18_u48.reads _ (slice_length_of_le (by omega)), C18_u48.reads _ (slice_length_of_le (by omega)), hn,
      slice_prefix hb.pre (by omega), slice_prefix hb.pre (by omega), slice_prefix hb.pre (by omega)]
    simp only [bytesAt_eq]
    rw [show 2 + 6 + i * 18 + 0 = 8 + 18 * i by omega, show 2 + 6 + i * 18 + 6 = 14 + 18 * i by omega,
      show 2 + 6 + i * 18 + 12 = 20 + 18 * i by omega]

theorem mem_itemsIn {blk : Bytes} {i : Nat} (h : i < countIn blk) : itemAt blk i ∈ itemsIn blk :=
  List.mem_map.mpr ⟨i, List.mem_range.mpr h, rfl⟩

theorem seekEntry_found {b : Bkt} {blk : Bytes} (hb : Loaded b blk) {h offset : Nat} (fuel : Nat) :
    ∀ i f f', seekEntry h offset b fuel i f = .ok (true, f') → ∃ e ∈ itemsIn blk, e.hash = h ∧ e.offset = offset := by
  induction fuel with
  | zero => intro i f f' h; simp [seekEntry] at h
  | succ fuel ih =>
    intro i f f' hh
    unfold seekEntry at hh
    split at hh
    · rename_i hi
      simp only [bind, Except.bind] at hh
      split at hh
      · simp at hh
      · rename_i e he
        have := hb.get hi he
        split at hh
        · simp at hh
        · rename_i h1
          simp only [ne_eq, Decidable.not_not] at h1
          split at hh
          · rename_i h2
            exact ⟨e, by rw [this]; exact mem_itemsIn (by rw [← hb.size]; exact hi), h1, h2⟩
          · exact ih _ _ _ hh
    · simp at hh

theorem Loaded.lbLoop {b : Bkt} {blk : Bytes} (hb : Loaded b blk)
    (hs : ∀ i j, i ≤ j → j < countIn blk → (itemAt blk i).hash ≤ (itemAt blk j).hash) (h : Nat) :
    ∀ (fuel first count : Nat), count < fuel → first + count ≤ countIn blk →
    (∀ j, j < first → (itemAt blk j).hash < h) →
    (∀ j, j < countIn blk → first + count ≤ j → h ≤ (itemAt blk j).hash) →
    ∃ i, Bkt.lbLoop b.p h fuel first count = .ok i ∧ i ≤ countIn blk ∧ (∀ j, j < i → (itemAt blk j).hash < h) ∧
      (∀ j, j < countIn blk → i ≤ j → h ≤ (itemAt blk j).hash) := by
  intro fuel
  have hf := hb.fits
  have hl := hb.pre.length_le
  have hz := hb.size
  induction fuel with
  | zero => intro _ _ hc; omega
  | succ fuel ih =>
    intro first count hc hle hlo hhi
    unfold Bkt.lbLoop
    by_cases h0 : count > 0
    · have hi : first + count / 2 < countIn blk := by omega
      have hpk : ∀ i, i < countIn blk → peek b.p (2 + 6 + 6 + 6 + i * 18) 6 = .ok (slice b.p (2 + 6 + 6 + 6 + i * 18) 6) ∧
          getU48 (slice b.p (2 + 6 + 6 + 6 + i * 18) 6) = (itemAt blk i).hash := by
        intro i hi
        refine ⟨peek_ok (by omega), ?_⟩
        rw [C18_u48.reads _ (slice_length_of_le (by omega)), slice_prefix hb.pre (by omega)]
        unfold itemAt
        rw [show 2 + 6 + 6 + 6 + i * 18 = 20 + 18 * i by omega]
        rfl
      simp only [h0, if_true, (hpk _ hi).1, (hpk _ hi).2, bind, Except.bind]
      by_cases hlt : (itemAt blk (first + count / 2)).hash < h
      · simp only [hlt, if_true]
        apply ih
        · omega
        · omega
        · intro j hji
          have := hs j (first + count / 2) (by omega) hi
          omega
        · intro j hj hji; exact hhi j hj (by omega)
      · simp only [hlt, if_false]
        apply ih
        · omega
        · omega
        · exact hlo
        · intro j hj hji
          have := hs (first + count / 2) j (by omega) hj
          omega
    · simp only [h0, if_false]
      exact ⟨first, rfl, by omega, hlo, fun j hj hf => hhi j hj (by omega)⟩

theorem Loaded.lowerBound {b : Bkt} {blk : Bytes} (hb : Loaded b blk)
    (hs : ∀ i j, i ≤ j → j < countIn blk → (itemAt blk i).hash ≤ (itemAt blk j).hash) (h : Nat) :
    ∃ i, b.lowerBound h = .ok i ∧ i ≤ countIn blk ∧ (∀ j, j < i → (itemAt blk j).hash < h) ∧
      (∀ j, j < countIn blk → i ≤ j → h ≤ (itemAt blk j).hash) := by
  unfold Bkt.lowerBound
  rw [hb.size]
  apply hb.lbLoop hs h
  · omega
  · omega
  · intro j hh; omega
  · intro j hj hh; omega

/-- The items of a bucket are ordered by hash. -/
def SortedBlk (b : Bytes) : Prop := (itemsIn b).Pairwise (fun x y => x.hash ≤ y.hash)

theorem SortedBlk.index {b : Bytes} (hs : SortedBlk b) : ∀ i j, i ≤ j → j < countIn b → (itemAt b i).hash ≤ (itemAt b j).hash := by
  intro i j hij hj
  rcases Nat.lt_or_eq_of_le hij with h | rfl
  · have := List.pairwise_iff_getElem.1 hs i j (by simp [itemsIn]; omega) (by simp [itemsIn]; omega) h
    simpa [itemsIn] using this
  · exact Nat.le_refl _

/-- What `seekEntry` does, as a function of the items from the start of the search on. -/
def scanItems (h o : Nat) : List Entry → Bool × Nat
  | [] => (false, 0)
  | e :: l => if e.hash ≠ h then (false, 0) else if e.offset = o then (true, 0) else ((scanItems h o l).1, (scanItems h o l).2 + 1)

theorem seekEntry_scan {b : Bkt} {blk : Bytes} (hb : Loaded b blk) {h offset : Nat} (fuel : Nat) :
    ∀ i f r f', seekEntry h offset b fuel i f = .ok (r, f') →
      r = (scanItems h offset ((itemsIn blk).drop i)).1 ∧ f' = f + (scanItems h offset ((itemsIn blk).drop i)).2 := by
  have hlen : (itemsIn blk).length = countIn blk := by simp [itemsIn]
  induction fuel with
  | zero => intro i f r f' h; simp [seekEntry] at h
  | succ fuel ih =>
    intro i f r f' hh
    unfold seekEntry at hh
    split at hh
    · rename_i hi
      have hi' : i < (itemsIn blk).length := by rw [hlen, ← hb.size]; exact hi
      simp only [bind, Except.bind] at hh
      split at hh
      · simp at hh
      · rename_i e he
        have e1 := hb.get hi he
        have e2 : (itemsIn blk)[i] = e := by rw [e1]; simp [itemsIn]
        rw [List.drop_eq_getElem_cons hi', e2]
        unfold scanItems
        split at hh
        · rename_i h1
          rw [if_pos h1]
          injection hh with hh; injection hh with h2 h3
          exact ⟨h2.symm, by simp [h3]⟩
        · rename_i h1
          rw [if_neg h1]
          split at hh
          · rename_i h2
            rw [if_pos h2]
            injection hh with hh; injection hh with h2 h3
            exact ⟨h2.symm, by simp [h3]⟩
          · rename_i h2
            rw [if_neg h2]
            obtain ⟨h3, h4⟩ := ih _ _ _ _ hh
            exact ⟨h3, by rw [h4]; dsimp only; omega⟩
    · rename_i hi
      have : (itemsIn blk).drop i = [] := List.drop_eq_nil_of_le (by rw [hlen, ← hb.size]; omega)
      rw [this]
      injection hh with hh; injection hh with h2 h3
      exact ⟨h2.symm, by simp [scanItems, h3]⟩

/-- The items with hash `h`. -/
abbrev sameHash (h : Nat) (l : List Entry) : List Entry := l.filter (fun e => e.hash == h)

theorem scanItems_sorted {h o : Nat} : ∀ {l : List Entry}, l.Pairwise (fun x y => x.hash ≤ y.hash) → (∀ e ∈ l, h ≤ e.hash) →
    scanItems h o l = ((sameHash h l).any (fun e => e.offset == o),
      if (sameHash h l).any (fun e => e.offset == o) then ((sameHash h l).takeWhile (fun e => e.offset != o)).length else (sameHash h l).length)
  | [], _, _ => rfl
  | e :: l, hs, hl => by
    obtain ⟨h1, h2⟩ := List.pairwise_cons.1 hs
    unfold scanItems
    by_cases he : e.hash = h
    · rw [if_neg (by simpa using he)]
      have e0 : sameHash h (e :: l) = e :: sameHash h l := by simp [sameHash, List.filter_cons, he]
      rw [e0]
      by_cases ho : e.offset = o
      · rw [if_pos ho]; simp [ho, List.takeWhile_cons]
      · rw [if_neg ho, scanItems_sorted h2 (fun x hx => hl x (by simp [hx]))]
        have ho' : (e.offset == o) = false := by simpa using ho
        simp only [List.any_cons, ho', Bool.false_or, List.takeWhile_cons, bne, Bool.not_false, if_true, List.length_cons]
        split <;> rfl
    · rw [if_pos he]
      have e0 : sameHash h (e :: l) = [] := by
        rw [sameHash, List.filter_eq_nil_iff]
        intro x hx
        have hlt : h < e.hash := by have := hl e (by simp); omega
        rcases List.mem_cons.1 hx with rfl | hx
        · simpa using he
        · have := h1 x hx
          simp; omega
      rw [e0]; rfl

theorem scan_lower {b : Bkt} {blk : Bytes} (hb : Loaded b blk) (hs : SortedBlk blk) {h o i : Nat} (hi : b.lowerBound h = .ok i) :
    scanItems h o ((itemsIn blk).drop i) = ((sameHash h (itemsIn blk)).any (fun e => e.offset == o),
      if (sameHash h (itemsIn blk)).any (fun e => e.offset == o) then ((sameHash h (itemsIn blk)).takeWhile (fun e => e.offset != o)).length
      else (sameHash h (itemsIn blk)).length) := by
  obtain ⟨i', hi', hle, hlo, hhi⟩ := hb.lowerBound hs.index h
  rw [hi] at hi'
  injection hi' with hi'
  subst hi'
  have hlen : (itemsIn blk).length = countIn blk := by simp [itemsIn]
  have e : sameHash h (itemsIn blk) = sameHash h ((itemsIn blk).drop i) := by
    conv => lhs; rw [← List.take_append_drop i (itemsIn blk)]
    rw [sameHash, List.filter_append, List.filter_eq_nil_iff.2, List.nil_append]
    intro x hx
    obtain ⟨j, hj, rfl⟩ := List.getElem_of_mem hx
    rw [List.length_take] at hj
    have := hlo j (by omega)
    simp only [List.getElem_take, itemsIn, List.getElem_map, List.getElem_range, beq_iff_eq]
    omega
  rw [e]
  exact scanItems_sorted (List.Pairwise.sublist (List.drop_sublist _ _) hs) (by
    intro x hx
    obtain ⟨j, hj, rfl⟩ := List.getElem_of_mem hx
    rw [List.length_drop] at hj
    have := hhi (i + j) (by omega) (by omega)
    simpa [itemsIn] using this)

theorem seek_sorted {b : Bkt} {blk : Bytes} (hb : Loaded b blk) (hs : SortedBlk blk) {h offset i fuel f f' : Nat} {r : Bool}
    (hi : b.lowerBound h = .ok i) (hh : seekEntry h offset b fuel i f = .ok (r, f')) :
    r = (sameHash h (itemsIn blk)).any (fun e => e.offset == offset) ∧
    f' = f + if (sameHash h (itemsIn blk)).any (fun e => e.offset == offset) then
        ((sameHash h (itemsIn blk)).takeWhile (fun e => e.offset != offset)).length
      else (sameHash h (itemsIn blk)).length := by
  obtain ⟨h1, h2⟩ := seekEntry_scan hb _ _ _ _ _ hh
  rw [h1, h2, scan_lower hb hs hi]
  exact ⟨rfl, rfl⟩

/-- `n` further fetches are counted for the item with offset `o` and hash `h` of the chain. -/
inductive SeekCost (D : Bytes) (len : Nat) (o h : Nat) : Bytes → Nat → Prop
  | here {b : Bytes} {n : Nat} (hn : SortedBlk b → (sameHash h (itemsIn b)).any (fun e => e.offset == o) = true ∧
      n = ((sameHash h (itemsIn b)).takeWhile (fun e => e.offset != o)).length) : SeekCost D len o h b n
  | next {b : Bytes} {m n : Nat} (hl : linkIn b ≠ 0) (hm : SortedBlk b → (sameHash h (itemsIn b)).any (fun e => e.offset == o) = false ∧
      m = (sameHash h (itemsIn b)).length) (ht : SeekCost D len o h (bytesAt D (linkIn b) len) n) : SeekCost D len o h b (m + 1 + n)

theorem SeekCost.search {D : Bytes} {len o h : Nat} {b : Bytes} {n : Nat} (hL : SeekCost D len o h b n) {bs : List Bytes}
    (hc : Chained D len b bs) (hs : ∀ x ∈ bs, SortedBlk x) : 1 + n = searchCost o h bs := by
  induction hL generalizing bs with
  | here hn =>
    obtain ⟨t, rfl⟩ : ∃ t, bs = _ :: t := by cases hc <;> exact ⟨_, rfl⟩
    obtain ⟨h1, h2⟩ := hn (hs _ (by simp))
    unfold searchCost
    rw [if_pos h1, h2]
  | next hl hm _ ih =>
    cases hc with
    | last h0 => exact absurd h0 hl
    | more _ _ ht =>
      obtain ⟨h1, h2⟩ := hm (hs _ (by simp))
      unfold searchCost
      have h1' := Bool.eq_false_iff.1 h1
      rw [if_neg h1', ← ih ht (fun x hx => hs x (by simp [hx])), h2]
      dsimp only [sameHash]
      omega

/-- Somewhere in the chain there is an item with offset `o` and hash `h`. -/
inductive Listed (D : Bytes) (len : Nat) (o h : Nat) : Bytes → Prop
  | here {b : Bytes} {e : Entry} (he : e ∈ itemsIn b) (ho : e.offset = o) (hh : e.hash = h) : Listed D len o h b
  | next {b : Bytes} (hl : linkIn b ≠ 0) (ht : Listed D len o h (bytesAt D (linkIn b) len)) : Listed D len o h b

theorem Listed.chained {D : Bytes} {len o h : Nat} {b : Bytes} (hL : Listed D len o h b) {bs : List Bytes}
    (hc : Chained D len b bs) : ∃ e ∈ bs.flatMap itemsIn, e.offset = o ∧ e.hash = h := by
  induction hL generalizing bs with
  | here he ho hh =>
    cases hc with
    | last => exact ⟨_, by simpa using he, ho, hh⟩
    | more => exact ⟨_, by simp [he], ho, hh⟩
  | next hl _ ih =>
    cases hc with
    | last h0 => exact absurd h0 hl
    | more _ _ ht =>
      obtain ⟨e, he, h1⟩ := ih ht
      exact ⟨e, by rw [List.flatMap_cons]; exact List.mem_append_right _ he, h1⟩

section
variable {σ : Schedule} {w : World} {df kf : FileSt}

theorem pc_readFile {b : Bkt} {p : Path} {off : Nat} {f : FileSt} {Q : Bkt → World → Prop} (hf : w.fs p = some f)
    (hbs : 104 ≤ b.bs)
    (hQ : ∀ b' w', Quiet w w' → off + bucketBytes b.bs ≤ f.cur.length → Loaded b' (bytesAt f.cur off (bucketBytes b.bs)) →
      b'.bs = b.bs → b'.p.length = b.p.length → b'.size ≤ (b.bs - 8) / 18 → Q b' w') : pc σ (b.readFile p off) Q w := by
  have hbb := bucketBytes_eq hbs
  have hpos : 8 ≤ bucketBytes b.bs := by unfold bucketBytes; omega
  unfold Bkt.readFile
  apply wp_bind
  rw [← hbb]
  apply pc_fRead hf (by omega)
  intro hl
  have hsl := slice_length_of_le hl
  apply wp_bind
  apply pc_lift
  intro mem hm
  have hm2 : bytesAt f.cur off (bucketBytes b.bs) <+: mem ∧ mem.length = b.p.length := by
    unfold poke at hm
    split at hm
    · rename_i hle
      injection hm with hm
      rw [← hm]
      refine ⟨?_, put_length hle⟩
      simp only [put, List.take_zero, List.nil_append, bytesAt_eq]
      exact List.prefix_append _ _
    · simp at hm
  apply wp_bind
  apply pc_lift
  intro b' hb'
  obtain ⟨h1, h2, h3, h4⟩ := ofMem_loaded hb' hm2.1 (by rw [bytesAt_eq, hsl]; exact hpos)
  split
  · exact pc_fail
  · rename_i hc
    apply wp_ret
    have hcap : bucketCapacity b.bs = (b.bs - 8) / 18 := by
      unfold bucketCapacity keyHeaderSize
      rw [if_neg (by simp; omega)]
    refine hQ b' _ (Quiet.tick w) hl ⟨by rw [h2]; exact hm2.1, h3, h4, ?_⟩ h1 (by rw [h2]; exact hm2.2) (by omega)
    rw [bytesAt_eq, hsl]; unfold bucketBytes; omega

theorem pc_seekValue {h offset : Nat} {Q : Nat → World → Prop} (fuel : Nat) :
    ∀ {b : Bkt} {blk : Bytes} {fetches : Nat} {w : World}, w.fs .dat = some df → Loaded b blk → 104 ≤ b.bs →
    (∀ n w', Quiet w w' → Listed df.cur (bucketBytes b.bs) offset h blk → SeekCost df.cur (bucketBytes b.bs) offset h blk n → Q (fetches + n) w') →
    pc σ (seekValue h offset fuel b fetches) Q w := by
  induction fuel with
  | zero => intros; exact pc_raise
  | succ fuel ih =>
    intro b blk fetches w hf hb hbs hQ
    unfold seekValue
    apply wp_bind
    apply pc_lift
    intro i hi
    apply wp_bind
    apply pc_lift
    rintro ⟨found, f'⟩ hs
    obtain ⟨m, rfl⟩ : ∃ m, f' = fetches + m := ⟨_, (seekEntry_scan hb _ _ _ _ _ hs).2⟩
    dsimp only
    cases found with
    | true =>
      rw [if_pos rfl]
      apply wp_ret
      obtain ⟨e, h1, h2, h3⟩ := seekEntry_found hb _ _ _ _ hs
      refine hQ _ _ (Quiet.refl _) (.here h1 h3 h2) (.here fun hsb => ?_)
      obtain ⟨h4, h5⟩ := seek_sorted hb hsb hi hs
      rw [← h4, if_pos rfl] at h5
      exact ⟨h4.symm, by omega⟩
    | false =>
      rw [if_neg (by simp)]
      by_cases h0 : b.spill = 0
      · rw [if_pos h0]; exact pc_fail
      · rw [if_neg h0]
        apply wp_bind
        apply pc_shortAs
        apply pc_readFile hf hbs
        intro b' w' hq hl hld hbs' _ _
        apply ih (by rw [hq.fs]; exact hf) hld (by omega)
        intro n w'' hq' hL hC
        rw [hbs'] at hL hC
        rw [hb.spill] at h0 hL hC
        rw [show fetches + m + 1 + n = fetches + (m + 1 + n) by omega]
        refine hQ _ w'' (hq.trans hq') (.next h0 hL) (.next h0 (fun hsb => ?_) hC)
        obtain ⟨h4, h5⟩ := seek_sorted hb hsb hi hs
        rw [← h4, if_neg (by simp)] at h5
        exact ⟨h4.symm, by omega⟩

/-- The same for the search of `verify_fast`: the first bucket is in the buffer. -/
theorem pc_seekValueFast {h offset : Nat} {Q : Nat × Bkt → World → Prop} (fuel : Nat) :
    ∀ {b tmp : Bkt} {blk : Bytes} {fetches : Nat} {w : World}, w.fs .dat = some df → Loaded b blk → 104 ≤ tmp.bs →
    (∀ n p w', Quiet w w' → p.length = tmp.p.length → Listed df.cur (bucketBytes tmp.bs) offset h blk →
      SeekCost df.cur (bucketBytes tmp.bs) offset h blk n → Q (fetches + n, { tmp with p := p }) w') →
    pc σ (seekValueFast h offset fuel b tmp fetches) Q w := by
  induction fuel with
  | zero => intros; exact pc_raise
  | succ fuel ih =>
    intro b tmp blk fetches w hf hb hbs hQ
    unfold seekValueFast
    apply wp_bind
    apply pc_lift
    intro i hi
    apply wp_bind
    apply pc_lift
    rintro ⟨found, f'⟩ hs
    obtain ⟨m, rfl⟩ : ∃ m, f' = fetches + m := ⟨_, (seekEntry_scan hb _ _ _ _ _ hs).2⟩
    dsimp only
    cases found with
    | true =>
      rw [if_pos rfl]
      apply wp_ret
      obtain ⟨e, h1, h2, h3⟩ := seekEntry_found hb _ _ _ _ hs
      refine hQ _ tmp.p _ (Quiet.refl _) rfl (.here h1 h3 h2) (.here fun hsb => ?_)
      obtain ⟨h4, h5⟩ := seek_sorted hb hsb hi hs
      rw [← h4, if_pos rfl] at h5
      exact ⟨h4.symm, by omega⟩
    | false =>
      rw [if_neg (by simp)]
      by_cases h0 : b.spill = 0
      · rw [if_pos h0]; exact pc_fail
      · rw [if_neg h0]
        apply wp_bind
        apply pc_shortAs
        apply pc_readFile hf hbs
        intro b' w' hq hl hld hbs' hpl _
        apply ih (by rw [hq.fs]; exact hf) hld (by exact hbs)
        intro n p w'' hq' hp' hL hC
        rw [hb.spill] at h0 hL hC
        rw [show fetches + m + 1 + n = fetches + (m + 1 + n) by omega]
        refine hQ _ p w'' (hq.trans hq') (hp'.trans hpl) (.next h0 hL) (.next h0 (fun hsb => ?_) hC)
        obtain ⟨h4, h5⟩ := seek_sorted hb hsb hi hs
        rw [← h4, if_neg (by simp)] at h5
        exact ⟨h4.symm, by omega⟩

end

/-- `Listed` in the bucket a key belongs to, where `K` is the key file. -/
def HomeListed (c : Cfg) (kh : KeyHeader) (D K : Bytes) (o : Nat) (k : Bytes) : Prop :=
  Listed D (bucketBytes kh.blockSize) o (hashKey c.H kh.salt k)
    (bytesAt K ((bucketIndex (hashKey c.H kh.salt k) kh.buckets kh.modulus + 1) * kh.blockSize) (bucketBytes kh.blockSize))

/-- `SeekCost` in the bucket a key belongs to. -/
def HomeCost (c : Cfg) (kh : KeyHeader) (D K : Bytes) (o : Nat) (k : Bytes) (n : Nat) : Prop :=
  SeekCost D (bucketBytes kh.blockSize) o (hashKey c.H kh.salt k)
    (bytesAt K ((bucketIndex (hashKey c.H kh.salt k) kh.buckets kh.modulus + 1) * kh.blockSize) (bucketBytes kh.blockSize)) n

/-- `g` is the number of fetches counted for a record. -/
def Costing (c : Cfg) (kh : KeyHeader) (D K : Bytes) (g : Nat → Bytes → Nat) : Prop :=
  ∀ o k n, HomeCost c kh D K o k n → 1 + n = g o k

/-- Sum of the fetches for the value records. -/
def costSum (g : Nat → Bytes → Nat) (l : List (Nat × Bytes × Bytes)) : Nat := (l.map (fun y => g y.1 y.2.1)).sum

theorem bucketIndexA_inv {h b m n : Nat} (hh : bucketIndexA h b m = .ok n) : n = bucketIndex h b m := by
  unfold bucketIndexA at hh
  simp only [bind, Except.bind] at hh
  split at hh
  · simp at hh
  · simp only [pure, Except.pure] at hh
    injection hh with hh
    exact hh.symm

/-- State of the first phase of `verify_normal`. -/
structure ScanAt (kh : KeyHeader) (df : FileSt) (b : Bkt) (r : Reader) (o : Nat) : Prop where
  bs : b.bs = kh.blockSize
  plen : b.p.length = kh.blockSize + (6 + kh.keySize)
  inv : RInv r df.cur
  path : r.path = .dat
  last : r.last = df.cur.length
  pos : r.pos = o

section
variable {σ : Schedule} {c : Cfg} {kh : KeyHeader} {df kf : FileSt} {nwork : Nat}

theorem pc_normal_value {pre k v post : Bytes} {b : Bkt} {r : Reader} {work : Nat} {info : Info} {w : World}
    {Q : Bkt × Reader × Nat × Info → World → Prop} (hD : df.cur = pre ++ ((Record.value k v).bytes ++ post))
    (hok : (Record.value k v).Ok kh.keySize) (h104 : 104 ≤ kh.blockSize) (hf : w.fs .dat = some df) (hk : w.fs .key = some kf)
    (hs : ScanAt kh df b r pre.length)
    (hQ : ∀ b' r' w' f, ScanAt kh df b' r' (pre ++ (Record.value k v).bytes).length → w'.fs = w.fs →
      w'.out = w.out ++ [.progress (work + kh.blockSize + pre.length) nwork] → HomeListed c kh df.cur kf.cur pre.length k →
      (∀ g, Costing c kh df.cur kf.cur g → f = info.fetches + g pre.length k) →
      Q (b', r', work + kh.blockSize, { info with fetches := f, valueCount := info.valueCount + 1, valueBytes := info.valueBytes + v.length }) w') :
    pc σ (normalStep c kh nwork b r work info) Q w := by
  obtain ⟨hkl, hv1, hv2⟩ := hok
  unfold normalStep
  dsimp only
  apply wp_bind
  apply pc_prepare (f := df) (by rw [hs.path]; exact hf) hs.inv
  intro r1 w1 n1 q1
  apply wp_bind
  rw [hs.pos]
  have e1 : slice df.cur pre.length 6 = putU48 v.length := by
    rw [hD, value_record, List.append_assoc]
    exact slice_mid' rfl (by simp)
  rw [e1]
  apply wp_lift_ok (getSize48_ok hv2)
  dsimp only
  rw [if_pos (by omega)]
  apply wp_bind
  apply pc_prepare (f := df) (by rw [n1.path, hs.path, q1.fs]; exact hf) n1.inv
  intro r2 w2 n2 q2
  have e2 : (slice df.cur r1.pos (kh.keySize + v.length)).take kh.keySize = k := by
    rw [n1.pos, hs.pos, hD, value_record]
    rw [show pre ++ (putU48 v.length ++ (k ++ v) ++ post) = (pre ++ putU48 v.length) ++ ((k ++ v) ++ post) by simp,
      slice_mid' (by simp) (by simp [hkl]), ← hkl]
    simp
  rw [e2]
  apply wp_bind
  apply pc_lift
  intro n hn
  have hn := bucketIndexA_inv hn
  apply wp_bind
  apply pc_readFile (f := kf) (by rw [q2.fs, q1.fs]; exact hk) (by rw [hs.bs]; exact h104)
  intro b' w3 q3 hl hld hbs' hpl hcap
  dsimp only
  apply wp_bind
  apply pc_lookupFuel
  intro fuel
  apply wp_bind
  apply pc_seekValue (df := df) fuel (by rw [q3.fs, q2.fs, q1.fs]; exact hf) hld (by rw [hbs', hs.bs]; exact h104)
  intro f w4 q4 hL hC
  apply wp_bind
  apply wp_emit
  apply wp_ret
  rw [hbs', hs.bs, hn] at hL hC
  have a1 := n1.pos
  have a2 := n2.pos
  have a3 := hs.pos
  refine hQ b' r2 _ (info.fetches + 1 + f) ⟨hbs'.trans hs.bs, hpl.trans hs.plen, n2.inv, n2.path.trans (n1.path.trans hs.path),
    n2.last.trans (n1.last.trans hs.last), ?_⟩ ?_ ?_ hL (fun g hg => by rw [← hg _ _ _ hC]; omega)
  · rw [List.length_append, value_record]; simp only [List.length_append, putU48_length]; omega
  · show w4.fs = _; rw [q4.fs, q3.fs, q2.fs, q1.fs]
  · show w4.out ++ _ = _; rw [q4.out, q3.out, q2.out, q1.out]

/-- Records that `verify_normal` reads as they are meant. -/
def Compact : Record → Prop
  | .value _ _ => True
  | .overflow b => b.length = 8 + 18 * countIn b

theorem pc_normal_overflow {pre body post : Bytes} {b : Bkt} {r : Reader} {work : Nat} {info : Info} {w : World}
    {Q : Bkt × Reader × Nat × Info → World → Prop} (hD : df.cur = pre ++ ((Record.overflow body).bytes ++ post))
    (hok : (Record.overflow body).Ok kh.keySize) (ht : Compact (.overflow body)) (hf : w.fs .dat = some df)
    (hs : ScanAt kh df b r pre.length)
    (hQ : ∀ b' r' w', ScanAt kh df b' r' (pre ++ (Record.overflow body).bytes).length → w'.fs = w.fs →
      w'.out = w.out ++ [.progress (work + pre.length) nwork] → body.length = bucketSize kh.capacity →
      Q (b', r', work, { info with spillCountTot := info.spillCountTot + 1, spillBytesTot := info.spillBytesTot + (8 + body.length) }) w') :
    pc σ (normalStep c kh nwork b r work info) Q w := by
  have hok : body.length < 2 ^ 16 := hok
  have ht : body.length = 8 + 18 * countIn body := ht
  have hD' : df.cur = (pre ++ (putU48 0 ++ putU16 body.length)) ++ (body ++ post) := by
    rw [hD, overflow_record]; simp
  unfold normalStep
  dsimp only
  apply wp_bind
  apply pc_prepare (f := df) (by rw [hs.path]; exact hf) hs.inv
  intro r1 w1 n1 q1
  apply wp_bind
  rw [hs.pos]
  have e1 : slice df.cur pre.length 6 = putU48 0 := by
    rw [hD, overflow_record, List.append_assoc]
    exact slice_mid' rfl (by simp)
  rw [e1]
  apply wp_lift_ok (getSize48_ok (by omega))
  dsimp only
  rw [if_neg (by omega)]
  apply wp_bind
  apply pc_shortAs
  apply pc_prepare (f := df) (by rw [n1.path, hs.path, q1.fs]; exact hf) n1.inv
  intro r2 w2 n2 q2
  have a1 := n1.pos
  have a2 := n2.pos
  have a3 := hs.pos
  have e2 : slice df.cur r1.pos 2 = putU16 body.length := by
    rw [a1, a3, hD, overflow_record]
    rw [show pre ++ (putU48 0 ++ (putU16 body.length ++ body) ++ post) = (pre ++ putU48 0) ++ (putU16 body.length ++ (body ++ post)) by simp]
    exact slice_mid' (by simp) (by simp)
  rw [e2, getU16_putU16 hok]
  split
  · exact pc_fail
  rename_i hsz
  simp only [ne_eq, Decidable.not_not] at hsz
  apply wp_bind
  apply pc_shortAs
  unfold Bkt.readBulk
  apply wp_bind
  unfold Bkt.readHead
  apply wp_bind
  apply pc_prepare (f := df) (by rw [n2.path, n1.path, hs.path, q2.fs, q1.fs]; exact hf) n2.inv
  intro r3 w3 n3 q3
  have a4 := n3.pos
  have hl8 : r2.pos = (pre ++ (putU48 0 ++ putU16 body.length)).length := by
    simp only [List.length_append, putU48_length, putU16_length]; omega
  have e3 : slice df.cur r2.pos 8 = slice body 0 8 := by
    rw [hl8, hD', slice_append_right (Nat.le_refl _), Nat.sub_self, slice_append_left (by omega)]
  apply wp_bind
  apply pc_lift
  intro b1 hb1
  have hb1' : b1.bs = b.bs ∧ b1.p.length = b.p.length ∧ b1.size = countIn body := by
    unfold Bkt.update at hb1
    simp only [bind, Except.bind] at hb1
    split at hb1
    · simp at hb1
    split at hb1
    · simp at hb1
    split at hb1
    · simp at hb1
    rename_i p hp
    simp only [pure, Except.pure] at hb1
    injection hb1 with hb1
    rw [← hb1]
    refine ⟨rfl, ?_, ?_⟩
    · unfold poke at hp
      split at hp
      · injection hp with hp; rw [← hp]; rename_i hle; exact put_length hle
      · simp at hp
    · show getU16 _ = _
      rw [e3, slice_slice (by omega), C18_u16.reads _ (slice_length_of_le (by omega))]; rfl
  apply wp_ret
  dsimp only
  unfold Bkt.readBody
  apply wp_bind
  apply pc_prepare (f := df) (by rw [n3.path, n2.path, n1.path, hs.path, q3.fs, q2.fs, q1.fs]; exact hf) n3.inv
  intro r4 w4 n4 q4
  have a5 := n4.pos
  apply wp_bind
  apply pc_lift
  intro p hp
  apply wp_ret
  dsimp only
  apply wp_bind
  apply wp_emit
  apply wp_ret
  have hp' : p.length = b.p.length := by
    unfold poke at hp
    split at hp
    · injection hp with hp; rw [← hp, ← hb1'.2.1]; rename_i hle; exact put_length hle
    · simp at hp
  have hact : 6 + 2 + Bkt.actualSize { b1 with p := p } = 8 + body.length := by
    show 6 + 2 + bucketSize b1.size = _
    rw [hb1'.2.2, ht]; unfold bucketSize; omega
  rw [hact]
  rw [hb1'.2.2] at a5
  refine hQ _ r4 _ ⟨hb1'.1.trans hs.bs, hp'.trans hs.plen, n4.inv, n4.path.trans (n3.path.trans (n2.path.trans (n1.path.trans hs.path))),
    n4.last.trans (n3.last.trans (n2.last.trans (n1.last.trans hs.last))), ?_⟩ ?_ ?_ hsz
  · rw [List.length_append, overflow_record]; simp only [List.length_append, putU48_length, putU16_length]; omega
  · show w4.fs = _; rw [q4.fs, q3.fs, q2.fs, q1.fs]
  · show w4.out ++ _ = _; rw [q4.out, q3.out, q2.out, q1.out]


theorem poke_len {p b q : Bytes} {o : Nat} (h : poke p o b = .ok q) : q.length = p.length := by
  unfold poke at h
  split at h
  · injection h with h; rw [← h]; rename_i hle; exact put_length hle
  · simp at h

theorem pc_normal_any {b : Bkt} {r : Reader} {work o : Nat} {info : Info} {w : World}
    {Q : Bkt × Reader × Nat × Info → World → Prop} (h104 : 104 ≤ kh.blockSize) (hf : w.fs .dat = some df)
    (hk : w.fs .key = some kf) (hs : ScanAt kh df b r o)
    (hQ : ∀ b' r' work' info' o' w', ScanAt kh df b' r' o' → w'.fs = w.fs → Q (b', r', work', info') w') :
    pc σ (normalStep c kh nwork b r work info) Q w := by
  unfold normalStep
  dsimp only
  apply wp_bind
  apply pc_prepare (f := df) (by rw [hs.path]; exact hf) hs.inv
  intro r1 w1 n1 q1
  apply wp_bind
  apply pc_lift
  intro size _
  split
  · apply wp_bind
    apply pc_prepare (f := df) (by rw [n1.path, hs.path, q1.fs]; exact hf) n1.inv
    intro r2 w2 n2 q2
    dsimp only
    apply wp_bind
    apply pc_lift
    intro n hn
    apply wp_bind
    apply pc_readFile (f := kf) (by rw [q2.fs, q1.fs]; exact hk) (by rw [hs.bs]; exact h104)
    intro b' w3 q3 hl hld hbs' hpl hcap
    apply wp_bind
    apply pc_lookupFuel
    intro fuel
    apply wp_bind
    apply pc_seekValue (df := df) fuel (by rw [q3.fs, q2.fs, q1.fs]; exact hf) hld (by rw [hbs', hs.bs]; exact h104)
    intro f w4 q4 hL _
    apply wp_bind
    apply wp_emit
    apply wp_ret
    refine hQ b' r2 _ _ _ _ ⟨hbs'.trans hs.bs, hpl.trans hs.plen, n2.inv, n2.path.trans (n1.path.trans hs.path),
      n2.last.trans (n1.last.trans hs.last), rfl⟩ ?_
    show w4.fs = _; rw [q4.fs, q3.fs, q2.fs, q1.fs]
  · apply wp_bind
    apply pc_shortAs
    apply pc_prepare (f := df) (by rw [n1.path, hs.path, q1.fs]; exact hf) n1.inv
    intro r2 w2 n2 q2
    dsimp only
    split
    · exact pc_fail
    apply wp_bind
    apply pc_shortAs
    unfold Bkt.readBulk
    apply wp_bind
    unfold Bkt.readHead
    apply wp_bind
    apply pc_prepare (f := df) (by rw [n2.path, n1.path, hs.path, q2.fs, q1.fs]; exact hf) n2.inv
    intro r3 w3 n3 q3
    dsimp only
    apply wp_bind
    apply pc_lift
    intro b1 hb1
    have hb1' : b1.bs = b.bs ∧ b1.p.length = b.p.length := by
      unfold Bkt.update at hb1
      simp only [bind, Except.bind] at hb1
      split at hb1
      · simp at hb1
      split at hb1
      · simp at hb1
      split at hb1
      · simp at hb1
      rename_i p hp
      simp only [pure, Except.pure] at hb1
      injection hb1 with hb1
      rw [← hb1]
      exact ⟨rfl, poke_len hp⟩
    apply wp_ret
    dsimp only
    unfold Bkt.readBody
    apply wp_bind
    apply pc_prepare (f := df) (by rw [n3.path, n2.path, n1.path, hs.path, q3.fs, q2.fs, q1.fs]; exact hf) n3.inv
    intro r4 w4 n4 q4
    dsimp only
    apply wp_bind
    apply pc_lift
    intro p hp
    apply wp_ret
    dsimp only
    apply wp_bind
    apply wp_emit
    apply wp_ret
    refine hQ _ r4 _ _ _ _ ⟨hb1'.1.trans hs.bs, (poke_len hp).trans (hb1'.2.trans hs.plen), n4.inv,
      n4.path.trans (n3.path.trans (n2.path.trans (n1.path.trans hs.path))),
      n4.last.trans (n3.last.trans (n2.last.trans (n1.last.trans hs.last))), rfl⟩ ?_
    show w4.fs = _; rw [q4.fs, q3.fs, q2.fs, q1.fs]

/-- Sums over the records. -/
def valueSum (rs : List Record) : Nat := ((values rs).map (fun p => p.2.length)).sum
def overflowSum (rs : List Record) : Nat := ((overflows rs).map (fun b => 8 + b.length)).sum

/-- The counters after the records `rs` have been seen. -/
def Info.scanned (i : Info) (rs : List Record) (f : Nat) : Info :=
  { i with fetches := f, valueCount := i.valueCount + (values rs).length, valueBytes := i.valueBytes + valueSum rs,
           spillCountTot := i.spillCountTot + (overflows rs).length, spillBytesTot := i.spillBytesTot + overflowSum rs }

theorem Info.scanned_value (i : Info) (k v : Bytes) (rs : List Record) (f f' : Nat) :
    ({ i with fetches := f', valueCount := i.valueCount + 1, valueBytes := i.valueBytes + v.length } : Info).scanned rs f =
      i.scanned (.value k v :: rs) f := by
  simp [Info.scanned, values, overflows, valueSum, overflowSum]; omega

theorem Info.scanned_overflow (i : Info) (b : Bytes) (rs : List Record) (f : Nat) :
    ({ i with spillCountTot := i.spillCountTot + 1, spillBytesTot := i.spillBytesTot + (8 + b.length) } : Info).scanned rs f =
      i.scanned (.overflow b :: rs) f := by
  simp [Info.scanned, values, overflows, valueSum, overflowSum]; omega

theorem Info.scanned_nil (i : Info) : i.scanned [] i.fetches = i := by
  simp [Info.scanned, values, overflows, valueSum, overflowSum]

theorem pc_normalScan_any {Q : Bkt × Nat × Info → World → Prop} (h104 : 104 ≤ kh.blockSize) (fuel : Nat) :
    ∀ {b : Bkt} {r : Reader} {work o : Nat} {info : Info} {w : World}, w.fs .dat = some df → w.fs .key = some kf →
    ScanAt kh df b r o →
    (∀ b' work' info' w', b'.bs = kh.blockSize → w'.fs = w.fs → Q (b', work', info') w') →
    pc σ (normalScan c kh nwork fuel b r work info) Q w := by
  induction fuel with
  | zero => intros; exact pc_raise
  | succ fuel ih =>
    intro b r work o info w hf hk hs hQ
    unfold normalScan
    split
    · exact wp_ret (hQ _ _ _ _ hs.bs rfl)
    · apply wp_bind
      apply pc_normal_any h104 hf hk hs
      intro b' r' work' info' o' w' hs' hfs
      apply ih (by rw [hfs]; exact hf) (by rw [hfs]; exact hk) hs'
      intro b2 work2 info2 w2 h1 h2
      exact hQ _ _ _ _ h1 (h2.trans hfs)

theorem pc_normalScan {Q : Bkt × Nat × Info → World → Prop} {rest : Bytes} (h104 : 104 ≤ kh.blockSize) (rs : List Record) :
    ∀ {pre : Bytes} {fuel : Nat} {b : Bkt} {r : Reader} {work : Nat} {info : Info} {w : World},
    df.cur = pre ++ (layout rs ++ rest) → (∀ x ∈ rs, x.Ok kh.keySize ∧ Compact x) →
    w.fs .dat = some df → w.fs .key = some kf → ScanAt kh df b r pre.length →
    (∀ b' work' info' w', b'.bs = kh.blockSize → w'.fs = w.fs →
      (∀ x ∈ located pre.length rs, HomeListed c kh df.cur kf.cur x.1 x.2.1) →
      (∀ body ∈ overflows rs, body.length = bucketSize kh.capacity) →
      (rest = [] → work' = work + kh.blockSize * (values rs).length ∧
        ∃ f, info' = info.scanned rs f ∧ ∀ g, Costing c kh df.cur kf.cur g → f = info.fetches + costSum g (located pre.length rs)) →
      Q (b', work', info') w') →
    pc σ (normalScan c kh nwork fuel b r work info) Q w := by
  induction rs with
  | nil =>
    intro pre fuel b r work info w hD hok hf hk hs hQ
    by_cases hr : rest = []
    · cases fuel with
      | zero => exact pc_raise
      | succ fuel =>
        unfold normalScan
        rw [if_pos]
        · refine wp_ret (hQ _ _ _ _ hs.bs rfl (by intro x hx; cases hx) (by intro x hx; cases hx) ?_)
          intro _
          exact ⟨by simp [values], info.fetches, (Info.scanned_nil info).symm, fun g _ => by simp [costSum, located]⟩
        · unfold Reader.eof
          rw [hs.pos, hs.last, hD, hr]
          simp [layout]
    · apply pc_normalScan_any h104 fuel hf hk hs
      intro b' work' info' w' h1 h2
      exact hQ _ _ _ _ h1 h2 (by intro x hx; cases hx) (by intro x hx; cases hx) (fun h => absurd h hr)
  | cons x rs ih =>
    intro pre fuel b r work info w hD hok hf hk hs hQ
    cases fuel with
    | zero => exact pc_raise
    | succ fuel =>
    unfold normalScan
    have hx := hok x (by simp)
    have hok' : ∀ y ∈ rs, y.Ok kh.keySize ∧ Compact y := fun y hy => hok y (by simp [hy])
    rw [layout_cons, List.append_assoc] at hD
    have hD' : df.cur = (pre ++ x.bytes) ++ (layout rs ++ rest) := by rw [hD]; simp
    rw [if_neg]
    · apply wp_bind
      cases x with
      | value k v =>
        apply pc_normal_value hD hx.1 h104 hf hk hs
        intro b' r' w' f hs' hfs _ hl hcost
        apply ih hD' hok' (by rw [hfs]; exact hf) (by rw [hfs]; exact hk) hs'
        intro b2 work2 info2 w2 h1 h2 h3 h4 h5
        refine hQ _ _ _ _ h1 (h2.trans hfs) ?_ ?_ ?_
        · intro y hy
          rcases List.mem_cons.mp hy with rfl | hy
          · exact hl
          · exact h3 y (by rw [List.length_append]; exact hy)
        · exact h4
        · intro hr
          obtain ⟨e1, f2, e2, e3⟩ := h5 hr
          refine ⟨?_, f2, by rw [e2]; exact Info.scanned_value _ _ _ _ _ _, fun g hg => ?_⟩
          rotate_left
          · rw [e3 g hg, hcost g hg, List.length_append]
            simp [costSum, located, Nat.add_assoc]
          rw [e1]
          simp only [values, List.filterMap_cons, List.length_cons, Nat.mul_add]
          omega
      | overflow body =>
        apply pc_normal_overflow hD hx.1 hx.2 hf hs
        intro b' r' w' hs' hfs _ hsz
        apply ih hD' hok' (by rw [hfs]; exact hf) (by rw [hfs]; exact hk) hs'
        intro b2 work2 info2 w2 h1 h2 h3 h4 h5
        refine hQ _ _ _ _ h1 (h2.trans hfs) ?_ ?_ ?_
        · intro y hy
          exact h3 y (by rw [List.length_append]; exact hy)
        · intro y hy
          rcases List.mem_cons.mp (show y ∈ body :: overflows rs from hy) with rfl | hy
          · exact hsz
          · exact h4 y hy
        · intro hr
          obtain ⟨e1, f2, e2, e3⟩ := h5 hr
          refine ⟨?_, f2, by rw [e2]; exact Info.scanned_overflow _ _ _ _, fun g hg => ?_⟩
          rotate_left
          · rw [e3 g hg, List.length_append]
            simp [costSum, located]
          rw [e1]
          simp [values]
    · unfold Reader.eof
      rw [hs.pos, hs.last, hD]
      have : 1 ≤ x.bytes.length := by
        cases x <;> simp [Record.bytes, bigEndian] <;> omega
      simp only [List.length_append, ge_iff_le, decide_eq_true_eq]
      omega

end

end NuDB
