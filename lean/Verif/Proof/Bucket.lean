import Verif.Model.Bucket
import Verif.Proof.Field
/- Bucket blobs represent lists of entries with an overflow link. -/
namespace NuDB

/-- All members fit their fields. -/
structure Entry.Fit (e : Entry) : Prop where
  offset : e.offset < 2 ^ 48
  size : e.size < 2 ^ 32
  hash : e.hash < 2 ^ 48

/-- The bytes of a list of entries. -/
def encEntries : List Entry → Bytes
  | [] => []
  | e :: es => Bkt.putEntry e ++ encEntries es

/-- The bytes of a bucket without padding. -/
def encBkt (es : List Entry) (spill : Nat) : Bytes :=
  putU16 es.length ++ putU48 spill ++ encEntries es

/-- Entries are ordered by hash. -/
abbrev Sorted (es : List Entry) : Prop := es.Pairwise (fun a b => a.hash ≤ b.hash)

@[simp] theorem putEntry_length (e : Entry) : (Bkt.putEntry e).length = 18 := rfl

@[simp] theorem encEntries_length (es : List Entry) : (encEntries es).length = es.length * 18 := by
  induction es with
  | nil => rfl
  | cons e es ih => simp [encEntries, ih]; omega

theorem encEntries_append (a b : List Entry) : encEntries (a ++ b) = encEntries a ++ encEntries b := by
  induction a with
  | nil => rfl
  | cons e es ih => simp [encEntries, ih]

@[simp] theorem encBkt_length (es : List Entry) (s : Nat) :
    (encBkt es s).length = bucketSize es.length := by
  simp [encBkt, bucketSize]; omega

/-- The blob `b` represents the given entries and overflow link. -/
structure Rep (b : Bkt) (es : List Entry) (s : Nat) : Prop where
  size : b.size = es.length
  spill : b.spill = s
  blob : ∃ tail, b.p = encBkt es s ++ tail
  len : b.p.length = b.bs
  bs : b.bs < 2 ^ 16
  fit : ∀ e ∈ es, e.Fit
  sfit : s < 2 ^ 48

theorem Rep.room {b : Bkt} {es : List Entry} {s : Nat} (h : Rep b es s) :
    bucketSize es.length ≤ b.bs := by
  obtain ⟨t, ht⟩ := h.blob
  rw [← h.len, ht]; simp

theorem Rep.count {b : Bkt} {es : List Entry} {s : Nat} (h : Rep b es s) : es.length < 2 ^ 16 := by
  have := h.room; have := h.bs; simp [bucketSize] at *; omega

theorem slice_header (es : List Entry) (s : Nat) (t : Bytes) :
    slice (encBkt es s ++ t) 0 2 = putU16 es.length ∧ slice (encBkt es s ++ t) 2 6 = putU48 s := by
  constructor
  · rw [encBkt, List.append_assoc, List.append_assoc]
    exact slice_mid' (x := []) (y := putU16 es.length) rfl rfl
  · rw [encBkt, List.append_assoc, List.append_assoc]
    exact slice_mid' (x := putU16 es.length) rfl rfl

theorem ofMem_enc {bs : Nat} {es : List Entry} {s : Nat} {t : Bytes}
    (hl : (encBkt es s ++ t).length = bs) (hb : bs < 2 ^ 16) (hf : ∀ e ∈ es, e.Fit)
    (hs : s < 2 ^ 48) :
    ∃ b, Bkt.ofMem bs (encBkt es s ++ t) = .ok b ∧ Rep b es s ∧ b.bs = bs ∧
      b.p = encBkt es s ++ t := by
  have h8 : 8 ≤ bs := by rw [← hl]; simp [bucketSize]; omega
  have hc : es.length < 2 ^ 16 := by
    have : bucketSize es.length ≤ bs := by rw [← hl]; simp
    simp [bucketSize] at this; omega
  refine ⟨?w, ?h1, ?h2, ?h3⟩
  rotate_left
  · unfold Bkt.ofMem
    rw [peek_ok (by omega), peek_ok (by omega), (slice_header es s t).1, (slice_header es s t).2]
    rfl
  · exact {
      size := getU16_putU16 hc, spill := getU48_putU48 hs, blob := ⟨t, rfl⟩, len := hl, bs := hb,
      fit := hf, sfit := hs }
  · exact ⟨rfl, rfl⟩

theorem Rep.eq {b b' : Bkt} {es : List Entry} {s : Nat} (h : Rep b es s) (h' : Rep b' es s)
    (hb : b.bs = b'.bs) (hp : b.p = b'.p) : b = b' := by
  cases b; cases b'
  have := h.size; have := h'.size; have := h.spill; have := h'.spill
  simp_all

/-- Making a bucket from the blob of a bucket. -/
theorem Rep.reload {b : Bkt} {es : List Entry} {s : Nat} (h : Rep b es s) :
    Bkt.ofMem b.bs b.p = .ok b := by
  obtain ⟨t, ht⟩ := h.blob
  have hl := h.len
  rw [ht] at hl
  obtain ⟨b', h1, h2, h3, h4⟩ := ofMem_enc hl h.bs h.fit h.sfit
  rw [ht, h1]
  rw [h2.eq h h3 (h4.trans ht.symm)]

theorem rep_empty {bs : Nat} (h8 : 8 ≤ bs) (hb : bs < 2 ^ 16) :
    Rep ⟨bs, 0, 0, zeros bs⟩ [] 0 where
  size := rfl
  spill := rfl
  blob := ⟨zeros (bs - 8), by
    show zeros bs = _
    have : bs = 8 + (bs - 8) := by omega
    rw [this, zeros_add]
    simp
    rfl⟩
  len := by simp
  bs := hb
  fit := by simp
  sfit := by decide

theorem clear_ok {b : Bkt} (h : b.p.length = b.bs) :
    b.clear = .ok ⟨b.bs, 0, 0, zeros b.bs⟩ := by
  unfold Bkt.clear
  rw [poke_ok (by simp [h])]
  have : put b.p 0 (zeros b.bs) = zeros b.bs := by
    simp only [put, List.take_zero, List.nil_append, zeros_length, Nat.zero_add]
    rw [List.drop_of_length_le (by omega)]; simp
  rw [this]; rfl

theorem ofEmpty_ok {bs : Nat} {p : Bytes} (h : p.length = bs) :
    Bkt.ofEmpty bs p = .ok ⟨bs, 0, 0, zeros bs⟩ := by
  unfold Bkt.ofEmpty; rw [clear_ok h]

/-- `update` writes the two header fields. -/
theorem update_ok {b : Bkt} {hd rest : Bytes} (hp : b.p = hd ++ rest) (hh : hd.length = 8)
    (hs : b.size < 2 ^ 16) (hsp : b.spill < 2 ^ 48) :
    b.update = .ok { b with p := putU16 b.size ++ putU48 b.spill ++ rest } := by
  unfold Bkt.update
  rw [assert_ok (by simp; omega), assert_ok (by simp; omega)]
  have : b.p = [] ++ (hd ++ rest) := by simp [hp]
  simp only [bind, Except.bind, this]
  rw [poke_mid (by rfl) (by simp [hh])]
  rfl

/-- Zeros after the entries. -/
def Tidy (b : Bkt) (es : List Entry) (s : Nat) : Prop := ∃ n, b.p = encBkt es s ++ zeros n

theorem Rep.setSpill' {b : Bkt} {es : List Entry} {s s' : Nat} (h : Rep b es s) (hs' : s' < 2 ^ 48) :
    ∃ b', b.setSpill s' = .ok b' ∧ Rep b' es s' ∧ b'.bs = b.bs ∧ (Tidy b es s → Tidy b' es s') := by
  obtain ⟨t, ht⟩ := h.blob
  have hc := h.count
  have hsz := h.size
  refine ⟨?w, ?h1, ?h2, ?h3, ?h4⟩
  rotate_left
  · unfold Bkt.setSpill
    rw [update_ok (hd := putU16 es.length ++ putU48 s) (rest := encEntries es ++ t)
      (by simp [ht, encBkt]) (by simp) (by simp [hsz]; omega) (by simpa using hs')]
  · refine { size := hsz, spill := rfl, blob := ⟨t, ?_⟩, len := ?_, bs := h.bs, fit := h.fit, sfit := hs' }
    · simp [encBkt, hsz]
    · have := h.len; rw [ht] at this
      simp [encBkt, hsz] at this ⊢; omega
  · rfl
  · rintro ⟨n, hn⟩
    rw [ht, List.append_cancel_left_eq] at hn
    exact ⟨n, by simp [encBkt, hsz, hn]⟩

theorem Rep.setSpill {b : Bkt} {es : List Entry} {s s' : Nat} (h : Rep b es s) (hs' : s' < 2 ^ 48) :
    ∃ b', b.setSpill s' = .ok b' ∧ Rep b' es s' ∧ b'.bs = b.bs :=
  let ⟨b', h1, h2, h3, _⟩ := h.setSpill' hs'
  ⟨b', h1, h2, h3⟩

theorem encEntries_split (es : List Entry) (i : Nat) :
    encEntries es = encEntries (es.take i) ++ encEntries (es.drop i) := by
  rw [← encEntries_append, List.take_append_drop]

theorem encEntries_at {es : List Entry} {i : Nat} (h : i < es.length) :
    encEntries es = encEntries (es.take i) ++ (Bkt.putEntry es[i] ++ encEntries (es.drop (i + 1))) := by
  rw [encEntries_split es i, List.drop_eq_getElem_cons h]; rfl

theorem Rep.get {b : Bkt} {es : List Entry} {s i : Nat} (h : Rep b es s) (hi : i < es.length) :
    b.get i = .ok es[i] := by
  obtain ⟨t, ht⟩ := h.blob
  have hf := h.fit es[i] (List.getElem_mem hi)
  unfold Bkt.get
  have hp : b.p = (putU16 es.length ++ putU48 s ++ encEntries (es.take i)) ++
      (Bkt.putEntry es[i] ++ (encEntries (es.drop (i + 1)) ++ t)) := by
    rw [ht, encBkt, encEntries_at hi]; simp
  rw [hp, peek_mid (by simp; omega) (by rfl)]
  have s1 : slice (Bkt.putEntry es[i]) 0 6 = putU48 es[i].offset := rfl
  have s2 : slice (Bkt.putEntry es[i]) 6 6 = putU48 es[i].size := rfl
  have s3 : slice (Bkt.putEntry es[i]) 12 6 = putU48 es[i].hash := rfl
  have hlt : es[i].size < 2 ^ 48 := Nat.lt_trans hf.size (by decide)
  have h32 := hf.size
  simp only [bind, Except.bind, getSize48, s1, s2, s3, getU48_putU48 hf.offset, getU48_putU48 hf.hash,
    getU48_putU48 hlt, pure, Except.pure]
  rw [assert_ok (by simp; omega)]

theorem Rep.peekHash {b : Bkt} {es : List Entry} {s i : Nat} (h : Rep b es s) (hi : i < es.length) :
    peek b.p (2 + 6 + 6 + 6 + i * 18) 6 = .ok (putU48 es[i].hash) := by
  obtain ⟨t, ht⟩ := h.blob
  have hp : b.p = (putU16 es.length ++ putU48 s ++ encEntries (es.take i) ++ putU48 es[i].offset ++
      putU48 es[i].size) ++ (putU48 es[i].hash ++ (encEntries (es.drop (i + 1)) ++ t)) := by
    rw [ht, encBkt, encEntries_at hi]; simp [Bkt.putEntry]
  rw [hp, peek_mid (by simp; omega) (by rfl)]

/-- `i` is the position of the first entry with hash at least `h`. -/
structure IsLB (es : List Entry) (h i : Nat) : Prop where
  le : i ≤ es.length
  lo : ∀ j (hj : j < es.length), j < i → es[j].hash < h
  hi : ∀ j (hj : j < es.length), i ≤ j → h ≤ es[j].hash

theorem sorted_get {es : List Entry} (hs : Sorted es) {i j : Nat} (hij : i ≤ j) (hj : j < es.length) :
    (es[i]'(by omega)).hash ≤ es[j].hash := by
  rcases Nat.lt_or_eq_of_le hij with h | h
  · exact List.pairwise_iff_getElem.mp hs i j (by omega) hj h
  · subst h; exact Nat.le_refl _

theorem Rep.lbLoop {b : Bkt} {es : List Entry} {s : Nat} (r : Rep b es s) (hs : Sorted es) (h : Nat) :
    ∀ (fuel first count : Nat), count < fuel → first + count ≤ es.length →
    (∀ j (hj : j < es.length), j < first → es[j].hash < h) →
    (∀ j (hj : j < es.length), first + count ≤ j → h ≤ es[j].hash) →
    ∃ i, Bkt.lbLoop b.p h fuel first count = .ok i ∧ IsLB es h i := by
  intro fuel
  induction fuel with
  | zero => intro _ _ hc; omega
  | succ fuel ih =>
    intro first count hc hle hlo hhi
    unfold Bkt.lbLoop
    by_cases h0 : count > 0
    · have hi : first + count / 2 < es.length := by omega
      have hf := (r.fit _ (List.getElem_mem hi)).hash
      simp only [h0, if_true, r.peekHash hi, bind, Except.bind, getU48_putU48 hf]
      by_cases hlt : es[first + count / 2].hash < h
      · simp only [hlt, if_true]
        apply ih
        · omega
        · omega
        · intro j hj hji
          have := sorted_get hs (i := j) (j := first + count / 2) (by omega) hi
          omega
        · intro j hj hji; exact hhi j hj (by omega)
      · simp only [hlt, if_false]
        apply ih
        · omega
        · omega
        · exact hlo
        · intro j hj hji
          have := sorted_get hs (i := first + count / 2) (j := j) (by omega) hj
          omega
    · simp only [h0, if_false]
      exact ⟨first, rfl, ⟨by omega, hlo, fun j hj hf => hhi j hj (by omega)⟩⟩

theorem Rep.lowerBound {b : Bkt} {es : List Entry} {s : Nat} (r : Rep b es s) (hs : Sorted es)
    (h : Nat) : ∃ i, b.lowerBound h = .ok i ∧ IsLB es h i := by
  unfold Bkt.lowerBound
  rw [r.size]
  apply r.lbLoop hs h
  · omega
  · omega
  · intro j hj hh; omega
  · intro j hj hh; omega

/-- Ordered insertion in front of the entries with equal or larger hash. -/
def insSorted (e : Entry) : List Entry → List Entry
  | [] => [e]
  | x :: xs => if x.hash < e.hash then x :: insSorted e xs else e :: x :: xs

theorem insSorted_eq {e : Entry} : ∀ {es : List Entry} {i : Nat}, IsLB es e.hash i →
    insSorted e es = es.take i ++ e :: es.drop i := by
  intro es
  induction es with
  | nil => intro i h; have := h.le; simp at this; subst this; rfl
  | cons x xs ih =>
    intro i h
    unfold insSorted
    cases i with
    | zero =>
      have := h.hi 0 (by simp) (by omega)
      simp at this
      rw [if_neg (by omega)]; rfl
    | succ i =>
      have := h.lo 0 (by simp) (by omega)
      simp at this
      rw [if_pos this, ih (i := i)]
      · rfl
      · refine ⟨by have := h.le; simp at this; omega, ?_, ?_⟩
        · intro j hj hji
          have := h.lo (j + 1) (by simp; omega) (by omega)
          simpa using this
        · intro j hj hji
          have := h.hi (j + 1) (by simp; omega) (by omega)
          simpa using this

theorem insSorted_perm (e : Entry) (es : List Entry) : (insSorted e es).Perm (e :: es) := by
  induction es with
  | nil => exact List.Perm.refl _
  | cons x xs ih =>
    unfold insSorted
    split
    · exact (List.Perm.cons x ih).trans (List.Perm.swap e x xs)
    · exact List.Perm.refl _

theorem insSorted_length (e : Entry) (es : List Entry) : (insSorted e es).length = es.length + 1 := by
  simpa using (insSorted_perm e es).length_eq

theorem insSorted_mem {e x : Entry} {es : List Entry} : x ∈ insSorted e es ↔ x = e ∨ x ∈ es := by
  rw [(insSorted_perm e es).mem_iff]; simp

theorem insSorted_sorted {e : Entry} {es : List Entry} (h : Sorted es) : Sorted (insSorted e es) := by
  induction es with
  | nil => simp [insSorted, Sorted]
  | cons x xs ih =>
    have hx := List.pairwise_cons.mp h
    unfold insSorted
    split
    · rename_i hlt
      apply List.pairwise_cons.mpr
      refine ⟨?_, ih hx.2⟩
      intro y hy
      rcases insSorted_mem.mp hy with rfl | hy
      · omega
      · exact hx.1 y hy
    · rename_i hlt
      apply List.pairwise_cons.mpr
      refine ⟨?_, h⟩
      intro y hy
      rcases List.mem_cons.mp hy with rfl | hy
      · omega
      · have := hx.1 y hy; omega

theorem Rep.insert' {b : Bkt} {es : List Entry} {s o sz h : Nat} (r : Rep b es s) (hs : Sorted es)
    (hf : Entry.Fit ⟨o, sz, h⟩) (hroom : bucketSize (es.length + 1) ≤ b.bs) :
    ∃ b', b.insert o sz h = .ok b' ∧ Rep b' (insSorted ⟨o, sz, h⟩ es) s ∧ b'.bs = b.bs ∧
      (Tidy b es s → Tidy b' (insSorted ⟨o, sz, h⟩ es) s) := by
  obtain ⟨i, hi, lb⟩ := r.lowerBound hs h
  obtain ⟨t, ht⟩ := r.blob
  have hlen := r.len
  have hib := lb.le
  have hsz := r.size
  have hbs := r.bs
  have hroom' : 8 + (es.length + 1) * 18 ≤ b.bs := by simpa [bucketSize, Nat.add_mul] using hroom
  -- split the tail: 18 bytes of room
  have htl : t.length = b.bs - (8 + es.length * 18) := by
    rw [ht] at hlen; simp [bucketSize] at hlen; omega
  obtain ⟨t1, t2, rfl, ht1⟩ : ∃ t1 t2, t = t1 ++ t2 ∧ t1.length = 18 :=
    ⟨t.take 18, t.drop 18, (List.take_append_drop 18 t).symm, by simp; omega⟩
  generalize hA : encEntries (es.take i) = A
  generalize hB : encEntries (es.drop i) = B
  have hAl : A.length = i * 18 := by rw [← hA]; simp; omega
  have hBl : B.length = (es.length - i) * 18 := by rw [← hB]; simp
  have hp : b.p = (putU16 es.length ++ putU48 s ++ A) ++ (B ++ (t1 ++ t2)) := by
    rw [ht, encBkt, encEntries_split es i, hA, hB]; simp
  -- the moved tail
  have hpk : peek b.p (8 + i * 18) ((b.size - i) * 18) = .ok B := by
    rw [hp]; exact peek_mid (by simp [hAl]; omega) (by rw [hBl, hsz])
  have hBt : ∃ g rest, B ++ (t1 ++ t2) = g ++ rest ∧ g.length = 18 ∧ rest.length = B.length + t2.length := by
    refine ⟨(B ++ (t1 ++ t2)).take 18, (B ++ (t1 ++ t2)).drop 18, (List.take_append_drop _ _).symm, ?_, ?_⟩
    · simp; omega
    · simp; omega
  obtain ⟨g, rest, hgr, hg, hrest⟩ := hBt
  obtain ⟨m, rfl⟩ : ∃ m, rest = m ++ t2 := by
    have : (B ++ t1) ++ t2 = g ++ rest := by simpa using hgr
    have h2 := congrArg (List.drop 18) this
    rw [List.drop_append_of_le_length (by simp; omega), List.drop_left' hg] at h2
    exact ⟨_, h2.symm⟩
  have hm : m.length = B.length := by simp at hrest; omega
  have hpo : poke b.p (8 + (i + 1) * 18) B =
      .ok ((putU16 es.length ++ putU48 s ++ A) ++ (g ++ (B ++ t2))) := by
    rw [hp, hgr]
    rw [show putU16 es.length ++ putU48 s ++ A ++ (g ++ (m ++ t2)) =
      (putU16 es.length ++ putU48 s ++ A ++ g) ++ (m ++ t2) by simp]
    rw [poke_mid (by simp [hAl, hg]; omega) hm.symm]
    simp
  have e1 : encEntries (insSorted ⟨o, sz, h⟩ es) = A ++ (Bkt.putEntry ⟨o, sz, h⟩ ++ B) := by
    rw [insSorted_eq lb, encEntries_append, hA]
    simp [encEntries, hB]
  refine ⟨?w, ?h1, ?h2, ?h3, ?h4⟩
  rotate_left
  · unfold Bkt.insert
    rw [hi]
    simp only [bind, Except.bind]
    rw [hpk]
    simp only
    rw [hpo]
    simp only
    rw [update_ok (hd := putU16 es.length ++ putU48 s) (rest := A ++ (g ++ (B ++ t2)))
      (by simp) (by simp) (by simp only; omega) (by simp only [r.spill]; exact r.sfit)]
    have h32 : sz < 2 ^ 32 := hf.size
    have h48 : o < 2 ^ 48 := hf.offset
    have h48' : h < 2 ^ 48 := hf.hash
    simp only
    rw [assert_ok (by simp; omega), assert_ok (by simp; omega),
      assert_ok (by simp; omega)]
    simp only
    rw [show putU16 (b.size + 1) ++ putU48 b.spill ++ (A ++ (g ++ (B ++ t2))) =
      (putU16 (b.size + 1) ++ putU48 b.spill ++ A) ++ (g ++ (B ++ t2)) by simp]
    rw [poke_mid (by simp [hAl]; omega) (by simp [hg])]
    rfl
  · refine { size := ?_, spill := r.spill, blob := ⟨t2, ?_⟩, len := ?_, bs := hbs, fit := ?_, sfit := r.sfit }
    · simp [insSorted_length, hsz]
    · simp [encBkt, e1, insSorted_length, hsz, r.spill]
    · simp [hAl, hBl] at *
      omega
    · intro e he
      rcases insSorted_mem.mp he with rfl | he
      · exact hf
      · exact r.fit e he
  · rfl
  · rintro ⟨n, hn⟩
    have h2 : t2 = zeros (n - 18) := by
      rw [ht, List.append_cancel_left_eq] at hn
      have := congrArg (List.drop 18) hn
      rwa [List.drop_left' ht1, zeros_drop] at this
    exact ⟨n - 18, by simp [encBkt, e1, insSorted_length, hsz, r.spill, h2]⟩

theorem Rep.insert {b : Bkt} {es : List Entry} {s o sz h : Nat} (r : Rep b es s) (hs : Sorted es)
    (hf : Entry.Fit ⟨o, sz, h⟩) (hroom : bucketSize (es.length + 1) ≤ b.bs) :
    ∃ b', b.insert o sz h = .ok b' ∧ Rep b' (insSorted ⟨o, sz, h⟩ es) s ∧ b'.bs = b.bs :=
  let ⟨b', h1, h2, h3, _⟩ := r.insert' hs hf hroom
  ⟨b', h1, h2, h3⟩

theorem encEntries_eraseIdx (es : List Entry) (i : Nat) :
    encEntries (es.eraseIdx i) = encEntries (es.take i) ++ encEntries (es.drop (i + 1)) := by
  rw [List.eraseIdx_eq_take_drop_succ, encEntries_append]

theorem Rep.erase {b : Bkt} {es : List Entry} {s i : Nat} (r : Rep b es s) (hi : i < es.length) :
    ∃ b', b.erase i = .ok b' ∧ Rep b' (es.eraseIdx i) s ∧ b'.bs = b.bs := by
  obtain ⟨t, ht⟩ := r.blob
  have hlen := r.len
  have hsz := r.size
  have hbs := r.bs
  have hc := r.count
  generalize hA : encEntries (es.take i) = A
  generalize hB : encEntries (es.drop (i + 1)) = B
  have hAl : A.length = i * 18 := by rw [← hA]; simp; omega
  have hBl : B.length = (es.length - (i + 1)) * 18 := by rw [← hB]; simp
  have hp : b.p = (putU16 es.length ++ putU48 s ++ A) ++ (Bkt.putEntry es[i] ++ (B ++ t)) := by
    rw [ht, encBkt, encEntries_at hi, hA, hB]; simp
  have hne : b.size ≠ 0 := by omega
  -- after moving the tail: 18 bytes of garbage `g` follow `B`
  have hmove : ∃ g, g.length = 18 ∧
      Bkt.eraseMove b.p i (b.size - 1) = .ok ((putU16 es.length ++ putU48 s ++ A) ++ (B ++ (g ++ t))) := by
    unfold Bkt.eraseMove
    by_cases hl : i < b.size - 1
    · rw [if_pos hl]
      have hpk : peek b.p (8 + (i + 1) * 18) ((b.size - 1 - i) * 18) = .ok B := by
        rw [hp, ← List.append_assoc]
        exact peek_mid (by simp [hAl]; omega) (by rw [hBl, hsz]; congr 1; omega)
      rw [hpk]
      have hx : ∃ m g, Bkt.putEntry es[i] ++ B = m ++ g ∧ m.length = B.length ∧ g.length = 18 := by
        refine ⟨(Bkt.putEntry es[i] ++ B).take B.length, (Bkt.putEntry es[i] ++ B).drop B.length,
          (List.take_append_drop _ _).symm, ?_, ?_⟩
        · simp
        · simp
      obtain ⟨m, g, hmg, hm, hg⟩ := hx
      refine ⟨g, hg, ?_⟩
      simp only [bind, Except.bind]
      rw [hp, show Bkt.putEntry es[i] ++ (B ++ t) = m ++ (g ++ t) by
        rw [← List.append_assoc, hmg, List.append_assoc]]
      rw [poke_mid (by simp [hAl]; omega) hm.symm]
    · rw [if_neg hl]
      have : B = [] := by
        apply List.length_eq_zero_iff.mp; rw [hBl]; omega
      refine ⟨Bkt.putEntry es[i], rfl, ?_⟩
      rw [hp, this]; simp
  obtain ⟨g, hg, hmove⟩ := hmove
  refine ⟨?w, ?h1, ?h2, ?h3⟩
  rotate_left
  · unfold Bkt.erase
    simp only [hne, if_false]
    rw [hmove]
    simp only [bind, Except.bind]
    rw [show (putU16 es.length ++ putU48 s ++ A) ++ (B ++ (g ++ t)) =
      (putU16 es.length ++ putU48 s ++ A ++ B) ++ (g ++ t) by simp]
    rw [poke_mid (by simp [hAl, hBl]; omega) (by simp [hg])]
    simp only
    rw [update_ok (hd := putU16 es.length ++ putU48 s) (rest := A ++ (B ++ (zeros 18 ++ t)))
      (by simp) (by simp) (by simp only; omega) (by simp only [r.spill]; exact r.sfit)]
  · have hlen' : (es.eraseIdx i).length = es.length - 1 := List.length_eraseIdx_of_lt hi
    refine { size := ?_, spill := r.spill, blob := ⟨zeros 18 ++ t, ?_⟩, len := ?_, bs := hbs, fit := ?_, sfit := r.sfit }
    · simp [hlen', hsz]
    · simp [encBkt, encEntries_eraseIdx, hA, hB, hlen', hsz, r.spill]
    · rw [hp] at hlen
      simp [hAl, hBl] at hlen ⊢
      omega
    · intro e he
      exact r.fit e (List.mem_of_mem_eraseIdx he)
  · rfl

theorem Rep.compact {b : Bkt} {es : List Entry} {s : Nat} (r : Rep b es s) :
    b.compact = .ok (encBkt es s) := by
  obtain ⟨t, ht⟩ := r.blob
  unfold Bkt.compact Bkt.actualSize
  rw [ht]
  exact peek_mid (x := []) (y := encBkt es s) (z := t) (by rfl) (by rw [r.size]; simp)

/-- The padding does not belong to the bucket. -/
theorem Rep.pad {b : Bkt} {es : List Entry} {s : Nat} (r : Rep b es s) :
    Rep { b with p := encBkt es s ++ zeros (b.bs - bucketSize es.length) } es s := by
  refine ⟨r.size, r.spill, ⟨_, rfl⟩, ?_, r.bs, r.fit, r.sfit⟩
  have := r.room
  simp
  omega

theorem Rep.padded {b : Bkt} {es : List Entry} {s : Nat} (r : Rep b es s) :
    b.padded = .ok (encBkt es s ++ zeros (b.bs - bucketSize es.length)) := by
  obtain ⟨t, ht⟩ := r.blob
  have hr := r.room
  have hl := r.len
  unfold Bkt.padded Bkt.actualSize
  rw [r.size, if_pos hr]
  have : b.p = encBkt es s ++ (t ++ []) := by simp [ht]
  rw [this, poke_mid (by simp)]
  · simp
  · rw [ht] at hl; simp at hl ⊢; omega

end NuDB
