import Verif.Proof.Visit
import Verif.Proof.Pow2
import Verif.Proof.Cache
/- Buckets with arbitrary content: which operations stay within their memory. -/
namespace NuDB

open Spec

/-- Either the result satisfies `Q` or an assertion failed. -/
def rp (r : Res α) (Q : α → Prop) : Prop :=
  match r with
  | .ok a => Q a
  | .error x => x = .abort

section rp
variable {α β : Type}

theorem rp_ok {a : α} {Q : α → Prop} (h : Q a) : rp (.ok a) Q := h

theorem rp_of {r : Res α} {a : α} {Q : α → Prop} (hr : r = .ok a) (h : Q a) : rp r Q := by subst hr; exact h

theorem rp_bind {r : Res α} {k : α → Res β} {Q : β → Prop} (h : rp r (fun a => rp (k a) Q)) : rp (r >>= k) Q := by
  cases r with
  | ok a => exact h
  | error x => exact h

theorem rp_assert {b : Bool} {k : Unit → Res β} {Q : β → Prop} (h : b = true → rp (k ()) Q) : rp (assert b >>= k) Q := by
  cases b with
  | true => exact h rfl
  | false => rfl

theorem rp_post {r : Res α} {Q Q' : α → Prop} (h : rp r Q) (hq : ∀ a, Q a → Q' a) : rp r Q' := by
  cases r with
  | ok a => exact hq a h
  | error x => exact h

theorem rp_peek {p : Bytes} {o n : Nat} {Q : Bytes → Prop} (h : o + n ≤ p.length) (hq : Q (slice p o n)) : rp (peek p o n) Q :=
  rp_of (peek_ok h) hq

theorem rp_poke {p b : Bytes} {o : Nat} {Q : Bytes → Prop} (h : o + b.length ≤ p.length) (hq : Q (put p o b)) : rp (poke p o b) Q :=
  rp_of (poke_ok h) hq

end rp

/-- A bucket in a block of `bs` bytes with at most as many entries as fit. -/
structure Fine (bs : Nat) (b : Bkt) : Prop where
  block : b.bs = bs
  len : b.p.length = bs
  size : b.size ≤ bucketCapacity bs
  count : getU16 (slice b.p 0 2) = b.size

/-- The blob of such a bucket. -/
def FineMem (bs : Nat) (p : Bytes) : Prop := p.length = bs ∧ getU16 (slice p 0 2) ≤ bucketCapacity bs

section bucket
variable {bs : Nat} {b : Bkt}

theorem cap_room (h : 1 ≤ bucketCapacity bs) : 104 ≤ bs ∧ 8 + 18 * bucketCapacity bs ≤ bs := by
  unfold bucketCapacity keyHeaderSize at *
  by_cases hc : bs < 104
  · simp [hc] at h
  · have h104 : 104 ≤ bs := by omega
    have h8 : ¬ bs < 2 + 6 := by omega
    simp only [hc, h8, decide_false, Bool.or_self, Bool.false_eq_true, if_false] at *
    have := Nat.div_mul_le_self (bs - (2 + 6)) (6 + 6 + 6)
    omega

theorem Fine.mem (h : Fine bs b) : FineMem bs b.p := ⟨h.len, by rw [h.count]; exact h.size⟩

theorem rp_ofMem {p : Bytes} (hc : 1 ≤ bucketCapacity bs) (h : FineMem bs p) : rp (Bkt.ofMem bs p) (Fine bs) := by
  have := cap_room hc
  have hl := h.1
  unfold Bkt.ofMem
  apply rp_bind
  apply rp_peek (by omega)
  apply rp_bind
  apply rp_peek (by omega)
  exact ⟨rfl, h.1, h.2, rfl⟩

theorem rp_ofMem' {p : Bytes} (h : 8 ≤ p.length) :
    rp (Bkt.ofMem bs p) (fun b => b.bs = bs ∧ b.p = p ∧ b.size = getU16 (slice p 0 2)) := by
  unfold Bkt.ofMem
  apply rp_bind
  apply rp_peek (by omega)
  apply rp_bind
  apply rp_peek (by omega)
  exact ⟨rfl, rfl, rfl⟩

theorem rp_update {s : Nat} {b : Bkt} (hb : b.bs = bs) (hl : b.p.length = bs) (h8 : 8 ≤ bs) (hs : b.size = s) (hc : s ≤ bucketCapacity bs) :
    rp b.update (fun b' => Fine bs b' ∧ b'.size = s) := by
  unfold Bkt.update
  apply rp_assert; intro h1
  apply rp_assert; intro h2
  apply rp_bind
  have hlen : (putU16 b.size ++ putU48 b.spill).length = 8 := rfl
  apply rp_poke (by rw [hlen]; omega)
  refine ⟨⟨hb, by rw [put_length (by rw [hlen]; omega)]; exact hl, by show b.size ≤ _; omega, ?_⟩, hs⟩
  have e : slice (put b.p 0 (putU16 b.size ++ putU48 b.spill)) 0 2 = putU16 b.size := by
    simp [put, slice, putU16, putU48]
  simp only [decide_eq_true_eq] at h1
  show getU16 (slice (put b.p 0 (putU16 b.size ++ putU48 b.spill)) 0 2) = b.size
  rw [e, getU16_putU16 (by omega)]

theorem rp_clear (hb : b.bs = bs) (hl : b.p.length = bs) (h8 : 8 ≤ bs) : rp b.clear (fun b' => Fine bs b' ∧ b'.size = 0) := by
  unfold Bkt.clear
  apply rp_bind
  apply rp_poke (by simp; omega)
  refine ⟨⟨hb, by rw [put_length (by simp; omega)]; exact hl, Nat.zero_le _, ?_⟩, rfl⟩
  have e : put b.p 0 (zeros b.bs) = zeros bs := by simp [put, hb, ← hl]
  show getU16 (slice (put b.p 0 (zeros b.bs)) 0 2) = 0
  rw [e]
  obtain ⟨k, rfl⟩ : ∃ k, bs = k + 2 := ⟨bs - 2, by omega⟩
  have : slice (zeros (k + 2)) 0 2 = [0, 0] := by
    rw [Nat.add_comm, zeros_add]; simp [slice, zeros, List.replicate]
  rw [this]; decide

theorem rp_ofEmpty {p : Bytes} (hl : p.length = bs) (h8 : 8 ≤ bs) : rp (Bkt.ofEmpty bs p) (fun b' => Fine bs b' ∧ b'.size = 0) :=
  rp_clear rfl hl h8

theorem rp_setSpill {o : Nat} (h : Fine bs b) (h8 : 8 ≤ bs) : rp (b.setSpill o) (fun b' => Fine bs b' ∧ b'.size = b.size) :=
  rp_update (b := { b with spill := o }) h.block h.len h8 rfl h.size

theorem Fine.room (h : Fine bs b) (hc : 1 ≤ bucketCapacity bs) : 8 + 18 * b.size ≤ bs := by
  have := cap_room hc
  have := h.size
  omega

theorem rp_getSize48 {p : Bytes} {Q : Nat → Prop} (h : ∀ n, Q n) : rp (getSize48 p) Q := by
  unfold getSize48
  apply rp_assert
  intro _
  exact h _

/-- Reading an entry. -/
theorem rp_get {i : Nat} (h : 8 + 18 * (i + 1) ≤ b.p.length) : rp (b.get i) (fun _ => True) := by
  unfold Bkt.get
  apply rp_bind
  apply rp_peek (by omega)
  apply rp_bind
  apply rp_getSize48
  intro n
  trivial

theorem rp_lbLoop {p : Bytes} {h : Nat} : ∀ (fuel first count : Nat), count < fuel → 8 + 18 * (first + count) ≤ p.length →
    rp (Bkt.lbLoop p h fuel first count) (fun i => first ≤ i ∧ i ≤ first + count) := by
  intro fuel
  induction fuel with
  | zero => intro _ _ h; omega
  | succ n ih =>
    intro first count hf hl
    unfold Bkt.lbLoop
    split
    · dsimp only
      apply rp_bind
      apply rp_peek (by omega)
      split
      · refine rp_post (ih _ _ (by omega) (by omega)) ?_
        intro i hi; omega
      · refine rp_post (ih _ _ (by omega) (by omega)) ?_
        intro i hi; omega
    · exact ⟨Nat.le_refl _, by omega⟩

theorem rp_lowerBound {h : Nat} (hl : 8 + 18 * b.size ≤ b.p.length) : rp (b.lowerBound h) (fun i => i ≤ b.size) :=
  rp_post (rp_lbLoop _ _ _ (by omega) (by omega)) fun i hi => by omega

theorem rp_insert {o sz hh : Nat} (h : Fine bs b) (hc : 1 ≤ bucketCapacity bs) (hs : b.size < bucketCapacity bs) :
    rp (b.insert o sz hh) (fun b' => Fine bs b' ∧ b'.size = b.size + 1) := by
  have hr := cap_room hc
  have hl := h.len
  unfold Bkt.insert
  apply rp_bind
  refine rp_post (rp_lowerBound (by omega)) fun i hi => ?_
  apply rp_bind
  apply rp_peek (by omega)
  apply rp_bind
  have ht : (slice b.p (8 + i * 18) ((b.size - i) * 18)).length = (b.size - i) * 18 := slice_length_of_le (by omega)
  apply rp_poke (by rw [ht]; omega)
  apply rp_bind
  refine rp_post (rp_update (bs := bs) (s := b.size + 1) ?_ ?_ (by omega) ?_ (by omega)) ?_
  · exact h.block
  · show (put _ _ _).length = bs
    rw [put_length (by rw [ht]; omega)]; exact hl
  · rfl
  intro b' ⟨hb', hs'⟩
  apply rp_assert; intro _
  apply rp_assert; intro _
  apply rp_assert; intro _
  apply rp_bind
  have hl' := hb'.len
  apply rp_poke (by rw [putEntry_length]; omega)
  refine ⟨⟨hb'.block, ?_, hb'.size, ?_⟩, hs'⟩
  · show (put _ _ _).length = bs
    rw [put_length (by rw [putEntry_length]; omega)]; exact hl'
  · show getU16 (slice (put _ _ _) 0 2) = b'.size
    rw [slice_put_before (by omega) (by omega)]; exact hb'.count

theorem rp_erase {i : Nat} (h : Fine bs b) (hc : 1 ≤ bucketCapacity bs) (hs : i < b.size) :
    rp (b.erase i) (fun b' => Fine bs b' ∧ b'.size = b.size - 1) := by
  have hr := cap_room hc
  have hl := h.len
  have hsz := h.size
  unfold Bkt.erase
  rw [if_neg (by omega)]
  dsimp only
  apply rp_bind
  refine rp_post (Q := fun p => p.length = bs) ?_ ?_
  · unfold Bkt.eraseMove
    split
    · apply rp_bind
      apply rp_peek (by omega)
      have ht : (slice b.p (8 + (i + 1) * 18) ((b.size - 1 - i) * 18)).length = (b.size - 1 - i) * 18 := slice_length_of_le (by omega)
      apply rp_poke (by rw [ht]; omega)
      rw [put_length (by rw [ht]; omega)]; exact hl
    · exact hl
  intro p hp
  apply rp_bind
  apply rp_poke (by simp; omega)
  refine rp_update h.block ?_ (by omega) rfl (by omega)
  show (put _ _ _).length = bs
  rw [put_length (by simp; omega)]; exact hp

theorem rp_compact (h : Fine bs b) (hc : 1 ≤ bucketCapacity bs) :
    rp b.compact (fun x => x.length = 8 + 18 * b.size ∧ x = slice b.p 0 (8 + 18 * b.size)) := by
  have := h.room hc
  have := h.len
  unfold Bkt.compact Bkt.actualSize bucketSize
  apply rp_peek (by omega)
  rw [slice_length_of_le (by omega)]
  refine ⟨by omega, by congr 1; omega⟩

theorem rp_padded (h : Fine bs b) (hc : 1 ≤ bucketCapacity bs) : rp b.padded (fun _ => True) := by
  have := h.room hc
  have := h.len
  have := h.block
  unfold Bkt.padded Bkt.actualSize bucketSize
  rw [if_pos (by omega)]
  apply rp_poke (by simp; omega)
  trivial

theorem rp_splitOwn {n1 n2 B m : Nat} (hc : 1 ≤ bucketCapacity bs) : ∀ (fuel i : Nat) (b1 b2 : Bkt), Fine bs b1 → Fine bs b2 →
    b1.size + b2.size ≤ bucketCapacity bs → b1.size < fuel + i → i ≤ b1.size →
    rp (splitOwn n1 n2 B m fuel i b1 b2) (fun x => Fine bs x.1 ∧ Fine bs x.2) := by
  intro fuel
  induction fuel with
  | zero =>
    intro i b1 b2 h1 h2 hs hf hi
    omega
  | succ n ih =>
    intro i b1 b2 h1 h2 hs hf hle
    unfold splitOwn
    split
    · rename_i hi
      have := h1.room hc
      have := h1.len
      apply rp_bind
      refine rp_post (rp_get (by omega)) fun e _ => ?_
      apply rp_bind
      unfold bucketIndexA
      apply rp_assert; intro _
      show rp (_ >>= _) _
      apply rp_assert; intro _
      split
      · apply rp_bind
        refine rp_post (rp_insert h2 hc (by omega)) fun b2' ⟨g2, s2⟩ => ?_
        apply rp_bind
        refine rp_post (rp_erase h1 hc hi) fun b1' ⟨g1, s1⟩ => ?_
        exact ih _ _ _ g1 g2 (by omega) (by omega) (by omega)
      · exact ih _ _ _ h1 h2 hs (by omega) (by omega)
    · exact ⟨h1, h2⟩

end bucket

end NuDB
