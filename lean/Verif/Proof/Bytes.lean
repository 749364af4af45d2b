import Verif.Model.Bytes
/- Lemmas on slices and in-place updates of byte lists. -/
namespace NuDB

@[simp] theorem zeros_length (n : Nat) : (zeros n).length = n := by simp [zeros]

theorem zeros_add (m n : Nat) : zeros (m + n) = zeros m ++ zeros n := by
  simp [zeros, List.replicate_append_replicate]

@[simp] theorem zeros_zero : zeros 0 = [] := rfl

theorem zeros_drop (m n : Nat) : (zeros n).drop m = zeros (n - m) := by simp [zeros]

theorem zeros_take (m n : Nat) : (zeros n).take m = zeros (min m n) := by simp [zeros]

theorem slice_length (p : Bytes) (o n : Nat) : (slice p o n).length = min n (p.length - o) := by
  simp [slice]

theorem slice_length_of_le {p : Bytes} {o n : Nat} (h : o + n ≤ p.length) :
    (slice p o n).length = n := by rw [slice_length]; omega

@[simp] theorem slice_zero_len (p : Bytes) (o : Nat) : slice p o 0 = [] := by simp [slice]

theorem slice_full (p : Bytes) : slice p 0 p.length = p := by simp [slice]

theorem slice_mid (x y z : Bytes) : slice (x ++ (y ++ z)) x.length y.length = y := by
  simp [slice]

theorem slice_mid' {x y z : Bytes} {o n : Nat} (ho : o = x.length) (hn : n = y.length) :
    slice (x ++ (y ++ z)) o n = y := by subst ho hn; exact slice_mid x y z

theorem slice_append_left {x y : Bytes} {o n : Nat} (h : o + n ≤ x.length) :
    slice (x ++ y) o n = slice x o n := by
  simp only [slice]
  rw [List.drop_append_of_le_length (by omega), List.take_append_of_le_length (by simp; omega)]

theorem slice_append_right {x y : Bytes} {o n : Nat} (h : x.length ≤ o) :
    slice (x ++ y) o n = slice y (o - x.length) n := by
  simp only [slice]
  rw [List.drop_append, List.drop_of_length_le h]; simp

theorem slice_slice {p : Bytes} {o n o' n' : Nat} (h : o' + n' ≤ n) :
    slice (slice p o n) o' n' = slice p (o + o') n' := by
  simp only [slice]
  rw [List.drop_take, List.take_take, List.drop_drop]
  congr 1; omega

theorem slice_split (p : Bytes) (o m n : Nat) :
    slice p o (m + n) = slice p o m ++ slice p (o + m) n := by
  simp only [slice]
  rw [List.take_add, List.drop_drop]

theorem slice_take {p : Bytes} {o n k : Nat} (h : o + n ≤ k) : slice (p.take k) o n = slice p o n := by
  simp only [slice]
  rw [List.drop_take, List.take_take]; congr 1; omega

theorem slice_drop (p : Bytes) (o n k : Nat) : slice (p.drop k) o n = slice p (k + o) n := by
  simp [slice, List.drop_drop]

theorem take_eq_slice (p : Bytes) (n : Nat) : p.take n = slice p 0 n := by simp [slice]

theorem slice_eq_of_prefix {p q : Bytes} {o n : Nat} (h : p <+: q) (hl : o + n ≤ p.length) :
    slice q o n = slice p o n := by
  obtain ⟨t, rfl⟩ := h; exact slice_append_left hl

theorem decomp3 {p : Bytes} {o n : Nat} : p = p.take o ++ (slice p o n ++ p.drop (o + n)) := by
  simp only [slice]
  rw [← List.drop_drop, List.take_append_drop, List.take_append_drop]

theorem put_mid (x y z b : Bytes) (h : b.length = y.length) :
    put (x ++ (y ++ z)) x.length b = x ++ (b ++ z) := by
  simp only [put]
  rw [h, List.take_left', ← List.append_assoc x y z, ← List.length_append, List.drop_left]
  · simp
  · rfl

theorem put_mid' {x y z b : Bytes} {o : Nat} (ho : o = x.length) (h : b.length = y.length) :
    put (x ++ (y ++ z)) o b = x ++ (b ++ z) := by subst ho; exact put_mid x y z b h

theorem put_length {p b : Bytes} {o : Nat} (h : o + b.length ≤ p.length) :
    (put p o b).length = p.length := by
  simp only [put, List.length_append, List.length_take, List.length_drop]; omega

theorem put_append_left {p q b : Bytes} {o : Nat} (h : o + b.length ≤ p.length) :
    put (p ++ q) o b = put p o b ++ q := by
  simp only [put]
  rw [List.take_append_of_le_length (by omega), List.drop_append_of_le_length (by omega)]
  simp

theorem put_end (p b : Bytes) : put p p.length b = p ++ b := by
  simp [put]

theorem slice_put_same {p b : Bytes} {o : Nat} (h : o + b.length ≤ p.length) :
    slice (put p o b) o b.length = b := by
  simp only [put, List.append_assoc]
  exact slice_mid' (by simp; omega) rfl

theorem slice_put_before {p b : Bytes} {o o' n : Nat} (h : o' + n ≤ o) (ho : o ≤ p.length) :
    slice (put p o b) o' n = slice p o' n := by
  simp only [put, List.append_assoc]
  rw [slice_append_left (by simp; omega), slice_take h]

theorem slice_put_after {p b : Bytes} {o o' n : Nat} (h : o + b.length ≤ o') (ho : o ≤ p.length) :
    slice (put p o b) o' n = slice p o' n := by
  simp only [put]
  rw [slice_append_right (by simp; omega), slice_drop]
  congr 1; simp; omega

theorem peek_ok {p : Bytes} {o n : Nat} (h : o + n ≤ p.length) : peek p o n = .ok (slice p o n) := by
  simp [peek, h]

theorem poke_ok {p b : Bytes} {o : Nat} (h : o + b.length ≤ p.length) :
    poke p o b = .ok (put p o b) := by
  simp [poke, h]

theorem peek_mid {x y z : Bytes} {o n : Nat} (ho : o = x.length) (hn : n = y.length) :
    peek (x ++ (y ++ z)) o n = .ok y := by
  rw [peek_ok (by simp; omega), slice_mid' ho hn]

theorem poke_mid {x y z b : Bytes} {o : Nat} (ho : o = x.length) (h : b.length = y.length) :
    poke (x ++ (y ++ z)) o b = .ok (x ++ (b ++ z)) := by
  rw [poke_ok (by simp; omega), put_mid' ho h]

@[simp] theorem assert_true : assert true = .ok () := rfl

theorem assert_ok {c : Bool} (h : c = true) : assert c = .ok () := by subst h; rfl

theorem ext_slice1 {p q : Bytes} (hl : p.length = q.length)
    (h : ∀ i, i < p.length → slice p i 1 = slice q i 1) : p = q := by
  apply List.ext_getElem hl
  intro i h1 h2
  have := h i h1
  simp only [slice] at this
  rw [List.drop_eq_getElem_cons h1, List.drop_eq_getElem_cons h2] at this
  exact (List.cons.inj this).1

end NuDB
