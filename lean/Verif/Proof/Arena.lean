import Verif.Spec.Memory
import Verif.Proof.Bytes
/- The allocator: ownership of blocks and what each operation preserves. -/
namespace NuDB

/-- The blocks of an allocator are allocated, have the size the element says, and are
pairwise different. -/
structure Owns (h : Heap) (a : Arena) : Prop where
  blocks : ∀ e ∈ a.list, ∃ m, h.mem e.block = some m ∧ m.length = 24 + e.capacity ∧
    e.used ≤ e.capacity ∧ e.used % 8 = 0 ∧ e.block < h.next ∧ e.capacity < 2 ^ 63
  nodup : (a.list.map Elem.block).Nodup
  small : a.alloc < 2 ^ 62

/-- Two allocators have no block in common. -/
def Apart (a b : Arena) : Prop := ∀ e ∈ a.list, ∀ e' ∈ b.list, e.block ≠ e'.block

/-- `n` bytes at `p` were handed out by `a`. -/
def Inside (a : Arena) (p : Ptr) (n : Nat) : Prop :=
  ∃ e ∈ a.list, p.block = e.block ∧ 24 ≤ p.off ∧ p.off + n ≤ 24 + e.used ∧ p.off % 8 = 0

/-- No common byte. -/
def Clear (p : Ptr) (n : Nat) (q : Ptr) (m : Nat) : Prop :=
  p.block ≠ q.block ∨ p.off + n ≤ q.off ∨ q.off + m ≤ p.off

/-- What an allocation of `n` bytes at `p` changes. -/
structure MemGrown (h : Heap) (a : Arena) (n : Nat) (p : Ptr) (h' : Heap) (a' : Arena) : Prop where
  owns : Owns h' a'
  inside : Inside a' p n
  keep : ∀ q m, Inside a q m → Inside a' q m ∧ Clear p n q m
  frame : ∀ b, b < h.next → h'.mem b = h.mem b
  next : h.next ≤ h'.next
  names : ∀ e ∈ a'.list, (∃ e0 ∈ a.list, e.block = e0.block) ∨ e.block = h.next

theorem wrap_of_lt {n : Nat} (h : n < 2 ^ 64) : wrap n = n := Nat.mod_eq_of_lt h

theorem Elem.alloc_eq {e : Elem} {n : Nat} (hu : e.used ≤ e.capacity) (hc : e.capacity < 2 ^ 63) :
    e.alloc n = if n ≤ e.capacity - e.used then
      some (⟨e.block, 24 + e.used⟩, { e with used := e.used + n }) else none := by
  have hw : wrap (e.capacity + 2 ^ 64 - e.used) = e.capacity - e.used := by
    unfold wrap
    rw [show e.capacity + 2 ^ 64 - e.used = (e.capacity - e.used) + 2 ^ 64 by omega,
      Nat.add_mod_right, Nat.mod_eq_of_lt (by omega)]
  unfold Elem.alloc
  rw [hw]
  by_cases hn : n ≤ e.capacity - e.used
  · rw [if_neg (by omega), if_pos hn, wrap_of_lt (by omega)]; rfl
  · rw [if_pos (by omega), if_neg hn]

theorem allocHead_cons {e : Elem} {es : List Elem} {n : Nat} (hu : e.used ≤ e.capacity)
    (hc : e.capacity < 2 ^ 63) :
    allocHead (e :: es) n = if n ≤ e.capacity - e.used then
      some (⟨e.block, 24 + e.used⟩, { e with used := e.used + n } :: es) else none := by
  unfold allocHead
  dsimp only
  rw [Elem.alloc_eq hu hc]
  by_cases hn : n ≤ e.capacity - e.used
  · rw [if_pos hn, if_pos hn]; rfl
  · rw [if_neg hn, if_neg hn]; rfl

theorem roundup {n : Nat} (h0 : 0 < n) (h1 : n < 2 ^ 62) :
    ∃ m, 8 * (wrap (n + 7) / 8) = m ∧ n ≤ m ∧ m % 8 = 0 ∧ 0 < m ∧ m ≤ 2 ^ 62 := by
  refine ⟨_, rfl, ?_⟩
  rw [wrap_of_lt (by omega)]
  omega

theorem Arena.grow_spec {h : Heap} {a : Arena} {n : Nat} (ow : Owns h a) (h8 : n % 8 = 0)
    (hb : n ≤ 2 ^ 62) :
    a.grow h n = .ok (none, h, a) ∨
    ∃ p h' a', a.grow h n = .ok (some p, h', a') ∧ MemGrown h a n p h' a' := by
  have hs := ow.small
  have hm : max a.alloc n ≤ 2 ^ 62 := by omega
  have hn : n ≤ max a.alloc n := by omega
  unfold Arena.grow
  dsimp only
  rw [wrap_of_lt (by unfold elemSize; omega)]
  generalize hsz : max a.alloc n = sz at *
  by_cases hd : h.deny h.next = true
  · left
    rw [show h.new (elemSize + sz) = none from if_pos hd]
  · right
    rw [show h.new (elemSize + sz) = some (h.next, { h with
      mem := fun b => if b = h.next then some ((List.range (elemSize + sz)).map (h.junk h.next)) else h.mem b
      next := h.next + 1 }) from if_neg hd]
    dsimp only
    rw [if_neg (by omega), Elem.alloc_eq (by show (0:Nat) ≤ _; omega) (by show sz < _; omega),
      if_pos (by show n ≤ sz - 0; omega)]
    refine ⟨_, _, _, rfl, ?_⟩
    have fresh : ∀ e ∈ a.list, e.block < h.next := fun e he =>
      let ⟨_, _, _, _, _, x, _⟩ := ow.blocks e he; x
    constructor
    · constructor
      · intro e he
        rcases List.mem_cons.1 he with rfl | he
        · refine ⟨_, if_pos rfl, ?_, ?_, ?_, ?_, ?_⟩
          · simp [elemSize]
          · show 0 + n ≤ sz; omega
          · show (0 + n) % 8 = 0; omega
          · show h.next < h.next + 1; omega
          · show sz < _; omega
        · obtain ⟨m, a1, a2, a3, a4, a5, a6⟩ := ow.blocks e he
          refine ⟨m, ?_, a2, a3, a4, ?_, a6⟩
          · show (if e.block = h.next then _ else _) = _
            rw [if_neg (by omega)]; exact a1
          · show e.block < h.next + 1; omega
      · show (List.map Elem.block (_ :: a.list)).Nodup
        rw [List.map_cons, List.nodup_cons]
        refine ⟨?_, ow.nodup⟩
        intro hx
        obtain ⟨e, he, heq⟩ := List.mem_map.1 hx
        have := fresh e he
        simp at heq; omega
      · exact hs
    · exact ⟨_, List.mem_cons_self .., rfl, by simp, by simp, by simp⟩
    · intro q m hq
      obtain ⟨e, he, x⟩ := hq
      refine ⟨⟨e, List.mem_cons_of_mem _ he, x⟩, .inl ?_⟩
      have := fresh e he
      rw [x.1]; simp; omega
    · intro b hb
      show (if b = h.next then _ else _) = _
      rw [if_neg (by omega)]
    · show h.next ≤ h.next + 1; omega
    · intro e he
      rcases List.mem_cons.1 he with rfl | he
      · exact .inr rfl
      · exact .inl ⟨e, he, rfl⟩

theorem Clear.mono {p q : Ptr} {n n' m : Nat} (h : Clear p n q m) (hn : n' ≤ n) : Clear p n' q m := by
  unfold Clear at *; omega

theorem MemGrown.mono {h : Heap} {a : Arena} {n n' : Nat} {p : Ptr} {h' : Heap} {a' : Arena}
    (g : MemGrown h a n p h' a') (hn : n' ≤ n) : MemGrown h a n' p h' a' := by
  refine ⟨g.owns, ?_, ?_, g.frame, g.next, g.names⟩
  · obtain ⟨e, he, x1, x2, x3, x4⟩ := g.inside
    exact ⟨e, he, x1, x2, by omega, x4⟩
  · intro q m hq
    exact ⟨(g.keep q m hq).1, (g.keep q m hq).2.mono hn⟩

theorem Arena.allocate_spec {h : Heap} {a : Arena} {n : Nat} (ow : Owns h a) (h0 : 0 < n)
    (h1 : n < 2 ^ 62) :
    a.allocate h n = .ok (none, h, a) ∨
    ∃ p h' a', a.allocate h n = .ok (some p, h', a') ∧ MemGrown h a n p h' a' := by
  obtain ⟨m, hm, hnm, m8, mpos, mle⟩ := roundup h0 h1
  unfold Arena.allocate
  rw [assert_ok (by simp; omega), hm]
  show a.allocRounded h m = _ ∨ ∃ p h' a', a.allocRounded h m = _ ∧ _
  unfold Arena.allocRounded
  have gr : a.grow h m = .ok (none, h, a) ∨
    ∃ p h' a', a.grow h m = .ok (some p, h', a') ∧ MemGrown h a n p h' a' := by
    rcases Arena.grow_spec ow m8 mle with x | ⟨p, h', a', x, g⟩
    · exact .inl x
    · exact .inr ⟨p, h', a', x, g.mono hnm⟩
  cases hl : a.list with
  | nil => rw [show allocHead [] m = none from rfl]; exact gr
  | cons e es =>
    have he : e ∈ a.list := by rw [hl]; exact List.mem_cons_self ..
    obtain ⟨mm, b1, b2, b3, b4, b5, b6⟩ := ow.blocks e he
    rw [allocHead_cons b3 b6]
    by_cases hfit : m ≤ e.capacity - e.used
    · rw [if_pos hfit]
      right
      refine ⟨_, _, _, rfl, MemGrown.mono (n := m) ?_ hnm⟩
      have hnd := ow.nodup
      rw [hl, List.map_cons, List.nodup_cons] at hnd
      constructor
      · constructor
        · intro e' he'
          rcases List.mem_cons.1 he' with rfl | he'
          · exact ⟨mm, b1, b2, by show e.used + m ≤ e.capacity; omega,
              by show (e.used + m) % 8 = 0; omega, b5, b6⟩
          · exact ow.blocks e' (by rw [hl]; exact List.mem_cons_of_mem _ he')
        · show (List.map Elem.block (_ :: es)).Nodup
          rw [List.map_cons, List.nodup_cons]; exact hnd
        · exact ow.small
      · exact ⟨_, List.mem_cons_self .., rfl, by simp, by simp; omega, by simp; omega⟩
      · intro q k hq
        obtain ⟨e', he', x1, x2, x3, x4⟩ := hq
        rw [hl] at he'
        rcases List.mem_cons.1 he' with rfl | he'
        · refine ⟨⟨_, List.mem_cons_self .., x1, x2, by show q.off + k ≤ 24 + (e'.used + m); omega, x4⟩, ?_⟩
          right; right
          exact x3
        · refine ⟨⟨e', List.mem_cons_of_mem _ he', x1, x2, x3, x4⟩, .inl ?_⟩
          intro heq
          apply hnd.1
          rw [show e.block = q.block from heq, x1]
          exact List.mem_map_of_mem he'
      · intro b _; rfl
      · exact Nat.le_refl _
      · intro e' he'
        rcases List.mem_cons.1 he' with rfl | he'
        · exact .inl ⟨e, by rw [hl]; exact List.mem_cons_self .., rfl⟩
        · exact .inl ⟨e', by rw [hl]; exact List.mem_cons_of_mem _ he', rfl⟩
    · rw [if_neg hfit]; exact gr

/-- Handed out memory can be read. -/
theorem Inside.bounds {h : Heap} {a : Arena} {p : Ptr} {n : Nat} (ow : Owns h a) (i : Inside a p n) :
    ∃ m, h.mem p.block = some m ∧ p.off + n ≤ m.length ∧ p.block < h.next := by
  obtain ⟨e, he, x1, x2, x3, x4⟩ := i
  obtain ⟨m, b1, b2, b3, b4, b5, b6⟩ := ow.blocks e he
  exact ⟨m, by rw [x1]; exact b1, by omega, by rw [x1]; exact b5⟩

theorem Heap.read_congr {h h' : Heap} {p : Ptr} (hm : h'.mem p.block = h.mem p.block) (n : Nat) :
    h'.read p n = h.read p n := by unfold Heap.read; rw [hm]

theorem Heap.write_spec {h : Heap} {a : Arena} {p : Ptr} {bs : Bytes} (ow : Owns h a)
    (i : Inside a p bs.length) :
    ∃ h', h.write p bs = .ok h' ∧ h'.read p bs.length = .ok bs ∧ h'.next = h.next ∧
      (∀ q m, Clear p bs.length q m → h'.read q m = h.read q m) ∧
      (∀ b x, h.mem b = some x → ∃ y, h'.mem b = some y ∧ y.length = x.length) ∧
      ∀ b, b ≠ p.block → h'.mem b = h.mem b := by
  obtain ⟨m, hm, hb, hnx⟩ := i.bounds ow
  unfold Heap.write
  rw [hm]
  dsimp only
  rw [poke_ok hb]
  refine ⟨_, rfl, ?_, rfl, ?_, ?_, ?_⟩
  · unfold Heap.read
    dsimp only
    rw [if_pos rfl]
    dsimp only
    rw [peek_ok (by rw [put_length hb]; exact hb), slice_put_same hb]
  · intro q k hc
    unfold Heap.read
    dsimp only
    by_cases hq : q.block = p.block
    · rw [if_pos hq, hq, hm]
      dsimp only
      unfold peek
      rw [put_length hb]
      split
      · congr 1
        rcases hc with x | x | x
        · exact absurd hq.symm x
        · exact slice_put_after x (by omega)
        · exact slice_put_before x (by omega)
      · rfl
    · rw [if_neg hq]
  · intro b x hx
    dsimp only
    by_cases hq : b = p.block
    · subst hq
      rw [if_pos rfl]
      rw [hm] at hx
      cases hx
      exact ⟨_, rfl, put_length hb⟩
    · rw [if_neg hq]; exact ⟨x, hx, rfl⟩
  · intro b hne
    exact if_neg hne

theorem Owns.of_heap {h h' : Heap} {a : Arena} (ow : Owns h a) (hn : h.next ≤ h'.next)
    (hm : ∀ e ∈ a.list, ∀ x, h.mem e.block = some x → ∃ y, h'.mem e.block = some y ∧ y.length = x.length) :
    Owns h' a := by
  refine ⟨?_, ow.nodup, ow.small⟩
  intro e he
  obtain ⟨m, b1, b2, b3, b4, b5, b6⟩ := ow.blocks e he
  obtain ⟨y, y1, y2⟩ := hm e he m b1
  exact ⟨y, y1, by omega, b3, b4, by omega, b6⟩

theorem MemGrown.other {h h' : Heap} {a a' b : Arena} {n : Nat} {p : Ptr} (g : MemGrown h a n p h' a')
    (ow : Owns h b) (ap : Apart a b) : Owns h' b ∧ Apart a' b := by
  have fresh : ∀ e ∈ b.list, e.block < h.next := fun e he =>
    let ⟨_, _, _, _, _, x, _⟩ := ow.blocks e he; x
  refine ⟨ow.of_heap g.next ?_, ?_⟩
  · intro e he x hx
    exact ⟨x, by rw [g.frame _ (fresh e he)]; exact hx, rfl⟩
  · intro e he e' he' heq
    rcases g.names e he with ⟨e0, h0, x⟩ | x
    · exact ap e0 h0 e' he' (by omega)
    · have := fresh e' he'; omega

theorem Apart.clear {a b : Arena} {p q : Ptr} {n m : Nat} (ap : Apart a b) (i : Inside a p n)
    (j : Inside b q m) : p.block ≠ q.block := by
  obtain ⟨e, he, x, _⟩ := i
  obtain ⟨e', he', y, _⟩ := j
  rw [x, y]; exact ap e he e' he'

theorem freeAll_spec : ∀ (l : List Elem) (h : Heap),
    (∀ e ∈ l, ∃ m, h.mem e.block = some m) → (l.map Elem.block).Nodup →
    ∃ h', freeAll h l = .ok h' ∧ h'.next = h.next ∧
      ∀ b, (∀ e ∈ l, e.block ≠ b) → h'.mem b = h.mem b
  | [], h, _, _ => ⟨h, rfl, rfl, fun _ _ => rfl⟩
  | e :: es, h, ha, hn => by
    rw [List.map_cons, List.nodup_cons] at hn
    obtain ⟨m, hm⟩ := ha e (List.mem_cons_self ..)
    obtain ⟨h', x1, x2, x3⟩ := freeAll_spec es
      { h with mem := fun b' => if b' = e.block then none else h.mem b' } (by
        intro e' he'
        obtain ⟨m', hm'⟩ := ha e' (List.mem_cons_of_mem _ he')
        refine ⟨m', ?_⟩
        show (if e'.block = e.block then _ else _) = _
        rw [if_neg]
        · exact hm'
        · intro heq
          exact hn.1 (by rw [← heq]; exact List.mem_map_of_mem he')) hn.2
    refine ⟨h', ?_, x2, ?_⟩
    · unfold freeAll Heap.delete
      rw [hm]
      exact x1
    · intro b hb
      rw [x3 b (fun e' he' => hb e' (List.mem_cons_of_mem _ he'))]
      exact if_neg (Ne.symm (hb e (List.mem_cons_self ..)))

theorem Arena.clear_spec {h : Heap} {a : Arena} (ow : Owns h a) :
    ∃ h', a.clear h = .ok (h', { a with used := 0, list := [] }) ∧ h'.next = h.next ∧
      ∀ b, (∀ e ∈ a.list, e.block ≠ b) → h'.mem b = h.mem b := by
  obtain ⟨h', x1, x2, x3⟩ := freeAll_spec a.list h
    (fun e he => let ⟨m, x, _⟩ := ow.blocks e he; ⟨m, x⟩) ow.nodup
  refine ⟨h', ?_, x2, x3⟩
  unfold Arena.clear
  rw [x1]; rfl

theorem Owns.nil {h : Heap} {a : Arena} (hl : a.list = []) (hs : a.alloc < 2 ^ 62) : Owns h a :=
  ⟨fun e he => by (rw [hl] at he; cases he), (by rw [hl]; exact List.nodup_nil), hs⟩

theorem Owns.periodic {h : Heap} {a : Arena} {r : Option Nat} (ow : Owns h a)
    (hr : ∀ x, r = some x → x < 2 ^ 62) :
    Owns h (a.periodic r) ∧ (a.periodic r).list = a.list := by
  have hs := ow.small
  cases r with
  | none => exact ⟨ow, rfl⟩
  | some r =>
    have hr := hr r rfl
    unfold Arena.periodic
    dsimp only
    rw [wrap_of_lt (by omega)]
    split
    · exact ⟨⟨ow.blocks, ow.nodup, by show max r (a.alloc * 2) < _; omega⟩, rfl⟩
    · split
      · exact ⟨⟨ow.blocks, ow.nodup, by show a.alloc / 2 < _; omega⟩, rfl⟩
      · exact ⟨ow, rfl⟩

theorem Owns.swap {h : Heap} {a b : Arena} (oa : Owns h a) (ob : Owns h b) :
    Owns h (a.swap b).1 ∧ Owns h (a.swap b).2 :=
  ⟨⟨ob.blocks, ob.nodup, oa.small⟩, ⟨oa.blocks, oa.nodup, ob.small⟩⟩

theorem Inside.congr {a b : Arena} {p : Ptr} {n : Nat} (i : Inside a p n) (hl : b.list = a.list) :
    Inside b p n := by unfold Inside at *; rw [hl]; exact i

end NuDB
