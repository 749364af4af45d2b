import Verif.Proof.Arena
/-
C42: memory handed out by the allocator of the insert buffer.
-/
namespace NuDB
open Spec

structure MemInv (h : Heap) (as : Nat → Arena) (live : List Region) : Prop where
  owns : ∀ i, Owns h (as i)
  apart : ∀ i j, i ≠ j → Apart (as i) (as j)
  inside : ∀ r ∈ live, Inside (as r.owner) r.ptr r.data.length
  content : ∀ r ∈ live, h.read r.ptr r.data.length = .ok r.data
  disjoint : live.Pairwise Region.disjoint

theorem Apart.symm {a b : Arena} (h : Apart a b) : Apart b a :=
  fun e he e' he' heq => h e' he' e he heq.symm

theorem upd_same (f : Nat → α) (i : Nat) (x : α) : upd f i x i = x := if_pos rfl
theorem upd_other (f : Nat → α) {i j : Nat} (x : α) (h : j ≠ i) : upd f i x j = f j := if_neg h

theorem MemInv.store {h : Heap} {as : Nat → Arena} {live : List Region} (inv : MemInv h as live)
    (i : Nat) {data : Bytes} (h0 : 0 < data.length) (h1 : data.length < 2 ^ 62) :
    ∃ p h' as', (MemOp.store i data).run h as = .ok (p, h', as') ∧
      MemInv h' as' ((MemOp.store i data).live p live) := by
  unfold MemOp.run
  dsimp only
  rcases Arena.allocate_spec (inv.owns i) h0 h1 with x | ⟨p, h', a', x, g⟩
  · rw [x]
    refine ⟨_, _, _, rfl, ?_⟩
    rw [show upd as i (as i) = as from by
      funext j; unfold upd; split
      · next hj => rw [hj]
      · rfl]
    exact inv
  · rw [x]
    obtain ⟨h2, w1, w2, w3, w4, w5, w6⟩ := Heap.write_spec g.owns g.inside
    show ∃ p' h'' as', ((do
      let h ← h'.write p data
      return (some p, h, upd as i a')) : Res _) = .ok (p', h'', as') ∧ _
    rw [w1]
    refine ⟨_, _, _, rfl, ?_⟩
    have other : ∀ j, j ≠ i → Owns h' (as j) ∧ Apart a' (as j) := fun j hj =>
      g.other (inv.owns j) (inv.apart i j (Ne.symm hj))
    have ins : ∀ r ∈ live, Inside (upd as i a' r.owner) r.ptr r.data.length ∧
        Clear p data.length r.ptr r.data.length := by
      intro r hr
      have hi := inv.inside r hr
      by_cases ho : r.owner = i
      · rw [ho] at hi ⊢
        rw [upd_same]
        exact g.keep _ _ hi
      · rw [upd_other _ _ ho]
        exact ⟨hi, .inl ((other _ ho).2.clear g.inside hi)⟩
    constructor
    · intro j
      by_cases hj : j = i
      · subst hj
        rw [upd_same]
        exact g.owns.of_heap (by omega) (fun e _ x hx => w5 _ x hx)
      · rw [upd_other _ _ hj]
        exact (other j hj).1.of_heap (by omega) (fun e _ x hx => w5 _ x hx)
    · intro j k hjk
      by_cases hj : j = i
      · subst hj
        rw [upd_same, upd_other _ _ (Ne.symm hjk)]
        exact (other k (Ne.symm hjk)).2
      · rw [upd_other _ _ hj]
        by_cases hk : k = i
        · subst hk
          rw [upd_same]
          exact (other j hj).2.symm
        · rw [upd_other _ _ hk]; exact inv.apart j k hjk
    · intro r hr
      rcases List.mem_cons.1 hr with rfl | hr
      · show Inside (upd as i a' i) p data.length
        rw [upd_same]; exact g.inside
      · exact (ins r hr).1
    · intro r hr
      rcases List.mem_cons.1 hr with rfl | hr
      · exact w2
      · rw [w4 _ _ (ins r hr).2]
        obtain ⟨m, _, _, hn⟩ := (inv.inside r hr).bounds (inv.owns r.owner)
        rw [Heap.read_congr (g.frame _ hn)]
        exact inv.content r hr
    · exact List.pairwise_cons.2 ⟨fun r hr => (ins r hr).2, inv.disjoint⟩

theorem MemInv.step {h : Heap} {as : Nat → Arena} {live : List Region} (inv : MemInv h as live)
    (o : MemOp) (hs : o.sane) :
    ∃ p h' as', o.run h as = .ok (p, h', as') ∧ MemInv h' as' (o.live p live) := by
  cases o with
  | store i data => exact inv.store i hs.1 hs.2
  | clear i =>
    obtain ⟨h', x1, x2, x3⟩ := Arena.clear_spec (inv.owns i)
    unfold MemOp.run
    dsimp only
    rw [x1]
    refine ⟨none, h', upd as i _, rfl, ?_⟩
    have frame : ∀ j, j ≠ i → ∀ e ∈ (as j).list, h'.mem e.block = h.mem e.block := by
      intro j hj e he
      exact x3 _ (fun e' he' => inv.apart i j (Ne.symm hj) e' he' e he)
    have keep : ∀ r ∈ live.filter (fun r => r.owner ≠ i), r ∈ live ∧ r.owner ≠ i := by
      intro r hr; simpa using List.mem_filter.1 hr
    constructor
    · intro j
      by_cases hj : j = i
      · subst hj; rw [upd_same]; exact Owns.nil rfl (inv.owns j).small
      · rw [upd_other _ _ hj]
        exact (inv.owns j).of_heap (by omega) (fun e he x hx => ⟨x, by rw [frame j hj e he]; exact hx, rfl⟩)
    · intro j k hjk e he e' he'
      by_cases hj : j = i
      · subst hj; rw [upd_same] at he; cases he
      · by_cases hk : k = i
        · subst hk; rw [upd_same] at he'; cases he'
        · rw [upd_other _ _ hj] at he
          rw [upd_other _ _ hk] at he'
          exact inv.apart j k hjk e he e' he'
    · intro r hr
      have := keep r hr
      rw [upd_other _ _ this.2]; exact inv.inside r this.1
    · intro r hr
      have hk := keep r hr
      obtain ⟨e, he, hb, _⟩ := inv.inside r hk.1
      rw [Heap.read_congr (h := h) (by rw [hb]; exact frame _ hk.2 e he)]
      exact inv.content r hk.1
    · exact inv.disjoint.filter _
  | periodic i r =>
    obtain ⟨y1, y2⟩ := (inv.owns i).periodic (r := r) (fun x hx => by subst hx; exact hs)
    refine ⟨_, _, _, rfl, ?_⟩
    have hl : ∀ j, (upd as i ((as i).periodic r) j).list = (as j).list := by
      intro j
      by_cases hj : j = i
      · subst hj; rw [upd_same, y2]
      · rw [upd_other _ _ hj]
    constructor
    · intro j
      by_cases hj : j = i
      · subst hj; rw [upd_same]; exact y1
      · rw [upd_other _ _ hj]; exact inv.owns j
    · intro j k hjk
      unfold Apart; rw [hl, hl]; exact inv.apart j k hjk
    · intro q hq
      exact (inv.inside q hq).congr (hl _)
    · exact inv.content
    · exact inv.disjoint
  | swap i j =>
    refine ⟨none, h, upd (upd as i ((as i).swap (as j)).1) j ((as i).swap (as j)).2, rfl, ?_⟩
    let σ : Nat → Nat := fun k => if k = i then j else if k = j then i else k
    have sinj : ∀ k l, k ≠ l → σ k ≠ σ l := by
      intro k l hkl
      show (if k = i then j else if k = j then i else k) ≠ (if l = i then j else if l = j then i else l)
      repeat' split
      all_goals omega
    have sinv : ∀ k, σ (σ k) = k := by
      intro k
      show (if σ k = i then j else if σ k = j then i else σ k) = k
      have : σ k = if k = i then j else if k = j then i else k := rfl
      rw [this]
      repeat' split
      all_goals omega
    have hl : ∀ k, (upd (upd as i ((as i).swap (as j)).1) j ((as i).swap (as j)).2 k).list
        = (as (σ k)).list := by
      intro k
      have hσ : σ k = if k = i then j else if k = j then i else k := rfl
      by_cases hj : k = j
      · subst hj
        rw [upd_same, hσ]
        by_cases hi : k = i
        · subst hi; rw [if_pos rfl]; rfl
        · rw [if_neg hi, if_pos rfl]; rfl
      · rw [upd_other _ _ hj, hσ]
        by_cases hi : k = i
        · subst hi; rw [upd_same, if_pos rfl]; rfl
        · rw [upd_other _ _ hi, if_neg hi, if_neg hj]
    have ha : ∀ k, (upd (upd as i ((as i).swap (as j)).1) j ((as i).swap (as j)).2 k).alloc
        = (as k).alloc := by
      intro k
      by_cases hj : k = j
      · subst hj; rw [upd_same]; rfl
      · rw [upd_other _ _ hj]
        by_cases hi : k = i
        · subst hi; rw [upd_same]; rfl
        · rw [upd_other _ _ hi]
    constructor
    · intro k
      refine ⟨?_, ?_, ?_⟩
      · rw [hl]; exact (inv.owns _).blocks
      · rw [hl]; exact (inv.owns _).nodup
      · rw [ha]; exact (inv.owns _).small
    · intro k l hkl
      unfold Apart; rw [hl, hl]
      exact inv.apart _ _ (sinj k l hkl)
    · intro r hr
      obtain ⟨q, hq, rfl⟩ := List.mem_map.1 hr
      refine Inside.congr (a := as q.owner) (inv.inside q hq) ?_
      have := hl (σ q.owner)
      rw [sinv] at this
      exact this
    · intro r hr
      obtain ⟨q, hq, rfl⟩ := List.mem_map.1 hr
      exact inv.content q hq
    · exact List.pairwise_map.2 (inv.disjoint.imp (fun x => x))
  | move i =>
    refine ⟨none, h, upd as i (as i).move.1, rfl, ?_⟩
    rw [show upd as i (as i).move.1 = as from by
      funext j; unfold upd; split
      · next hj => rw [hj]; rfl
      · rfl]
    exact inv

theorem MemInv.run : ∀ (ops : List MemOp) (h : Heap) (as : Nat → Arena) (live : List Region),
    MemInv h as live → (∀ o ∈ ops, o.sane) →
    ∃ live' h' as', runMem ops h as live = .ok (live', h', as') ∧ MemInv h' as' live'
  | [], h, as, live, inv, _ => ⟨live, h, as, rfl, inv⟩
  | o :: os, h, as, live, inv, hs => by
    obtain ⟨p, h1, as1, x, inv1⟩ := inv.step o (hs o (List.mem_cons_self ..))
    obtain ⟨live', h', as', y, inv'⟩ := MemInv.run os h1 as1 _ inv1
      (fun o' ho' => hs o' (List.mem_cons_of_mem _ ho'))
    refine ⟨live', h', as', ?_, inv'⟩
    unfold runMem
    rw [x]
    exact y

/-- C42: whatever any number of allocators are asked to do, in any order and starting from
any heap, nothing undefined happens, and at every moment the memory regions in use do not
overlap, start at a multiple of 8 bytes in their block, lie behind the element header in a
block that the owning allocator has in its list, and still hold what was stored in them. -/
theorem C42 (ops : List MemOp) (hs : ∀ o ∈ ops, o.sane) (h0 : Heap) :
    ∃ live h as, runMem ops h0 (fun _ => .empty) [] = .ok (live, h, as) ∧
      live.Pairwise Region.disjoint ∧
      ∀ r ∈ live, r.ptr.off % 8 = 0 ∧ h.read r.ptr r.data.length = .ok r.data ∧
        ∃ e ∈ (as r.owner).list, e.block = r.ptr.block ∧ elemSize ≤ r.ptr.off ∧
          r.ptr.off + r.data.length ≤ elemSize + e.capacity := by
  have inv0 : MemInv h0 (fun _ => .empty) [] := by
    refine ⟨fun i => Owns.nil rfl (by show (0:Nat) < 2 ^ 62; omega), ?_, ?_, ?_, List.Pairwise.nil⟩
    · intro i j _ e he; cases he
    · intro r hr; cases hr
    · intro r hr; cases hr
  obtain ⟨live, h, as, x, inv⟩ := MemInv.run ops h0 _ _ inv0 hs
  refine ⟨live, h, as, x, inv.disjoint, ?_⟩
  intro r hr
  obtain ⟨e, he, a1, a2, a3, a4⟩ := inv.inside r hr
  obtain ⟨m, b1, b2, b3, b4, b5, b6⟩ := (inv.owns r.owner).blocks e he
  refine ⟨a4, inv.content r hr, e, he, a1.symm, a2, ?_⟩
  show r.ptr.off + r.data.length ≤ 24 + e.capacity
  omega

/-- An empty heap where every request is granted. -/
def roomy : Heap := ⟨fun _ => none, 0, fun _ _ => 0xcd, fun _ => false⟩

/-- Two allocators in use, blocks of 32 bytes, swap and clear. -/
def memDemo : List MemOp :=
  [.periodic 0 (some 32), .store 0 [1, 2, 3], .store 0 [4, 5, 6, 7, 8, 9, 10, 11, 12], .store 1 [7],
   .swap 0 1, .store 0 [13], .store 1 [14, 15], .move 1, .clear 0, .store 0 [16]]

/-- The premise of `C42` for this run; what is left in use at its end. -/
example : (∀ o ∈ memDemo, o.sane) ∧
    (match runMem memDemo roomy (fun _ => .empty) [] with
     | .ok (live, _, _) => live.map (fun r => (r.owner, r.ptr.block, r.ptr.off, r.data))
     | .error _ => []) =
    [(0, 3, 24, [16]), (1, 0, 48, [14, 15]), (1, 0, 32, [4, 5, 6, 7, 8, 9, 10, 11, 12]),
     (1, 0, 24, [1, 2, 3])] := by
  refine ⟨?_, by decide +kernel⟩
  intro o ho
  simp only [memDemo, List.mem_cons, List.not_mem_nil, or_false] at ho
  rcases ho with rfl | rfl | rfl | rfl | rfl | rfl | rfl | rfl | rfl | rfl <;> simp [MemOp.sane]

end NuDB
