import Verif.Spec.List
import Verif.Props.Memory
/-
C41: the scheduler's intrusive lists.
-/
namespace NuDB
open Spec

/-- A segment of linked nodes between `p` and `n`. -/
def Seg (m : Links) (p : Option Nat) : List Nat → Option Nat → Prop
  | [], _ => True
  | x :: xs, n => m.prev x = p ∧ m.next x = (xs.head?).or n ∧ Seg m (some x) xs n

theorem seg_linked {m : Links} : ∀ {xs : List Nat} {p : Option Nat}, Seg m p xs none ↔ Linked m p xs
  | [], _ => Iff.rfl
  | x :: xs, p => by
    show (m.prev x = p ∧ m.next x = (xs.head?).or none ∧ Seg m (some x) xs none) ↔
      (m.prev x = p ∧ m.next x = xs.head? ∧ Linked m (some x) xs)
    rw [seg_linked, Option.or_none]

theorem getLast?_cons_or (x : Nat) (xs : List Nat) (p : Option Nat) :
    ((x :: xs).getLast?).or p = (xs.getLast?).or (some x) := by
  cases xs with
  | nil => rfl
  | cons y ys =>
    rw [List.getLast?_cons_cons, List.getLast?_eq_some_getLast (by simp)]
    rfl

theorem head?_append_or (xs ys : List Nat) (n : Option Nat) :
    ((xs ++ ys).head?).or n = (xs.head?).or ((ys.head?).or n) := by
  cases xs <;> simp

theorem Seg.append {m : Links} : ∀ {xs ys : List Nat} {p n : Option Nat},
    Seg m p (xs ++ ys) n ↔ Seg m p xs ((ys.head?).or n) ∧ Seg m ((xs.getLast?).or p) ys n
  | [], ys, p, n => by simp [Seg]
  | x :: xs, ys, p, n => by
    show (_ ∧ m.next x = ((xs ++ ys).head?).or n ∧ Seg m (some x) (xs ++ ys) n) ↔
      (_ ∧ m.next x = (xs.head?).or ((ys.head?).or n) ∧ Seg m (some x) xs _) ∧ _
    rw [Seg.append, head?_append_or, getLast?_cons_or]
    constructor
    · rintro ⟨a, b, c, d⟩; exact ⟨⟨a, b, c⟩, d⟩
    · rintro ⟨⟨a, b, c⟩, d⟩; exact ⟨a, b, c, d⟩

/-- Changing only the forward link of the last node. -/
theorem Seg.end {m m' : Links} {n n' : Option Nat} : ∀ {xs : List Nat} {p : Option Nat}, Seg m p xs n →
    xs.Nodup → (∀ x ∈ xs, m'.prev x = m.prev x) →
    (∀ x ∈ xs, xs.getLast? ≠ some x → m'.next x = m.next x) →
    (∀ z, xs.getLast? = some z → m'.next z = n') → Seg m' p xs n'
  | [], _, _, _, _, _, _ => trivial
  | x :: xs, p, h, hn, h1, h2, h3 => by
    obtain ⟨a, b, c⟩ := h
    rw [List.nodup_cons] at hn
    refine ⟨(h1 x (List.mem_cons_self ..)).trans a, ?_, ?_⟩
    · cases xs with
      | nil => exact h3 x rfl
      | cons y ys =>
        rw [h2 x (List.mem_cons_self ..)]
        · exact b
        · rw [List.getLast?_cons_cons]
          intro hx
          exact hn.1 (List.mem_of_getLast? hx)
    · cases xs with
      | nil => trivial
      | cons y ys =>
        refine Seg.end c hn.2 (fun z hz => h1 z (List.mem_cons_of_mem _ hz)) (fun z hz hl => ?_) (fun z hz => ?_)
        · exact h2 z (List.mem_cons_of_mem _ hz) (by rw [List.getLast?_cons_cons]; exact hl)
        · exact h3 z (by rw [List.getLast?_cons_cons]; exact hz)

/-- Changing only the backward link of the first node. -/
theorem Seg.start {m m' : Links} {n p p' : Option Nat} {xs : List Nat} (h : Seg m p xs n)
    (hn : xs.Nodup) (h1 : ∀ x ∈ xs, m'.next x = m.next x)
    (h2 : ∀ x ∈ xs, xs.head? ≠ some x → m'.prev x = m.prev x)
    (h3 : ∀ z, xs.head? = some z → m'.prev z = p') : Seg m' p' xs n := by
  cases xs with
  | nil => trivial
  | cons x xs =>
    obtain ⟨a, b, c⟩ := h
    rw [List.nodup_cons] at hn
    refine ⟨h3 x rfl, (h1 x (List.mem_cons_self ..)).trans b, ?_⟩
    have hne : ∀ z ∈ xs, m'.prev z = m.prev z := fun z hz =>
      h2 z (List.mem_cons_of_mem _ hz) (by
        intro hx; simp at hx; subst hx; exact hn.1 hz)
    have hnx : ∀ z ∈ xs, m'.next z = m.next z := fun z hz => h1 z (List.mem_cons_of_mem _ hz)
    clear a b h2 h3 h1 hn
    induction xs generalizing x with
    | nil => trivial
    | cons y ys ih =>
      obtain ⟨a, b, c⟩ := c
      exact ⟨(hne y (List.mem_cons_self ..)).trans a, (hnx y (List.mem_cons_self ..)).trans b,
        ih y c (fun z hz => hne z (List.mem_cons_of_mem _ hz)) (fun z hz => hnx z (List.mem_cons_of_mem _ hz))⟩

theorem Seg.congr {m m' : Links} {n p : Option Nat} {xs : List Nat} (h : Seg m p xs n)
    (h1 : ∀ x ∈ xs, m'.next x = m.next x ∧ m'.prev x = m.prev x) : Seg m' p xs n := by
  induction xs generalizing p with
  | nil => trivial
  | cons x xs ih =>
    obtain ⟨a, b, c⟩ := h
    have hx := h1 x (List.mem_cons_self ..)
    exact ⟨hx.2.trans a, hx.1.trans b, ih c (fun z hz => h1 z (List.mem_cons_of_mem _ hz))⟩

/-- The links of other nodes stay. -/
def Frame (m m' : Links) (xs : List Nat) : Prop :=
  ∀ x, x ∉ xs → m'.next x = m.next x ∧ m'.prev x = m.prev x

theorem Spec.IsList.frame {m m' : Links} {l : LList} {xs ys : List Nat} (h : IsList m l ys) (f : Frame m m' xs)
    (d : ∀ x ∈ ys, x ∉ xs) : IsList m' l ys :=
  ⟨h.head, h.tail, seg_linked.1 ((seg_linked.2 h.links).congr (fun x hx => f x (d x hx)))⟩

/-- C41 for `push_back`: the node is appended, other lists are not affected. -/
theorem C41_push {m : Links} {l : LList} {xs : List Nat} {node : Nat} (h : IsList m l xs)
    (hn : xs.Nodup) (hx : node ∉ xs) :
    IsList (l.pushBack m node).1 (l.pushBack m node).2 (xs ++ [node]) ∧
    Frame m (l.pushBack m node).1 (node :: xs) := by
  unfold LList.pushBack
  dsimp only
  rw [h.head, h.tail]
  refine ⟨⟨?_, ?_, ?_⟩, ?_⟩
  · cases xs <;> simp
  · simp
  · apply seg_linked.1
    rw [Seg.append]
    have hne : ∀ z ∈ xs, z ≠ node := fun z hz e => hx (e ▸ hz)
    cases hl : xs.getLast? with
    | none =>
      rw [List.getLast?_eq_none_iff] at hl
      subst hl
      refine ⟨trivial, ?_, ?_, trivial⟩
      · simp [Links.setNext, Links.setPrev]
      · simp [Links.setNext, Links.setPrev]
    | some t =>
      have ht : t ∈ xs := List.mem_of_getLast? hl
      refine ⟨?_, ?_, ?_, trivial⟩
      · refine (seg_linked.2 h.links).end hn ?_ ?_ ?_
        · intro z hz
          simp [Links.setNext, Links.setPrev, hne z hz]
        · intro z hz hne'
          rw [hl] at hne'
          have : z ≠ t := fun e => hne' (by rw [e])
          simp [Links.setNext, Links.setPrev, hne z hz, this]
        · intro z hz
          rw [hl] at hz; cases hz
          simp [Links.setNext, Links.setPrev]
      · simp [Links.setNext, Links.setPrev]
      · have : node ≠ t := fun e => hx (e ▸ ht)
        simp [Links.setNext, Links.setPrev, this]
  · intro z hz
    simp only [List.mem_cons, not_or] at hz
    cases hl : xs.getLast? with
    | none => simp [Links.setNext, Links.setPrev, hz.1]
    | some t =>
      have : z ≠ t := fun e => hz.2 (e ▸ List.mem_of_getLast? hl)
      simp [Links.setNext, Links.setPrev, hz.1, this]

theorem filter_ne {a b : List Nat} {x : Nat} (hn : (a ++ x :: b).Nodup) :
    (a ++ x :: b).filter (fun y => y ≠ x) = a ++ b := by
  rw [List.nodup_append] at hn
  obtain ⟨h1, h2, h3⟩ := hn
  rw [List.nodup_cons] at h2
  rw [List.filter_append, List.filter_cons]
  rw [List.filter_eq_self.2, List.filter_eq_self.2]
  · simp
  · intro y hy; simp; rintro rfl; exact h2.1 hy
  · intro y hy; simp; rintro rfl; exact h3 y hy y (List.mem_cons_self ..) rfl

/-- C41 for `erase`: exactly the given element disappears, its links are reset, other lists are not
affected. -/
theorem C41_erase {m : Links} {l : LList} {xs : List Nat} {node : Nat} (h : IsList m l xs)
    (hn : xs.Nodup) (hx : node ∈ xs) :
    IsList (l.erase m node).1 (l.erase m node).2 (xs.filter (fun x => x ≠ node)) ∧
    (l.erase m node).1.next node = none ∧ (l.erase m node).1.prev node = none ∧
    Frame m (l.erase m node).1 xs := by
  obtain ⟨a, b, rfl⟩ := List.append_of_mem hx
  rw [filter_ne hn]
  have hs := seg_linked.2 h.links
  rw [Seg.append] at hs
  obtain ⟨sa, hp, hnx, sb⟩ := hs
  rw [Option.or_none] at hp hnx
  have hn0 := hn
  rw [List.nodup_append] at hn
  obtain ⟨na, nb, nd⟩ := hn
  rw [List.nodup_cons] at nb
  have xa : ∀ z ∈ a, z ≠ node := fun z hz => nd z hz node (List.mem_cons_self ..)
  have xb : ∀ z ∈ b, z ≠ node := fun z hz e => nb.1 (e ▸ hz)
  have dab : ∀ z ∈ a, ∀ y ∈ b, z ≠ y := fun z hz y hy => nd z hz y (List.mem_cons_of_mem _ hy)
  have hhead := h.head
  have htail := h.tail
  -- the result, whichever neighbours there are
  have key : ∀ m' l', (∀ z, z ≠ node → b.head? ≠ some z → m'.prev z = m.prev z) →
      (∀ z, b.head? = some z → m'.prev z = a.getLast?) →
      (∀ z, z ≠ node → a.getLast? ≠ some z → m'.next z = m.next z) →
      (∀ z, a.getLast? = some z → m'.next z = b.head?) →
      l'.head = (a ++ b).head? → l'.tail = (a ++ b).getLast? →
      IsList m' l' (a ++ b) ∧ Frame m m' (a ++ node :: b) := by
    intro m' l' p1 p2 q1 q2 e1 e2
    refine ⟨⟨e1, e2, seg_linked.1 ?_⟩, ?_⟩
    · rw [Seg.append, Option.or_none, Option.or_none]
      refine ⟨sa.end na ?_ ?_ q2, Seg.start sb nb.2 ?_ ?_ p2⟩
      · intro z hz
        exact p1 z (xa z hz) (fun e => dab z hz z (List.mem_of_head? e) rfl)
      · intro z hz hl; exact q1 z (xa z hz) hl
      · intro z hz
        exact q1 z (xb z hz) (fun e => dab z (List.mem_of_getLast? e) z hz rfl)
      · intro z hz hl; exact p1 z (xb z hz) hl
    · intro z hz
      simp only [List.mem_append, List.mem_cons, not_or] at hz
      exact ⟨q1 z hz.2.1 (fun e => hz.1 (List.mem_of_getLast? e)),
        p1 z hz.2.1 (fun e => hz.2.2 (List.mem_of_head? e))⟩
  unfold LList.erase
  rw [hnx]
  cases hb : b.head? with
  | none =>
    rw [List.head?_eq_none_iff] at hb
    subst hb
    dsimp only
    rw [hp]
    cases ha : a.getLast? with
    | none =>
      rw [List.getLast?_eq_none_iff] at ha
      subst ha
      dsimp only
      have hnx' : m.next node = none := hnx
      have := key ((m.setNext node none).setPrev node none) ⟨m.next node, none⟩
        (by intro z hz _; simp [Links.setNext, Links.setPrev, hz])
        (by intro z hz; cases hz)
        (by intro z hz _; simp [Links.setNext, Links.setPrev, hz])
        (by intro z hz; cases hz) hnx' rfl
      exact ⟨this.1, by simp [Links.setNext, Links.setPrev], by simp [Links.setNext, Links.setPrev], this.2⟩
    | some t =>
      have ta : t ∈ a := List.mem_of_getLast? ha
      have tn := xa t ta
      dsimp only
      have hnx' : m.next node = none := hnx
      have := key (((m.setNext t (m.next node)).setNext node none).setPrev node none) ⟨l.head, some t⟩
        (by intro z hz _; simp [Links.setNext, Links.setPrev, hz])
        (by intro z hz; cases hz)
        (by
          intro z hz hne
          have : z ≠ t := fun e => hne (by rw [ha, e])
          simp [Links.setNext, Links.setPrev, hz, this])
        (by
          intro z hz
          rw [ha] at hz; cases hz
          simp [Links.setNext, Links.setPrev, tn, hnx'])
        (by
          show l.head = (a ++ []).head?
          rw [hhead, List.append_nil]
          cases a with
          | nil => cases ta
          | cons y ys => rfl)
        (by rw [List.append_nil]; exact ha.symm)
      exact ⟨this.1, by simp [Links.setNext, Links.setPrev], by simp [Links.setNext, Links.setPrev], this.2⟩
  | some n =>
    have nbm : n ∈ b := List.mem_of_head? hb
    have nn := xb n nbm
    dsimp only
    have e1 : (m.setPrev n (m.prev node)).prev node = a.getLast? := by
      simp [Links.setPrev, Ne.symm nn, hp]
    have e2 : (m.setPrev n (m.prev node)).next node = some n := by
      show m.next node = some n
      rw [hnx, hb]
    rw [e1]
    have tl : l.tail = (a ++ b).getLast? := by
      rw [htail]
      cases b with
      | nil => cases nbm
      | cons y ys =>
        rw [List.getLast?_append, List.getLast?_cons_cons, List.getLast?_append]
    cases ha : a.getLast? with
    | none =>
      rw [List.getLast?_eq_none_iff] at ha
      subst ha
      dsimp only
      have := key (((m.setPrev n (m.prev node)).setNext node none).setPrev node none)
        ⟨(m.setPrev n (m.prev node)).next node, l.tail⟩
        (by
          intro z hz hne
          have : z ≠ n := fun e => hne (by rw [hb, e])
          simp [Links.setNext, Links.setPrev, hz, this])
        (by
          intro z hz
          rw [hb] at hz; cases hz
          simp [Links.setNext, Links.setPrev, nn, hp])
        (by intro z hz _; simp [Links.setNext, Links.setPrev, hz])
        (by intro z hz; cases hz)
        (by show (m.setPrev n (m.prev node)).next node = b.head?; rw [e2, hb]) tl
      exact ⟨this.1, by simp [Links.setNext, Links.setPrev], by simp [Links.setNext, Links.setPrev], this.2⟩
    | some t =>
      have ta : t ∈ a := List.mem_of_getLast? ha
      have tn := xa t ta
      dsimp only
      have := key ((((m.setPrev n (m.prev node)).setNext t ((m.setPrev n (m.prev node)).next node)).setNext node none).setPrev node none)
        l
        (by
          intro z hz hne
          have : z ≠ n := fun e => hne (by rw [hb, e])
          simp [Links.setNext, Links.setPrev, hz, this])
        (by
          intro z hz
          rw [hb] at hz; cases hz
          simp [Links.setNext, Links.setPrev, nn, hp])
        (by
          intro z hz hne
          have : z ≠ t := fun e => hne (by rw [ha, e])
          simp [Links.setNext, Links.setPrev, hz, this])
        (by
          intro z hz
          rw [ha] at hz; cases hz
          rw [e2]
          simp [Links.setNext, Links.setPrev, tn, hb])
        (by
          rw [hhead]
          cases a with
          | nil => cases ta
          | cons y ys => rfl)
        tl
      exact ⟨this.1, by simp [Links.setNext, Links.setPrev], by simp [Links.setNext, Links.setPrev], this.2⟩

/-- C41 for `splice`: the elements of the second list follow those of the first, the second list
is empty afterwards, other lists are not affected. -/
theorem C41_splice {m : Links} {l r : LList} {xs ys : List Nat} (h : IsList m l xs) (h' : IsList m r ys)
    (hn : xs.Nodup) (hn' : ys.Nodup) (hd : ∀ x ∈ xs, x ∉ ys) :
    ∃ m' l' r', l.splice m r = .ok (m', l', r') ∧ IsList m' l' (xs ++ ys) ∧ IsList m' r' [] ∧
      Frame m m' (xs ++ ys) := by
  unfold LList.splice
  rw [h'.head, h.head, h.tail]
  cases ys with
  | nil =>
    refine ⟨m, l, r, rfl, by rw [List.append_nil]; exact h, h', fun _ _ => ⟨rfl, rfl⟩⟩
  | cons y ys =>
    cases xs with
    | nil =>
      exact ⟨m, _, _, rfl, ⟨h'.head, h'.tail, h'.links⟩, ⟨rfl, rfl, trivial⟩, fun _ _ => ⟨rfl, rfl⟩⟩
    | cons x xs =>
      cases ht : (x :: xs).getLast? with
      | none => rw [List.getLast?_eq_none_iff] at ht; cases ht
      | some t =>
        have htm : t ∈ x :: xs := List.mem_of_getLast? ht
        refine ⟨_, _, _, rfl, ⟨rfl, ?_, seg_linked.1 ?_⟩, ⟨rfl, rfl, trivial⟩, ?_⟩
        · show r.tail = _
          rw [h'.tail, List.getLast?_append, List.getLast?_eq_some_getLast (l := y :: ys) (by simp)]
          rfl
        · rw [Seg.append]
          constructor
          · refine (seg_linked.2 h.links).end hn ?_ ?_ ?_
            · intro z hz
              have : z ≠ y := fun e => hd z hz (e ▸ List.mem_cons_self ..)
              simp [Links.setNext, Links.setPrev, this]
            · intro z _ hne
              have : z ≠ t := fun e => hne (by rw [ht, e])
              simp [Links.setNext, Links.setPrev, this]
            · intro z hz
              rw [ht] at hz; cases hz
              simp [Links.setNext, Links.setPrev]
          · rw [ht]
            refine (seg_linked.2 h'.links).start hn' ?_ ?_ ?_
            · intro z hz
              have : z ≠ t := fun e => hd t htm (e ▸ hz)
              simp [Links.setNext, Links.setPrev, this]
            · intro z _ hne
              have : z ≠ y := fun e => hne (by rw [e]; rfl)
              simp [Links.setNext, Links.setPrev, this]
            · intro z hz
              simp at hz; subst hz
              simp [Links.setNext, Links.setPrev]
        · intro z hz
          rw [List.mem_append, not_or] at hz
          have h1 : z ≠ t := fun e => hz.1 (e ▸ htm)
          have h2 : z ≠ y := fun e => hz.2 (e ▸ List.mem_cons_self ..)
          simp [Links.setNext, Links.setPrev, h1, h2]

/-- The loop over a list visits exactly its elements, in order. -/
theorem C41_walk {m : Links} {l : LList} {xs : List Nat} (h : IsList m l xs) (fuel : Nat)
    (hf : xs.length ≤ fuel) : walk m fuel l.head = xs := by
  rw [h.head]
  have hl := h.links
  clear h
  generalize (none : Option Nat) = p at hl
  induction xs generalizing fuel p with
  | nil => cases fuel <;> rfl
  | cons x xs ih =>
    cases fuel with
    | zero => simp at hf
    | succ fuel =>
      obtain ⟨_, h2, h3⟩ := hl
      show x :: walk m fuel (m.next x) = _
      rw [h2, ih fuel (by simpa using hf) _ h3]

structure ListInv (m : Links) (ls : Nat → LList) (xs : Nat → List Nat) : Prop where
  lists : ∀ i, IsList m (ls i) (xs i)
  nodup : ∀ i, (xs i).Nodup
  apart : ∀ i j, i ≠ j → ∀ x ∈ xs i, x ∉ xs j

theorem ListInv.step {m : Links} {ls : Nat → LList} {xs : Nat → List Nat} (inv : ListInv m ls xs)
    (o : ListOp) (leg : o.legal xs) :
    ∃ m' ls', o.run m ls = .ok (m', ls') ∧ ListInv m' ls' (o.effect xs) := by
  cases o with
  | pushBack i node =>
    obtain ⟨h1, h2⟩ := C41_push (inv.lists i) (inv.nodup i) (leg i)
    refine ⟨_, _, rfl, ?_⟩
    have pe : ∀ j, j ≠ i → upd xs i (xs i ++ [node]) j = xs j := fun j hj => upd_other _ _ hj
    constructor
    · intro j
      show IsList _ (upd ls i _ j) (upd xs i (xs i ++ [node]) j)
      by_cases hj : j = i
      · subst hj; rw [upd_same, upd_same]; exact h1
      · rw [upd_other _ _ hj, pe j hj]
        refine (inv.lists j).frame h2 (fun x hx hm => ?_)
        rcases List.mem_cons.1 hm with rfl | hm
        · exact leg j hx
        · exact inv.apart j i hj x hx hm
    · intro j
      show (upd xs i (xs i ++ [node]) j).Nodup
      by_cases hj : j = i
      · subst hj; rw [upd_same, List.nodup_append]
        refine ⟨inv.nodup j, by simp, ?_⟩
        intro a ha b hb e
        simp at hb
        exact leg j (by rw [← hb, ← e]; exact ha)
      · rw [pe j hj]; exact inv.nodup j
    · intro j k hjk x
      show x ∈ upd xs i (xs i ++ [node]) j → x ∉ upd xs i (xs i ++ [node]) k
      by_cases hj : j = i
      · subst hj
        rw [upd_same, pe k (Ne.symm hjk), List.mem_append, List.mem_singleton]
        rintro (hx | rfl)
        · exact inv.apart j k hjk x hx
        · exact leg k
      · rw [pe j hj]
        intro hx
        by_cases hk : k = i
        · subst hk
          rw [upd_same, List.mem_append, List.mem_singleton]
          rintro (hy | rfl)
          · exact inv.apart j k hjk x hx hy
          · exact leg j hx
        · rw [pe k hk]; exact inv.apart j k hjk x hx
  | erase i node =>
    obtain ⟨h1, _, _, h2⟩ := C41_erase (inv.lists i) (inv.nodup i) leg
    refine ⟨_, _, rfl, ?_⟩
    have pe : ∀ j, j ≠ i → upd xs i ((xs i).filter (fun x => x ≠ node)) j = xs j :=
      fun j hj => upd_other _ _ hj
    have sub : ∀ j x, x ∈ upd xs i ((xs i).filter (fun x => x ≠ node)) j → x ∈ xs j := by
      intro j x
      by_cases hj : j = i
      · subst hj; rw [upd_same]; exact fun h => (List.mem_filter.1 h).1
      · rw [pe j hj]; exact id
    constructor
    · intro j
      show IsList _ (upd ls i _ j) (upd xs i ((xs i).filter (fun x => x ≠ node)) j)
      by_cases hj : j = i
      · subst hj; rw [upd_same, upd_same]; exact h1
      · rw [upd_other _ _ hj, pe j hj]
        exact (inv.lists j).frame h2 (fun x hx => inv.apart j i hj x hx)
    · intro j
      show (upd xs i ((xs i).filter (fun x => x ≠ node)) j).Nodup
      by_cases hj : j = i
      · subst hj; rw [upd_same]; exact (inv.nodup j).filter _
      · rw [pe j hj]; exact inv.nodup j
    · intro j k hjk x hx hy
      exact inv.apart j k hjk x (sub j x hx) (sub k x hy)
  | splice i j =>
    have leg : i ≠ j := leg
    obtain ⟨m', l', r', h0, h1, h2, h3⟩ := C41_splice (inv.lists i) (inv.lists j) (inv.nodup i) (inv.nodup j)
      (inv.apart i j leg)
    refine ⟨m', upd (upd ls i l') j r', ?_, ?_⟩
    · unfold ListOp.run
      dsimp only
      rw [h0]; rfl
    have pj : upd (upd xs i (xs i ++ xs j)) j [] j = [] := upd_same ..
    have pi : upd (upd xs i (xs i ++ xs j)) j [] i = xs i ++ xs j := by
      rw [upd_other _ _ leg, upd_same]
    have pk : ∀ k, k ≠ i → k ≠ j → upd (upd xs i (xs i ++ xs j)) j [] k = xs k := by
      intro k hi hj; rw [upd_other _ _ hj, upd_other _ _ hi]
    constructor
    · intro k
      show IsList m' (upd (upd ls i l') j r' k) (upd (upd xs i (xs i ++ xs j)) j [] k)
      by_cases hj : k = j
      · subst hj; rw [pj, upd_same]; exact h2
      · by_cases hi : k = i
        · subst hi; rw [pi, upd_other _ _ hj, upd_same]; exact h1
        · rw [pk k hi hj, upd_other _ _ hj, upd_other _ _ hi]
          refine (inv.lists k).frame h3 (fun x hx hm => ?_)
          rcases List.mem_append.1 hm with hm | hm
          · exact inv.apart k i hi x hx hm
          · exact inv.apart k j hj x hx hm
    · intro k
      show (upd (upd xs i (xs i ++ xs j)) j [] k).Nodup
      by_cases hj : k = j
      · subst hj; rw [pj]; exact List.nodup_nil
      · by_cases hi : k = i
        · subst hi; rw [pi, List.nodup_append]
          exact ⟨inv.nodup k, inv.nodup j, fun a ha b hb e => inv.apart k j leg a ha (e ▸ hb)⟩
        · rw [pk k hi hj]; exact inv.nodup k
    · intro k n hkn x
      show x ∈ upd (upd xs i (xs i ++ xs j)) j [] k → x ∉ upd (upd xs i (xs i ++ xs j)) j [] n
      by_cases hj : k = j
      · subst hj; rw [pj]; intro h; cases h
      · by_cases nj : n = j
        · subst nj; rw [pj]; intro _ h; cases h
        · by_cases hi : k = i
          · subst hi
            rw [pi, pk n (Ne.symm hkn) nj, List.mem_append]
            rintro (h | h)
            · exact inv.apart _ _ hkn x h
            · exact inv.apart _ _ (Ne.symm nj) x h
          · rw [pk k hi hj]
            intro h
            by_cases ni : n = i
            · subst ni
              rw [pi, List.mem_append, not_or]
              exact ⟨inv.apart _ _ hi x h, inv.apart _ _ hj x h⟩
            · rw [pk n ni nj]; exact inv.apart _ _ hkn x h

/-- C41: any number of lists behave as sequences under every sequence of operations: appending,
erasing, splicing. Nothing undefined happens, and the links are consistent in both directions
afterwards. -/
theorem C41 (ops : List ListOp) (m : Links) (leg : LegalList ops (fun _ => [])) :
    ∃ m' ls', runList ops m (fun _ => ⟨none, none⟩) = .ok (m', ls') ∧
      ∀ i, IsList m' (ls' i) (effects ops (fun _ => []) i) := by
  have gen : ∀ (ops : List ListOp) (m : Links) (ls : Nat → LList) (xs : Nat → List Nat),
      ListInv m ls xs → LegalList ops xs →
      ∃ m' ls', runList ops m ls = .ok (m', ls') ∧ ListInv m' ls' (effects ops xs) := by
    intro ops
    induction ops with
    | nil => exact fun m ls xs inv _ => ⟨m, ls, rfl, inv⟩
    | cons o os ih =>
      intro m ls xs inv leg
      obtain ⟨m1, ls1, x, inv1⟩ := inv.step o leg.1
      obtain ⟨m', ls', y, inv'⟩ := ih m1 ls1 _ inv1 leg.2
      refine ⟨m', ls', ?_, inv'⟩
      unfold runList
      rw [x]
      exact y
  obtain ⟨m', ls', x, inv⟩ := gen ops m (fun _ => ⟨none, none⟩) (fun _ => [])
    ⟨fun _ => ⟨rfl, rfl, trivial⟩, fun _ => List.nodup_nil, fun _ _ _ x hx => by cases hx⟩ leg
  exact ⟨m', ls', x, inv.lists⟩

/-- A run that meets the premise: three stores wait, all are moved behind another one, and one is
taken from the middle. -/
def listDemo : List ListOp :=
  [.pushBack 0 1, .pushBack 0 2, .pushBack 0 3, .pushBack 1 4, .splice 1 0, .erase 1 2, .pushBack 0 2]

example : LegalList listDemo (fun _ => []) ∧ effects listDemo (fun _ => []) 1 = [4, 1, 3] ∧
    (match runList listDemo ⟨fun _ => some 9, fun _ => some 9⟩ (fun _ => ⟨none, none⟩) with
     | .ok (m, ls) => [walk m 9 (ls 0).head, walk m 9 (ls 1).head]
     | .error _ => []) = [[2], [4, 1, 3]] := by
  refine ⟨?_, by decide, by decide⟩
  unfold listDemo
  refine ⟨?_, ?_, ?_, ?_, ?_, ?_, ?_, trivial⟩ <;>
    simp [ListOp.legal, ListOp.effect, upd] <;> (intro j; repeat' split) <;> simp_all

end NuDB
