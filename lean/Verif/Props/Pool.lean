import Verif.Props.Memory
/-
C43: the insert buffer is an ordered map.
-/
namespace NuDB
open Spec

theorem memLt_iff : ∀ {a b : Bytes}, a.length = b.length → (memLt a b = true ↔ a < b)
  | [], [], _ => by simp [memLt]
  | x :: xs, y :: ys, h => by
    have ih := memLt_iff (a := xs) (b := ys) (by simpa using h)
    rw [List.cons_lt_cons_iff]
    simp only [memLt, Bool.or_eq_true, Bool.and_eq_true, decide_eq_true_eq, beq_iff_eq]
    rw [ih]

theorem bytes_lt_irrefl (a : Bytes) : ¬ a < a := by
  induction a with
  | nil => simp
  | cons x xs ih => rw [List.cons_lt_cons_iff]; simp [ih, UInt8.lt_irrefl]

theorem bytes_lt_trans : ∀ {a b c : Bytes}, a < b → b < c → a < c
  | [], _, _ :: _, _, _ => by simp
  | [], [], [], h, _ => absurd h (bytes_lt_irrefl _)
  | [], _ :: _, [], _, h => by simp at h
  | _ :: _, [], _, h, _ => by simp at h
  | _ :: _, _ :: _, [], _, h => by simp at h
  | x :: xs, y :: ys, z :: zs, h1, h2 => by
    rw [List.cons_lt_cons_iff] at *
    rcases h1 with h1 | ⟨rfl, h1⟩
    · rcases h2 with h2 | ⟨rfl, h2⟩
      · exact .inl (UInt8.lt_trans h1 h2)
      · exact .inl h1
    · rcases h2 with h2 | ⟨rfl, h2⟩
      · exact .inl h2
      · exact .inr ⟨rfl, bytes_lt_trans h1 h2⟩

theorem bytes_total : ∀ {a b : Bytes}, a.length = b.length → a ≠ b → a < b ∨ b < a
  | [], [], _, h => absurd rfl h
  | x :: xs, y :: ys, hl, h => by
    rw [List.cons_lt_cons_iff, List.cons_lt_cons_iff]
    by_cases hx : x = y
    · subst hx
      rcases bytes_total (a := xs) (b := ys) (by simpa using hl) (by intro e; apply h; rw [e]) with g | g
      · exact .inl (.inr ⟨rfl, g⟩)
      · exact .inr (.inr ⟨rfl, g⟩)
    · rcases UInt8.lt_or_lt_of_ne hx with g | g
      · exact .inl (.inl g)
      · exact .inr (.inl g)

theorem memLt_flip {a b : Bytes} (hl : a.length = b.length) (h : a ≠ b) : memLt a b = !memLt b a := by
  rcases bytes_total hl h with g | g
  · rw [(memLt_iff hl).2 g]
    cases hb : memLt b a with
    | false => rfl
    | true => exact absurd (bytes_lt_trans g ((memLt_iff hl.symm).1 hb)) (bytes_lt_irrefl _)
  · rw [(memLt_iff hl.symm).2 g]
    cases hb : memLt a b with
    | false => rfl
    | true => exact absurd (bytes_lt_trans g ((memLt_iff hl).1 hb)) (bytes_lt_irrefl _)

theorem place_perm (it : Item) : ∀ p : Pool, (p.place it).Perm (it :: p)
  | [] => .refl _
  | x :: xs => by
    rw [Pool.place]
    split
    · exact .refl _
    · exact ((place_perm it xs).cons x).trans (.swap it x xs)

theorem place_sorted {it : Item} {ks : Nat} (hk : it.key.length = ks) : ∀ {p : Pool},
    (∀ x ∈ p, x.key.length = ks ∧ x.key ≠ it.key) → p.Pairwise (fun a b => a.key < b.key) →
    List.Pairwise (fun a b : Item => a.key < b.key) (p.place it)
  | [], _, _ => by simp [Pool.place]
  | x :: xs, h, hs => by
    rw [List.pairwise_cons] at hs
    obtain ⟨hx1, hx2⟩ := h x (List.mem_cons_self ..)
    rw [Pool.place]
    split
    · next hlt =>
      have hlt := (memLt_iff (by omega)).1 hlt
      rw [List.pairwise_cons]
      refine ⟨?_, List.pairwise_cons.2 hs⟩
      intro y hy
      rcases List.mem_cons.1 hy with rfl | hy
      · exact hlt
      · exact bytes_lt_trans hlt (hs.1 y hy)
    · next hlt =>
      have hgt : x.key < it.key := by
        rcases bytes_total (hx1.trans hk.symm) hx2 with g | g
        · exact g
        · exact absurd ((memLt_iff (by omega)).2 g) hlt
      rw [List.pairwise_cons]
      refine ⟨?_, place_sorted hk (fun y hy => h y (List.mem_cons_of_mem _ hy)) hs.2⟩
      intro y hy
      rcases List.mem_cons.1 ((place_perm it xs).mem_iff.1 hy) with rfl | hy
      · exact hgt
      · exact hs.1 y hy

theorem fold_perm : ∀ l : List Item, (l.foldr Pool.place []).Perm l
  | [] => .refl _
  | x :: xs => by
    rw [List.foldr_cons]
    exact (place_perm x _).trans ((fold_perm xs).cons x)

theorem fold_sorted {ks : Nat} : ∀ {l : List Item}, (∀ x ∈ l, x.key.length = ks) →
    l.Pairwise (fun a b => a.key ≠ b.key) →
    (l.foldr Pool.place []).Pairwise (fun a b => a.key < b.key)
  | [], _, _ => List.Pairwise.nil
  | x :: xs, h, hn => by
    rw [List.pairwise_cons] at hn
    rw [List.foldr_cons]
    refine place_sorted (h x (List.mem_cons_self ..)) ?_
      (fold_sorted (fun y hy => h y (List.mem_cons_of_mem _ hy)) hn.2)
    intro y hy
    have hy := (fold_perm xs).mem_iff.1 hy
    exact ⟨h y (List.mem_cons_of_mem _ hy), (hn.1 y hy).symm⟩

/-- The cells of a buffer read as the items `l`. -/
theorem readCells_cons {h : Heap} {ks : Nat} {c : Cell} {cs : List Cell} {l : List Item} :
    readCells h ks (c :: cs) = .ok l ↔ ∃ k d r, h.read c.key ks = .ok k ∧
      h.read c.data c.size = .ok d ∧ readCells h ks cs = .ok r ∧ l = ⟨c.hash, k, d⟩ :: r := by
  rw [readCells]
  cases hk : h.read c.key ks with
  | error e => simp [bind, Except.bind]
  | ok k =>
    cases hd : h.read c.data c.size with
    | error e => simp [bind, Except.bind]
    | ok d =>
      cases hr : readCells h ks cs with
      | error e => simp [bind, Except.bind]
      | ok r =>
        simp only [bind, Except.bind, pure, Except.pure]
        constructor
        · intro x; cases x; exact ⟨k, d, r, rfl, rfl, rfl, rfl⟩
        · rintro ⟨_, _, _, hk', hd', hr', rfl⟩; cases hk'; cases hd'; cases hr'; rfl

theorem readCells_congr {h h' : Heap} {ks : Nat} : ∀ {cs : List Cell},
    (∀ c ∈ cs, h'.read c.key ks = h.read c.key ks ∧ h'.read c.data c.size = h.read c.data c.size) →
    readCells h' ks cs = readCells h ks cs
  | [], _ => rfl
  | c :: cs, hc => by
    rw [readCells, readCells, (hc c (List.mem_cons_self ..)).1, (hc c (List.mem_cons_self ..)).2,
      readCells_congr (fun c' h' => hc c' (List.mem_cons_of_mem _ h'))]

theorem readCells_length {h : Heap} {ks : Nat} : ∀ {cs : List Cell} {l : List Item},
    readCells h ks cs = .ok l → cs.length = l.length
  | [], l, h => by cases h; rfl
  | c :: cs, l, h => by
    obtain ⟨_, _, r, _, _, hr, rfl⟩ := readCells_cons.1 h
    simp [readCells_length hr]

theorem emplace_spec {h : Heap} {ks : Nat} {x : Cell} {kx dx : Bytes} (hkx : h.read x.key ks = .ok kx)
    (hdx : h.read x.data x.size = .ok dx) (hl : kx.length = ks) :
    ∀ {cs : List Cell} {l : List Item}, readCells h ks cs = .ok l →
      (∀ it ∈ l, it.key.length = ks ∧ it.key ≠ kx) →
      ∃ cs', emplace h ks x cs = .ok (some cs') ∧ cs'.Perm (x :: cs) ∧
        readCells h ks cs' = .ok (Pool.place ⟨x.hash, kx, dx⟩ l)
  | [], l, hr, _ => by
    cases hr
    exact ⟨[x], rfl, .refl _, readCells_cons.2 ⟨kx, dx, [], hkx, hdx, rfl, rfl⟩⟩
  | c :: cs, l, hr, hf => by
    obtain ⟨k, d, r, h1, h2, h3, rfl⟩ := readCells_cons.1 hr
    have hk := hf _ (List.mem_cons_self ..)
    have hflip := memLt_flip (a := kx) (b := k) (by rw [hl]; exact hk.1.symm) (Ne.symm hk.2)
    rw [emplace, h1, hkx]
    show ∃ cs', (if memLt k kx = true then _ else if memLt kx k = true then _ else _) = _ ∧ _
    rw [Pool.place, hflip]
    cases hm : memLt k kx with
    | true =>
      obtain ⟨cs', y1, y2, y3⟩ := emplace_spec hkx hdx hl h3
        (fun it hit => hf it (List.mem_cons_of_mem _ hit))
      rw [if_pos rfl, y1, if_neg (by decide)]
      refine ⟨c :: cs', rfl, (y2.cons c).trans (.swap x c cs), ?_⟩
      exact readCells_cons.2 ⟨k, d, _, h1, h2, y3, rfl⟩
    | false =>
      rw [if_neg (by decide), if_pos (by decide), if_pos (by decide)]
      refine ⟨_, rfl, .refl _, ?_⟩
      exact readCells_cons.2 ⟨kx, dx, _, hkx, hdx, hr, rfl⟩

theorem findCell_spec {h : Heap} {ks : Nat} {key : Bytes} (hl : key.length = ks) :
    ∀ {cs : List Cell} {l : List Item}, readCells h ks cs = .ok l →
      (∀ it ∈ l, it.key.length = ks) → l.Pairwise (fun a b => a.key < b.key) →
      (∀ it ∈ l, it.key = key → ∃ c ∈ cs, findCell h ks key cs = .ok (some c) ∧ c.hash = it.hash ∧
        c.size = it.data.length ∧ h.read c.key ks = .ok key ∧ h.read c.data c.size = .ok it.data) ∧
      ((∀ it ∈ l, it.key ≠ key) → findCell h ks key cs = .ok none)
  | [], l, hr, _, _ => by
    cases hr
    exact ⟨fun it hit => (by cases hit), fun _ => rfl⟩
  | c :: cs, l, hr, hk, hs => by
    obtain ⟨k, d, r, h1, h2, h3, rfl⟩ := readCells_cons.1 hr
    rw [List.pairwise_cons] at hs
    have hkl : k.length = ks := hk _ (List.mem_cons_self ..)
    obtain ⟨i1, i2⟩ := findCell_spec hl h3 (fun it hit => hk it (List.mem_cons_of_mem _ hit)) hs.2
    have step : findCell h ks key (c :: cs) = if memLt k key = true then findCell h ks key cs
        else if memLt key k = true then .ok none else .ok (some c) := by
      rw [findCell, h1]; rfl
    have hd : c.size = d.length := by
      unfold Heap.read at h2
      cases hm : h.mem c.data.block with
      | none => rw [hm] at h2; cases h2
      | some m =>
        rw [hm] at h2
        dsimp only at h2
        unfold peek at h2
        split at h2
        · next hb => cases h2; exact (slice_length_of_le hb).symm
        · cases h2
    have self : memLt k k = false := by
      cases hb : memLt k k with
      | false => rfl
      | true => exact absurd ((memLt_iff rfl).1 hb) (bytes_lt_irrefl _)
    constructor
    · intro it hit hkey
      rcases List.mem_cons.1 hit with rfl | hit
      · have hkey : k = key := hkey
        subst hkey
        refine ⟨c, List.mem_cons_self .., ?_, rfl, hd, h1, h2⟩
        rw [step, self]; rfl
      · have hlt : k < it.key := hs.1 it hit
        rw [step, (memLt_iff (by omega)).2 (hkey ▸ hlt), if_pos rfl]
        obtain ⟨c', y0, y⟩ := i1 it hit hkey
        exact ⟨c', List.mem_cons_of_mem _ y0, y⟩
    · intro hne
      have hkne : k ≠ key := hne _ (List.mem_cons_self ..)
      rw [step]
      have hflip := memLt_flip (a := key) (b := k) (by omega) (Ne.symm hkne)
      rw [hflip]
      cases hm : memLt k key with
      | true => rw [if_pos rfl]; exact i2 (fun it hit => hne it (List.mem_cons_of_mem _ hit))
      | false => rfl

structure BufInv (ks : Nat) (h : Heap) (ps : Nat → PoolMem) (bs : Nat → List Item) : Prop where
  owns : ∀ i, Owns h (ps i).arena
  apart : ∀ i j, i ≠ j → Apart (ps i).arena (ps j).arena
  keySize : ∀ i, (ps i).keySize = ks
  cells : ∀ i, ∀ c ∈ (ps i).map, Inside (ps i).arena c.key ks ∧ Inside (ps i).arena c.data c.size
  read : ∀ i, readCells h ks (ps i).map = .ok ((bs i).foldr Pool.place [])
  keys : ∀ i, ∀ it ∈ bs i, it.key.length = ks
  distinct : ∀ i, (bs i).Pairwise (fun a b => a.key ≠ b.key)
  bytes : ∀ i, (ps i).dataSize = wrap (((bs i).map (fun it => it.data.length)).sum)

/-- Changing the `i`-th buffer without touching the memory of the others. -/
theorem BufInv.replace {ks : Nat} {h : Heap} {ps : Nat → PoolMem} {bs : Nat → List Item}
    (inv : BufInv ks h ps bs) (i : Nat) {h' : Heap} {p : PoolMem} {b : List Item}
    (others : ∀ j, j ≠ i → Owns h' (ps j).arena ∧ Apart p.arena (ps j).arena)
    (frame : ∀ j, j ≠ i → ∀ q n, Inside (ps j).arena q n → h'.read q n = h.read q n)
    (ow : Owns h' p.arena) (hk : p.keySize = ks)
    (hc : ∀ c ∈ p.map, Inside p.arena c.key ks ∧ Inside p.arena c.data c.size)
    (hr : readCells h' ks p.map = .ok (b.foldr Pool.place []))
    (hks : ∀ it ∈ b, it.key.length = ks) (hd : b.Pairwise (fun a b => a.key ≠ b.key))
    (hb : p.dataSize = wrap ((b.map (fun it => it.data.length)).sum)) :
    BufInv ks h' (upd ps i p) (upd bs i b) := by
  have pe : ∀ j, (j = i ∧ upd ps i p j = p ∧ upd bs i b j = b) ∨
      (j ≠ i ∧ upd ps i p j = ps j ∧ upd bs i b j = bs j) := by
    intro j
    by_cases hj : j = i
    · subst hj; exact .inl ⟨rfl, upd_same .., upd_same ..⟩
    · exact .inr ⟨hj, upd_other _ _ hj, upd_other _ _ hj⟩
  constructor
  · intro j
    rcases pe j with ⟨rfl, x, _⟩ | ⟨hj, x, _⟩ <;> rw [x]
    · exact ow
    · exact (others j hj).1
  · intro j k hjk
    rcases pe j with ⟨rfl, x, _⟩ | ⟨hj, x, _⟩ <;> rcases pe k with ⟨hk, y, _⟩ | ⟨hk, y, _⟩ <;> rw [x, y]
    · exact absurd hk.symm hjk
    · exact (others k hk).2
    · exact (others j hj).2.symm
    · exact inv.apart j k hjk
  · intro j
    rcases pe j with ⟨rfl, x, _⟩ | ⟨hj, x, _⟩ <;> rw [x]
    · exact hk
    · exact inv.keySize j
  · intro j
    rcases pe j with ⟨rfl, x, _⟩ | ⟨hj, x, _⟩ <;> rw [x]
    · exact hc
    · exact inv.cells j
  · intro j
    rcases pe j with ⟨rfl, x, y⟩ | ⟨hj, x, y⟩ <;> rw [x, y]
    · exact hr
    · rw [readCells_congr (h := h)]
      · exact inv.read j
      · intro c hc
        exact ⟨frame j hj _ _ (inv.cells j c hc).1, frame j hj _ _ (inv.cells j c hc).2⟩
  · intro j
    rcases pe j with ⟨rfl, _, y⟩ | ⟨hj, _, y⟩ <;> rw [y]
    · exact hks
    · exact inv.keys j
  · intro j
    rcases pe j with ⟨rfl, _, y⟩ | ⟨hj, _, y⟩ <;> rw [y]
    · exact hd
    · exact inv.distinct j
  · intro j
    rcases pe j with ⟨rfl, x, y⟩ | ⟨hj, x, y⟩ <;> rw [x, y]
    · exact hb
    · exact inv.bytes j

theorem upd_id (f : Nat → α) (i : Nat) : upd f i (f i) = f := by
  funext j; unfold upd; split
  · next hj => rw [hj]
  · rfl

theorem wrap_add (m n : Nat) : wrap (wrap m + n) = wrap (m + n) := by
  unfold wrap; omega

theorem BufInv.insert {ks : Nat} {h : Heap} {ps : Nat → PoolMem} {bs : Nat → List Item}
    (k0 : 0 < ks) (k1 : ks < 2 ^ 62) (inv : BufInv ks h ps bs) {i hash : Nat} {key data : Bytes}
    (leg : (BufOp.insert i hash key data).legal ks bs) :
    ∃ ok h' ps', (BufOp.insert i hash key data).run h ps = .ok (ok, h', ps') ∧
      BufInv ks h' ps' ((BufOp.insert i hash key data).effect ok bs) := by
  obtain ⟨hkl, d0, d1, hfresh⟩ := leg
  have top : ∀ {ok h' p}, (ps i).insert h hash key data = .ok (ok, h', p) →
      (BufOp.insert i hash key data).run h ps = .ok (ok, h', upd ps i p) := by
    intro ok h' p hx
    show ((ps i).insert h hash key data >>= fun z => pure (z.1, z.2.1, upd ps i z.2.2)) = _
    rw [hx]; rfl
  have frame0 : ∀ j q n, Inside (ps j).arena q n → q.block < h.next := fun j q n hq =>
    let ⟨_, _, _, x⟩ := hq.bounds (inv.owns j); x
  rcases Arena.allocate_spec (inv.owns i) k0 k1 with x | ⟨k, h1, a1, x, g1⟩
  · refine ⟨false, h, upd ps i (ps i), top ?_, ?_⟩
    · unfold PoolMem.insert
      simp only [inv.keySize, x, bind, Except.bind, pure, Except.pure]
      rw [← inv.keySize i]
    · rw [upd_id]; exact inv
  rcases Arena.allocate_spec g1.owns d0 d1 with y | ⟨d, h2, a2, y, g2⟩
  · -- the key's memory stays allocated, nothing refers to it
    refine ⟨false, h1, upd ps i { ps i with arena := a1 }, top ?_, ?_⟩
    · unfold PoolMem.insert
      simp only [inv.keySize, x, y, bind, Except.bind, pure, Except.pure]
    · show BufInv ks h1 _ bs
      have := inv.replace i (h' := h1) (p := { ps i with arena := a1 }) (b := bs i)
        (fun j hj => g1.other (inv.owns j) (inv.apart i j (Ne.symm hj)))
        (fun j hj q n hq => Heap.read_congr (g1.frame _ (frame0 j q n hq)) n)
        g1.owns (inv.keySize i)
        (fun c hc => ⟨(g1.keep _ _ (inv.cells i c hc).1).1, (g1.keep _ _ (inv.cells i c hc).2).1⟩)
        (by
          rw [readCells_congr (h := h)]
          · exact inv.read i
          · intro c hc
            exact ⟨Heap.read_congr (g1.frame _ (frame0 _ _ _ (inv.cells i c hc).1)) _,
              Heap.read_congr (g1.frame _ (frame0 _ _ _ (inv.cells i c hc).2)) _⟩)
        (inv.keys i) (inv.distinct i) (inv.bytes i)
      rw [upd_id] at this
      exact this
  have hkin := g2.keep _ _ g1.inside
  obtain ⟨h3, w1, w2, w3, w4, w5, w6⟩ := Heap.write_spec (p := k) (bs := key) g2.owns
    (by rw [hkl]; exact hkin.1)
  have ow3 : Owns h3 a2 := g2.owns.of_heap (by omega) (fun e _ x hx => w5 _ x hx)
  obtain ⟨h4, v1, v2, v3, v4, v5, v6⟩ := Heap.write_spec (p := d) (bs := data) ow3 g2.inside
  have ow4 : Owns h4 a2 := ow3.of_heap (by omega) (fun e _ x hx => v5 _ x hx)
  -- reads of what was there before
  have frame : ∀ q n, q.block < h.next → Clear k ks q n → Clear d data.length q n →
      h4.read q n = h.read q n := by
    intro q n hq c1 c2
    rw [v4 q n c2, w4 q n (by rw [hkl]; exact c1), Heap.read_congr (h := h1) (g2.frame _ (by have := g1.next; omega)),
      Heap.read_congr (g1.frame _ hq)]
  have own : ∀ q n, Inside (ps i).arena q n → Inside a2 q n ∧ h4.read q n = h.read q n := by
    intro q n hq
    have z1 := g1.keep q n hq
    have z2 := g2.keep q n z1.1
    exact ⟨z2.1, frame q n (frame0 i q n hq) z1.2 z2.2⟩
  have other : ∀ j, j ≠ i → Owns h2 (ps j).arena ∧ Apart a2 (ps j).arena ∧ Apart a1 (ps j).arena := by
    intro j hj
    have z1 := g1.other (inv.owns j) (inv.apart i j (Ne.symm hj))
    have z2 := g2.other z1.1 z1.2
    exact ⟨z2.1, z2.2, z1.2⟩
  have hkey : h4.read k ks = .ok key := by
    rw [v4 k ks hkin.2, ← hkl]; exact w2
  have hrd : readCells h4 ks (ps i).map = .ok ((bs i).foldr Pool.place []) := by
    rw [readCells_congr (h := h)]
    · exact inv.read i
    · intro c hc
      exact ⟨(own _ _ (inv.cells i c hc).1).2, (own _ _ (inv.cells i c hc).2).2⟩
  obtain ⟨m, e1, e2, e3⟩ := emplace_spec (x := ⟨hash, data.length, k, d⟩) hkey v2 hkl hrd (by
    intro it hit
    have hit := (fold_perm (bs i)).mem_iff.1 hit
    exact ⟨inv.keys i it hit, hfresh it hit⟩)
  refine ⟨true, h4, upd ps i { ps i with arena := a2, map := m, dataSize := wrap ((ps i).dataSize + data.length) }, top ?_, ?_⟩
  · unfold PoolMem.insert
    simp only [inv.keySize, x, y, bind, Except.bind, pure, Except.pure]
    rw [peek_ok (by omega), show slice key 0 ks = key by rw [← hkl]; exact slice_full key]
    simp only [w1, v1, e1]
  · show BufInv ks h4 _ (upd bs i (⟨hash, key, data⟩ :: bs i))
    refine inv.replace i ?_ ?_ ow4 (inv.keySize i) ?_ e3 ?_ ?_ ?_
    · intro j hj
      exact ⟨((other j hj).1.of_heap (by omega) (fun e _ x hx => w5 _ x hx)).of_heap (by omega)
        (fun e _ x hx => v5 _ x hx), (other j hj).2.1⟩
    · intro j hj q n hq
      exact frame q n (frame0 j q n hq) (.inl ((other j hj).2.2.clear g1.inside hq))
        (.inl ((other j hj).2.1.clear g2.inside hq))
    · intro c hc
      rcases List.mem_cons.1 (e2.mem_iff.1 hc) with rfl | hc
      · exact ⟨hkin.1, g2.inside⟩
      · exact ⟨(own _ _ (inv.cells i c hc).1).1, (own _ _ (inv.cells i c hc).2).1⟩
    · intro it hit
      rcases List.mem_cons.1 hit with rfl | hit
      · exact hkl
      · exact inv.keys i it hit
    · exact List.pairwise_cons.2 ⟨fun it hit => (hfresh it hit).symm, inv.distinct i⟩
    · show wrap ((ps i).dataSize + data.length) = _
      rw [inv.bytes i, wrap_add, List.map_cons, List.sum_cons, Nat.add_comm]

theorem BufInv.step {ks : Nat} {h : Heap} {ps : Nat → PoolMem} {bs : Nat → List Item}
    (k0 : 0 < ks) (k1 : ks < 2 ^ 62) (inv : BufInv ks h ps bs) (o : BufOp) (leg : o.legal ks bs) :
    ∃ ok h' ps', o.run h ps = .ok (ok, h', ps') ∧ BufInv ks h' ps' (o.effect ok bs) := by
  cases o with
  | insert i hash key data => exact inv.insert k0 k1 leg
  | clear i =>
    obtain ⟨h', x1, x2, x3⟩ := Arena.clear_spec (inv.owns i)
    have frame : ∀ j, j ≠ i → ∀ e ∈ (ps j).arena.list, h'.mem e.block = h.mem e.block := by
      intro j hj e he
      exact x3 _ (fun e' he' => inv.apart i j (Ne.symm hj) e' he' e he)
    refine ⟨true, h', upd ps i { ps i with
      arena := { (ps i).arena with used := 0, list := [] }, dataSize := 0, map := [] }, ?_, ?_⟩
    · unfold BufOp.run
      dsimp only
      unfold PoolMem.clear
      rw [x1]; rfl
    · show BufInv ks h' _ (upd bs i [])
      refine inv.replace i ?_ ?_ (Owns.nil rfl (inv.owns i).small) (inv.keySize i) ?_ rfl ?_ List.Pairwise.nil rfl
      · intro j hj
        refine ⟨(inv.owns j).of_heap (by omega) (fun e he x hx => ⟨x, by rw [frame j hj e he]; exact hx, rfl⟩), ?_⟩
        intro e he; cases he
      · intro j hj q n hq
        obtain ⟨e, he, hb, _⟩ := hq
        exact Heap.read_congr (by rw [hb]; exact frame j hj e he) n
      · intro c hc; cases hc
      · intro it hit; cases hit
  | periodic i r =>
    obtain ⟨y1, y2⟩ := (inv.owns i).periodic (r := r) (fun x hx => by subst hx; exact leg)
    refine ⟨true, h, upd ps i { ps i with arena := (ps i).arena.periodic r }, rfl, ?_⟩
    have := inv.replace i (h' := h) (p := { ps i with arena := (ps i).arena.periodic r }) (b := bs i)
      (fun j hj => ⟨inv.owns j, by
        have := inv.apart i j (Ne.symm hj)
        unfold Apart at *
        rw [y2]; exact this⟩)
      (fun _ _ _ _ _ => rfl) y1 (inv.keySize i)
      (fun c hc => ⟨(inv.cells i c hc).1.congr y2, (inv.cells i c hc).2.congr y2⟩)
      (inv.read i) (inv.keys i) (inv.distinct i) (inv.bytes i)
    rw [upd_id] at this
    exact this
  | swap i j =>
    refine ⟨true, h, upd (upd ps i ((ps i).swap (ps j)).1) j ((ps i).swap (ps j)).2, rfl, ?_⟩
    let σ : Nat → Nat := fun k => if k = i then j else if k = j then i else k
    have sinj : ∀ k l, k ≠ l → σ k ≠ σ l := by
      intro k l hkl
      show (if k = i then j else if k = j then i else k) ≠ (if l = i then j else if l = j then i else l)
      repeat' split
      all_goals omega
    have hp : ∀ k, ∃ al, upd (upd ps i ((ps i).swap (ps j)).1) j ((ps i).swap (ps j)).2 k =
        { ps (σ k) with arena := { (ps (σ k)).arena with alloc := al } } ∧ al < 2 ^ 62 := by
      intro k
      have hσ : σ k = if k = i then j else if k = j then i else k := rfl
      by_cases hj : k = j
      · subst hj
        rw [upd_same, hσ]
        by_cases hi : k = i
        · subst hi; rw [if_pos rfl]; exact ⟨_, rfl, (inv.owns k).small⟩
        · rw [if_neg hi, if_pos rfl]; exact ⟨_, rfl, (inv.owns k).small⟩
      · rw [upd_other _ _ hj, hσ]
        by_cases hi : k = i
        · subst hi; rw [upd_same, if_pos rfl]; exact ⟨_, rfl, (inv.owns k).small⟩
        · rw [upd_other _ _ hi, if_neg hi, if_neg hj]; exact ⟨_, rfl, (inv.owns k).small⟩
    have hbs : ∀ k, (BufOp.swap i j).effect true bs k = bs (σ k) := by
      intro k
      show (if k = i then bs j else if k = j then bs i else bs k)
        = bs (if k = i then j else if k = j then i else k)
      repeat' split
      all_goals rfl
    constructor
    · intro k
      obtain ⟨al, x, y⟩ := hp k
      rw [x]
      exact ⟨(inv.owns (σ k)).blocks, (inv.owns (σ k)).nodup, y⟩
    · intro k l hkl
      obtain ⟨al, x, _⟩ := hp k
      obtain ⟨al', x', _⟩ := hp l
      rw [x, x']
      exact inv.apart _ _ (sinj k l hkl)
    · intro k
      obtain ⟨al, x, _⟩ := hp k
      rw [x]; exact inv.keySize (σ k)
    · intro k
      obtain ⟨al, x, _⟩ := hp k
      rw [x]; exact inv.cells (σ k)
    · intro k
      obtain ⟨al, x, _⟩ := hp k
      rw [x, hbs]; exact inv.read (σ k)
    · intro k; rw [hbs]; exact inv.keys (σ k)
    · intro k; rw [hbs]; exact inv.distinct (σ k)
    · intro k
      obtain ⟨al, x, _⟩ := hp k
      rw [x, hbs]; exact inv.bytes (σ k)
  | move i =>
    refine ⟨true, h, upd ps i (ps i).move.1, rfl, ?_⟩
    rw [show (ps i).move.1 = ps i from rfl, upd_id]
    exact inv

theorem BufInv.run {ks : Nat} (k0 : 0 < ks) (k1 : ks < 2 ^ 62) : ∀ (ops : List BufOp) (h : Heap)
    (ps : Nat → PoolMem) (bs : Nat → List Item), BufInv ks h ps bs → LegalBuf ks ops h ps bs →
    ∃ bs' h' ps', runBuf ops h ps bs = .ok (bs', h', ps') ∧ BufInv ks h' ps' bs'
  | [], h, ps, bs, inv, _ => ⟨bs, h, ps, rfl, inv⟩
  | o :: os, h, ps, bs, inv, leg => by
    obtain ⟨ok, h1, ps1, x, inv1⟩ := inv.step k0 k1 o leg.1
    obtain ⟨bs', h', ps', y, inv'⟩ := BufInv.run k0 k1 os h1 ps1 _ inv1 (leg.2 _ _ _ x)
    refine ⟨bs', h', ps', ?_, inv'⟩
    unfold runBuf
    rw [x]
    exact y

theorem BufInv.init (ks : Nat) (h : Heap) : BufInv ks h (fun _ => .empty ks) (fun _ => []) := by
  refine ⟨fun i => Owns.nil rfl (by show (0:Nat) < 2 ^ 62; omega), ?_, fun _ => rfl, ?_, fun _ => rfl,
    ?_, fun _ => List.Pairwise.nil, fun _ => rfl⟩
  · intro i j _ e he; cases he
  · intro i c hc; cases hc
  · intro i it hit; cases hit

/-- C43: whatever any number of insert buffers are asked to do, as long as keys have the right
size, values are not empty and no key is inserted twice into a buffer, nothing undefined happens
and no assertion fails, and at every moment each buffer
* iterates over exactly the items inserted into it (since it was cleared, or by way of swaps),
  in ascending order of their keys,
* finds each of these by its key, with its hash, its size and its data, and no other key,
* reports their number and the sum of the value sizes (as a 64-bit number). -/
theorem C43 (ks : Nat) (k0 : 0 < ks) (k1 : ks < 2 ^ 62) (ops : List BufOp) (h0 : Heap)
    (leg : LegalBuf ks ops h0 (fun _ => .empty ks) (fun _ => [])) :
    ∃ bs h ps, runBuf ops h0 (fun _ => .empty ks) (fun _ => []) = .ok (bs, h, ps) ∧ ∀ i,
      (∃ l, readCells h ks (ps i).map = .ok l ∧ l.Perm (bs i) ∧
        l.Pairwise (fun a b => a.key < b.key)) ∧
      (∀ it ∈ bs i, ∃ c ∈ (ps i).map, (ps i).find h it.key = .ok (some c) ∧ c.hash = it.hash ∧
        c.size = it.data.length ∧ h.read c.key ks = .ok it.key ∧ h.read c.data c.size = .ok it.data) ∧
      (∀ key, key.length = ks → (∀ it ∈ bs i, it.key ≠ key) → (ps i).find h key = .ok none) ∧
      (ps i).map.length = (bs i).length ∧
      (ps i).dataSize = ((bs i).map (fun it => it.data.length)).sum % 2 ^ 64 := by
  obtain ⟨bs, h, ps, x, inv⟩ := BufInv.run k0 k1 ops h0 _ _ (BufInv.init ks h0) leg
  refine ⟨bs, h, ps, x, fun i => ?_⟩
  have srt := fold_sorted (inv.keys i) (inv.distinct i)
  have prm := fold_perm (bs i)
  have hk : ∀ it ∈ (bs i).foldr Pool.place [], it.key.length = ks :=
    fun it hit => inv.keys i it (prm.mem_iff.1 hit)
  refine ⟨⟨_, inv.read i, prm, srt⟩, ?_, ?_, ?_, inv.bytes i⟩
  · intro it hit
    unfold PoolMem.find
    rw [inv.keySize i]
    exact (findCell_spec (inv.keys i it hit) (inv.read i) hk srt).1 it (prm.mem_iff.2 hit) rfl
  · intro key hkl hne
    unfold PoolMem.find
    rw [inv.keySize i]
    exact (findCell_spec hkl (inv.read i) hk srt).2 (fun it hit => hne it (prm.mem_iff.1 hit))
  · rw [readCells_length (inv.read i), prm.length_eq]

theorem find?_mem_iff {p : Pool} {key : Bytes} : (Pool.find p key).isSome = true ↔ ∃ it ∈ p, it.key = key := by
  unfold Pool.find
  rw [List.find?_isSome]
  simp

/-- The buffer as the store's model sees it (`Model/Pool`): `Pool.insert`, applied to the items in
the order they came, succeeds and yields what the memory holds. -/
theorem C43_model (ks : Nat) (k0 : 0 < ks) (k1 : ks < 2 ^ 62) (ops : List BufOp) (h0 : Heap)
    (leg : LegalBuf ks ops h0 (fun _ => .empty ks) (fun _ => [])) :
    ∃ bs h ps, runBuf ops h0 (fun _ => .empty ks) (fun _ => []) = .ok (bs, h, ps) ∧ ∀ i,
      ∃ p : Pool, (bs i).reverse.foldlM Pool.insert [] = .ok p ∧
        readCells h ks (ps i).map = .ok p ∧ p.dataSize % 2 ^ 64 = (ps i).dataSize := by
  obtain ⟨bs, h, ps, x, inv⟩ := BufInv.run k0 k1 ops h0 _ _ (BufInv.init ks h0) leg
  refine ⟨bs, h, ps, x, fun i => ⟨_, ?_, inv.read i, ?_⟩⟩
  · rw [List.foldlM_reverse]
    have hd := inv.distinct i
    generalize bs i = l at hd
    induction l with
    | nil => rfl
    | cons it l ih =>
      rw [List.pairwise_cons] at hd
      rw [List.foldrM_cons, ih hd.2]
      show Pool.insert (List.foldr Pool.place [] l) it = _
      unfold Pool.insert
      have hn : Pool.find (List.foldr Pool.place [] l) it.key = none := by
        rw [← Option.not_isSome_iff_eq_none, find?_mem_iff]
        rintro ⟨y, hy, he⟩
        exact hd.1 y ((fold_perm l).mem_iff.1 hy) he.symm
      rw [hn]; rfl
  · rw [inv.bytes i]
    unfold Pool.dataSize wrap
    rw [((fold_perm (bs i)).map _).sum_nat]

/-- Two buffers: three inserts out of order, a swap, an insert of the same key into the other
buffer. -/
def bufDemo : List BufOp :=
  [.insert 1 7 [2, 1] [20], .insert 1 8 [1, 9] [10, 11], .periodic 1 (some 100), .insert 1 9 [2, 0] [12],
   .swap 0 1, .insert 1 7 [2, 1] [21, 22]]

/-- The premise of `C43` and `C43_model` for this run, and the content at its end. -/
example : LegalBuf 2 bufDemo roomy (fun _ => .empty 2) (fun _ => []) ∧
    (match runBuf bufDemo roomy (fun _ => .empty 2) (fun _ => []) with
     | .ok (_, h, ps) => [0, 1].map (fun i => match readCells h 2 (ps i).map with
       | .ok l => (l.map (fun it => (it.hash, it.key, it.data)), (ps i).dataSize)
       | .error _ => ([], 0))
     | .error _ => []) =
    [([(8, [1, 9], [10, 11]), (9, [2, 0], [12]), (7, [2, 1], [20])], 4), ([(7, [2, 1], [21, 22])], 2)] := by
  refine ⟨?_, by decide +kernel⟩
  refine ⟨by simp [BufOp.legal], fun ok h ps _ => ?_⟩
  refine ⟨by cases ok <;> simp [BufOp.legal, BufOp.effect, upd], fun ok1 h ps _ => ?_⟩
  refine ⟨by simp [BufOp.legal], fun ok2 h ps _ => ?_⟩
  refine ⟨by cases ok <;> cases ok1 <;> simp [BufOp.legal, BufOp.effect, upd], fun ok3 h ps _ => ?_⟩
  refine ⟨trivial, fun ok4 h ps _ => ?_⟩
  refine ⟨by cases ok <;> cases ok1 <;> cases ok3 <;> simp [BufOp.legal, BufOp.effect, upd], fun _ _ _ _ => trivial⟩

/-- C43: a buffer that is moved takes its content along. What is left of the old one has no elements, finds nothing and
frees nothing when it is destroyed. (It still reports the old number of bytes.) -/
theorem C43_moved (h : Heap) (p : PoolMem) :
    (∀ key, p.move.1.find h key = p.find h key) ∧ readCells h p.move.1.keySize p.move.1.map = readCells h p.keySize p.map ∧
      p.move.1.dataSize = p.dataSize ∧ (∀ key, p.move.2.find h key = .ok none) ∧
      readCells h p.move.2.keySize p.move.2.map = .ok [] ∧ (∃ q, p.move.2.clear h = .ok (h, q)) ∧ p.move.2.dataSize = p.dataSize :=
  ⟨fun _ => rfl, rfl, rfl, fun _ => rfl, rfl, ⟨_, rfl⟩, rfl⟩

end NuDB
