import Verif.Spec.Genlock
/-
C69: generation locks.
-/
namespace NuDB

open Spec Conc

private theorem countP_put {p : Option Genlock → Bool} {l : List (Option Genlock)} {x : Nat} {a b : Option Genlock}
    (h : l[x]? = some a) : (l.set x b).countP p + (if p a then 1 else 0) = l.countP p + (if p b then 1 else 0) := by
  obtain ⟨hx, rfl⟩ := List.getElem?_eq_some_iff.mp h
  rw [List.countP_set hx]
  have : p l[x] = true → 1 ≤ l.countP p := fun hp => List.countP_pos_iff.mpr ⟨_, List.getElem_mem hx, hp⟩
  by_cases hp : p l[x] = true
  · have := this hp; simp only [hp, if_true]; omega
  · simp only [hp]; simp

private theorem holds_not {p : Nat → Bool} {l : Genlock} (h : l.owned = false) : HoldsGen p (some l) = false := by
  obtain ⟨o, g, n⟩ := l
  simp only at h
  subst h; rfl

private theorem Spec.GenCounted.put {s : Locks} {x : Nat} {a b : Option Genlock} (hC : GenCounted s) (hx : s.locks[x]? = some a)
    (ha : ∀ l, a = some l → l.owned = false) (hb : ∀ l, b = some l → l.owned = false) : GenCounted (s.put x b) := by
  have na : ∀ p, HoldsGen p a = false := fun p => by
    cases a with
    | none => rfl
    | some l => exact holds_not (ha l rfl)
  have nb : ∀ p, HoldsGen p b = false := fun p => by
    cases b with
    | none => rfl
    | some l => exact holds_not (hb l rfl)
  have key : ∀ p, (s.locks.set x b).countP (HoldsGen p) = s.locks.countP (HoldsGen p) := by
    intro p
    have := countP_put (p := HoldsGen p) (b := b) hx
    rw [na, nb] at this
    simpa using this
  refine ⟨by simp only [Locks.put, key]; exact hC.cur, by simp only [Locks.put, key]; exact hC.prev, ?_⟩
  intro l hl ho
  rcases List.mem_or_eq_of_mem_set hl with hl | hl
  · exact hC.all l hl ho
  · rw [hb l hl.symm] at ho; cases ho

private theorem Spec.GenCounted.lock {s : Locks} {x : Nat} {l : Genlock} (hC : GenCounted s) (hx : s.locks[x]? = some (some l))
    (hg : l.g = true) (ho : l.owned = false) : ∃ s', s.lock x = .ok s' ∧ GenCounted s' := by
  obtain ⟨o, g, m⟩ := l
  simp only at hg ho
  subst hg ho
  refine ⟨⟨s.tex.lock, s.locks.set x (some ⟨true, true, some s.tex.gen⟩)⟩, ?_, ?_⟩
  · simp [Locks.lock, Locks.obj, hx, assert, bind, Except.bind]
    rfl
  have h1 := countP_put (p := HoldsGen (· == s.tex.gen)) (b := some ⟨true, true, some s.tex.gen⟩) hx
  have h2 := countP_put (p := HoldsGen (· < s.tex.gen)) (b := some ⟨true, true, some s.tex.gen⟩) hx
  rw [holds_not rfl] at h1 h2
  simp only [HoldsGen, beq_self_eq_true, decide_eq_true_eq, if_true, Bool.false_eq_true, if_false] at h1 h2
  rw [if_neg (Nat.lt_irrefl _)] at h2
  have c1 := hC.cur
  have c2 := hC.prev
  refine ⟨?_, ?_, ?_⟩
  · show s.tex.cur + 1 = (s.locks.set x _).countP (HoldsGen (· == s.tex.gen))
    omega
  · show s.tex.prev = (s.locks.set x _).countP (HoldsGen (· < s.tex.gen))
    omega
  · intro l' hl' ho'
    rcases List.mem_or_eq_of_mem_set hl' with hl' | hl'
    · exact hC.all l' hl' ho'
    · cases hl'; exact ⟨rfl, _, rfl, Nat.le_refl _⟩

private theorem Spec.GenCounted.unlock {s : Locks} {x : Nat} {l : Genlock} (hC : GenCounted s) (hx : s.locks[x]? = some (some l))
    (ho : l.owned = true) : ∃ s', s.unlock x = .ok s' ∧ GenCounted s' ∧
      s'.locks[x]? = some (some { l with owned := false }) := by
  obtain ⟨hg, n, hn, hle⟩ := hC.all l (List.mem_of_getElem? hx) ho
  obtain ⟨o, g, m⟩ := l
  simp only at hg ho hn
  subst hg ho hn
  have hxl := (List.getElem?_eq_some_iff.mp hx).1
  refine ⟨⟨s.tex.unlockGen n, s.locks.set x (some ⟨false, true, some n⟩)⟩, ?_, ?_, by simp [hxl]⟩
  · simp [Locks.unlock, Locks.obj, hx, assert, bind, Except.bind]
    rfl
  have h1 := countP_put (p := HoldsGen (· == s.tex.gen)) (b := some ⟨false, true, some n⟩) hx
  have h2 := countP_put (p := HoldsGen (· < s.tex.gen)) (b := some ⟨false, true, some n⟩) hx
  rw [holds_not (l := ⟨false, true, some n⟩) rfl] at h1 h2
  simp only [HoldsGen, Bool.false_eq_true, if_false, decide_eq_true_eq, beq_iff_eq] at h1 h2
  have hall : ∀ l', some l' ∈ s.locks.set x (some ⟨false, true, some n⟩) → l'.owned = true →
      l'.g = true ∧ ∃ n, l'.gen = some n ∧ n ≤ s.tex.gen := by
    intro l' hl' ho'
    rcases List.mem_or_eq_of_mem_set hl' with hl' | hl'
    · exact hC.all l' hl' ho'
    · cases hl'; cases ho'
  have c1 := hC.cur
  have c2 := hC.prev
  by_cases hcur : n = s.tex.gen
  · rw [if_pos hcur] at h1
    rw [if_neg (by omega)] at h2
    have e : s.tex.unlockGen n = { s.tex with cur := s.tex.cur - 1 } := by
      simp only [Gentex.unlockGen, hcur, if_true, dec64]
      rw [if_neg (by omega)]
    rw [e]
    exact ⟨by simp only; omega, by simp only; omega, hall⟩
  · rw [if_neg hcur] at h1
    rw [if_pos (by omega)] at h2
    have e : s.tex.unlockGen n = { s.tex with prev := s.tex.prev - 1 } := by
      simp only [Gentex.unlockGen, hcur, if_false, dec64]
      rw [if_neg (by omega)]
    rw [e]
    exact ⟨by simp only; omega, by simp only; omega, hall⟩

private theorem Spec.GenCounted.start {s : Locks} (hC : GenCounted s) : GenCounted { s with tex := s.tex.start } := by
  refine ⟨?_, ?_, ?_⟩
  · simp only [Gentex.start]
    symm
    rw [List.countP_eq_zero]
    intro l hl h
    cases l with
    | none => cases h
    | some l =>
      obtain ⟨o, g, n⟩ := l
      cases o <;> cases g <;> try cases h
      cases n with
      | none => cases h
      | some n =>
        obtain ⟨_, m, hm, hle⟩ := hC.all _ hl rfl
        cases hm
        simp [HoldsGen] at h
        omega
  · simp only [Gentex.start]
    rw [hC.prev, hC.cur]
    have : ∀ (G : Nat) (ls : List (Option Genlock)), ls.countP (HoldsGen (· < G)) + ls.countP (HoldsGen (· == G)) =
        ls.countP (HoldsGen (· < G + 1)) := by
      intro G ls
      induction ls with
      | nil => rfl
      | cons a ls ih =>
        simp only [List.countP_cons]
        have : (if HoldsGen (· < G) a then 1 else 0) + (if HoldsGen (· == G) a then 1 else 0) =
            (if HoldsGen (· < G + 1) a then 1 else 0) := by
          cases a with
          | none => rfl
          | some l =>
            obtain ⟨o, g, n⟩ := l
            cases o <;> cases g <;> cases n <;> try rfl
            rename_i n
            simp only [HoldsGen, decide_eq_true_eq, beq_iff_eq]
            split <;> split <;> split <;> omega
        omega
    exact this _ _
  · intro l hl ho
    obtain ⟨h1, n, h2, h3⟩ := hC.all l hl ho
    exact ⟨h1, n, h2, by simp only [Gentex.start]; omega⟩

/-- One permitted operation. -/
private theorem step_counted {s : Locks} {op : LockOp} (hC : GenCounted s) (hP : PlainOp s op) (hO : LockOk s op) :
    ∃ s', op.step s = .ok s' ∧ GenCounted s' := by
  have fresh : ∀ (x : Nat) (l : Genlock), s.locks[x]? = some none → l.owned = false → GenCounted (s.put x (some l)) :=
    fun x l hx hl => hC.put hx (fun _ h => by cases h) (fun _ h => by cases h; exact hl)
  cases op with
  | default x =>
    exact ⟨_, by simp [LockOp.step, Locks.room, show s.locks[x]? = some none from hO, bind, Except.bind]; rfl, fresh x _ hO rfl⟩
  | defer x =>
    exact ⟨_, by simp [LockOp.step, Locks.room, show s.locks[x]? = some none from hO, bind, Except.bind]; rfl, fresh x _ hO rfl⟩
  | make x =>
    have hx : s.locks[x]? = some none := hO
    have hlt := (List.getElem?_eq_some_iff.mp hx).1
    obtain ⟨s', h1, h2⟩ := (fresh x ⟨false, true, none⟩ hx rfl).lock (x := x) (l := ⟨false, true, none⟩)
      (by simp [Locks.put, hlt]) rfl rfl
    exact ⟨s', by simp only [LockOp.step, Locks.room, hx, bind, Except.bind]; exact h1, h2⟩
  | move x y => exact hP.elim
  | assign x y => exact hP.elim
  | swap x y => exact hP.elim
  | start => exact ⟨_, rfl, hC.start⟩
  | lock x =>
    obtain ⟨l, h1, h2, h3⟩ := hO
    obtain ⟨s', h4, h5⟩ := hC.lock h1 h2 h3
    exact ⟨s', h4, h5⟩
  | unlock x =>
    obtain ⟨l, h1, h2, h3⟩ := hO
    obtain ⟨s', h4, h5, _⟩ := hC.unlock h1 h3
    exact ⟨s', h4, h5⟩
  | release x =>
    obtain ⟨l, h1⟩ := hO
    have h2 := hP l h1
    exact ⟨_, by simp [LockOp.step, Locks.obj, h1, bind, Except.bind]; rfl, hC.put h1 (fun _ h => by cases h; exact h2)
      (fun _ h => by cases h; exact h2)⟩
  | destroy x =>
    obtain ⟨l, h1⟩ := hO
    cases ho : l.owned with
    | true =>
      obtain ⟨hg, _⟩ := hC.all l (List.mem_of_getElem? h1) ho
      obtain ⟨s', h4, h5, h6⟩ := hC.unlock h1 ho
      refine ⟨s'.put x none, ?_, h5.put h6 (fun _ h => by cases h; rfl) (fun _ h => by cases h)⟩
      simp [LockOp.step, Locks.drop, Locks.obj, h1, hg, ho, h4, bind, Except.bind]; rfl
    | false =>
      refine ⟨s.put x none, ?_, hC.put h1 (fun _ h => by cases h; exact ho) (fun _ h => by cases h)⟩
      simp [LockOp.step, Locks.drop, Locks.obj, h1, ho, bind, Except.bind]; rfl

private theorem init_counted (n : Nat) : GenCounted (Locks.init n) := by
  have : ∀ p, (List.replicate n (none : Option Genlock)).countP (HoldsGen p) = 0 := by
    intro p
    rw [List.countP_eq_zero]
    intro a ha h
    rw [(List.mem_replicate.mp ha).2] at h
    cases h
  exact ⟨(this _).symm, (this _).symm, fun l hl => by cases (List.mem_replicate.mp hl).2⟩

/-- C69 for programs that neither move nor exchange locks: the program runs without undefined behaviour and failing
assertions, and the counters are right at every moment (take any initial part of a program). -/
theorem C69_counted_partial {n : Nat} {ops : List LockOp} (h : AllOps PlainOp ops (Locks.init n)) :
    ∃ s, runLocks ops (Locks.init n) = .ok s ∧ GenCounted s := by
  suffices H : ∀ (ops : List LockOp) (s : Locks), GenCounted s → AllOps PlainOp ops s → ∃ s', runLocks ops s = .ok s' ∧ GenCounted s' from
    H ops _ (init_counted n) h
  intro ops
  induction ops with
  | nil => intro s hC _; exact ⟨s, rfl, hC⟩
  | cons op ops ih =>
    intro s hC h
    obtain ⟨h1, h2, h3⟩ := h
    obtain ⟨s', e, hC'⟩ := step_counted hC h1 h2
    obtain ⟨s'', e', hC''⟩ := ih s' hC' (h3 s' e)
    exact ⟨s'', by simp only [runLocks, e, bind, Except.bind]; exact e', hC''⟩

/-- C69, in terms of `finish`, which waits while `prev_ > 0`: it waits exactly as long as some lock holds an older
generation. In particular it does not wait when all locks are destroyed. -/
theorem C69_finish_partial {n : Nat} {ops : List LockOp} {s : Locks} (h : AllOps PlainOp ops (Locks.init n))
    (hs : runLocks ops (Locks.init n) = .ok s) :
    (0 < s.tex.prev ↔ ∃ l g, some l ∈ s.locks ∧ l.owned = true ∧ l.gen = some g ∧ g < s.tex.gen) := by
  obtain ⟨s', h1, hC⟩ := C69_counted_partial h
  rw [hs] at h1
  cases h1
  rw [hC.prev, List.countP_pos_iff]
  constructor
  · rintro ⟨a, ha, hp⟩
    cases a with
    | none => cases hp
    | some l =>
      obtain ⟨o, g, m⟩ := l
      cases o <;> cases g <;> try cases hp
      cases m with
      | none => cases hp
      | some m => exact ⟨_, m, ha, rfl, rfl, by simpa [HoldsGen] using hp⟩
  · rintro ⟨l, g, h1, h2, h3, h4⟩
    refine ⟨some l, h1, ?_⟩
    obtain ⟨hg, _⟩ := hC.all l h1 h2
    obtain ⟨o, g', m⟩ := l
    simp only at h2 h3 hg
    subst h2 h3 hg
    simpa [HoldsGen] using h4

/-- The premises can be met: two readers hold generation 0 when a flush starts, a third one comes later. One of the first
two has finished, so the flush waits for one reader. -/
example : let ops : List LockOp := [.make 0, .defer 1, .lock 1, .start, .make 2, .destroy 0]
    AllOps PlainOp ops (Locks.init 3) ∧
    runLocks ops (Locks.init 3) = .ok ⟨⟨1, 1, 1⟩, [none, some ⟨true, true, some 0⟩, some ⟨true, true, some 1⟩]⟩ := by
  refine ⟨?_, rfl⟩
  refine ⟨trivial, rfl, fun s h => ?_⟩
  cases h
  refine ⟨trivial, rfl, fun s h => ?_⟩
  cases h
  refine ⟨trivial, ⟨_, rfl, rfl, rfl⟩, fun s h => ?_⟩
  cases h
  refine ⟨trivial, trivial, fun s h => ?_⟩
  cases h
  refine ⟨trivial, rfl, fun s h => ?_⟩
  cases h
  exact ⟨trivial, ⟨_, rfl⟩, fun s h => trivial⟩

/-- C69 is false for a lock that is made by moving: the new lock does not know its generation, and its destructor reads an
uninitialised member. -/
theorem C69_move_violated : let ops : List LockOp := [.make 0, .move 1 0, .destroy 1]
    AllOps (fun _ _ => True) ops (Locks.init 2) ∧ runLocks ops (Locks.init 2) = .error .ub := by
  refine ⟨?_, rfl⟩
  refine ⟨trivial, rfl, fun s h => ?_⟩
  cases h
  refine ⟨trivial, ⟨rfl, _, rfl⟩, fun s h => ?_⟩
  cases h
  exact ⟨trivial, ⟨_, rfl⟩, fun s h => trivial⟩

/-- C69 is false after `swap`: `1` gets the ownership of `0`, but not the generation. -/
theorem C69_swap_violated : let ops : List LockOp := [.make 0, .default 1, .swap 0 1, .destroy 1]
    AllOps (fun _ _ => True) ops (Locks.init 2) ∧ runLocks ops (Locks.init 2) = .error .ub := by
  refine ⟨?_, rfl⟩
  refine ⟨trivial, rfl, fun s h => ?_⟩
  cases h
  refine ⟨trivial, rfl, fun s h => ?_⟩
  cases h
  refine ⟨trivial, ⟨⟨_, rfl⟩, _, rfl⟩, fun s h => ?_⟩
  cases h
  exact ⟨trivial, ⟨_, rfl⟩, fun s h => trivial⟩

/-- C69 is false after a move assignment: the lock `0` was used in generation 0, the lock `1` holds generation 1 and is moved
to `0`, which gives back generation 0. When all locks are destroyed one reader of generation 1 is left, and `finish`
waits for 2^64 - 1 older ones. -/
theorem C69_assign_violated : let ops : List LockOp := [.make 0, .unlock 0, .start, .make 1, .assign 0 1, .destroy 0, .destroy 1]
    AllOps (fun _ _ => True) ops (Locks.init 2) ∧
    runLocks ops (Locks.init 2) = .ok ⟨⟨1, 1, 2 ^ 64 - 1⟩, [none, none]⟩ := by
  refine ⟨?_, rfl⟩
  refine ⟨trivial, rfl, fun s h => ?_⟩
  cases h
  refine ⟨trivial, ⟨_, rfl, rfl, rfl⟩, fun s h => ?_⟩
  cases h
  refine ⟨trivial, trivial, fun s h => ?_⟩
  cases h
  refine ⟨trivial, rfl, fun s h => ?_⟩
  cases h
  refine ⟨trivial, ⟨⟨_, rfl⟩, _, rfl⟩, fun s h => ?_⟩
  cases h
  refine ⟨trivial, ⟨_, rfl⟩, fun s h => ?_⟩
  cases h
  exact ⟨trivial, ⟨_, rfl⟩, fun s h => trivial⟩

end NuDB
