import Verif.Proof.ConcFlush
/- The invariant of executions with several threads: definitions and elementary facts. -/
namespace NuDB

open Spec Conc

/-! Events -/

theorem contents_append (m : Map) (a b : List Ev) : contents m (a ++ b) = contents (contents m a) b := by
  induction a generalizing m with
  | nil => rfl
  | cons e a ih =>
    cases e <;> simp only [List.cons_append, contents, ih]

theorem contents_call (m : Map) (tr : List Ev) (t : Nat) (op : COp) : contents m (tr ++ [.call t op]) = contents m tr := by
  rw [contents_append]; rfl

theorem contents_ret (m : Map) (tr : List Ev) (t : Nat) (r : CRet) : contents m (tr ++ [.ret t r]) = contents m tr := by
  rw [contents_append]; rfl

theorem contents_added (m : Map) (tr : List Ev) (t : Nat) (k v : Bytes) :
    contents m (tr ++ [.added t k v]) = (contents m tr).add k v := by
  rw [contents_append]; rfl

/-- Thread `t` is inside the call `op`, has not done anything observable since, and at some
moment since the call the content satisfied `P`. -/
def During (m : Map) (tr : List Ev) (t : Nat) (op : COp) (P : Map → Prop) : Prop :=
  ∃ pre mid₁ mid₂, tr = pre ++ .call t op :: (mid₁ ++ mid₂) ∧ Silent t (mid₁ ++ mid₂) ∧
    P (contents m (pre ++ .call t op :: mid₁))

/-- Thread `t` has the right result, and is about to return it. -/
def Ended (m : Map) (F : Prop) (tr : List Ev) (t : Nat) (r : CRet) : Prop :=
  ∃ op pre mid, tr = pre ++ .call t op :: mid ∧ Inside t mid ∧ Right m F t op r pre mid

section
variable {m : Map} {tr : List Ev} {t : Nat} {op : COp} {P : Map → Prop} {F F' : Prop} {r : CRet} {e : Ev}

theorem Spec.Silent.inside {t : Nat} {l : List Ev} (h : Silent t l) : Inside t l := by
  intro e he
  have := h e he
  constructor
  · rintro op rfl; exact this rfl
  · rintro r rfl; exact this rfl

theorem Spec.Silent.snoc {l : List Ev} (h : Silent t l) (he : thread e ≠ t) : Silent t (l ++ [e]) := by
  intro e' h'
  rcases List.mem_append.mp h' with h' | h'
  · exact h e' h'
  · rw [List.mem_singleton.mp h']; exact he

theorem Spec.Inside.snoc {l : List Ev} (h : Inside t l) (he : thread e ≠ t) : Inside t (l ++ [e]) := by
  intro e' h'
  rcases List.mem_append.mp h' with h' | h'
  · exact h e' h'
  · rw [List.mem_singleton.mp h']
    constructor
    · rintro op rfl; exact he rfl
    · rintro r rfl; exact he rfl

theorem During.more (h : During m tr t op P) (he : thread e ≠ t) : During m (tr ++ [e]) t op P := by
  obtain ⟨pre, m1, m2, h1, h2, h3⟩ := h
  refine ⟨pre, m1, m2 ++ [e], by rw [h1]; simp, ?_, h3⟩
  rw [← List.append_assoc]
  exact h2.snoc he

theorem During.now (h : During m tr t op (fun _ => True)) (hP : P (contents m tr)) : During m tr t op P := by
  obtain ⟨pre, m1, m2, h1, h2, h3⟩ := h
  exact ⟨pre, m1 ++ m2, [], by rw [h1]; simp, by simpa using h2, by rw [← h1]; exact hP⟩

theorem During.imp {Q : Map → Prop} (h : During m tr t op P) (hi : ∀ mm, P mm → Q mm) : During m tr t op Q := by
  obtain ⟨pre, m1, m2, h1, h2, h3⟩ := h
  exact ⟨pre, m1, m2, h1, h2, hi _ h3⟩

theorem During.new : During m (tr ++ [.call t op]) t op (fun _ => True) :=
  ⟨tr, [], [], rfl, (by intro e h; cases h), trivial⟩

theorem Spec.Right.mono (hF : F → F') {pre mid : List Ev} (h : Right m F t op r pre mid) : Right m F' t op r pre mid := by
  cases h with
  | answer a b h hs ha => exact .answer a b h hs ha
  | added k v a b h h1 h2 ho hr ha => exact .added k v a b h h1 h2 ho hr ha
  | failed hs hr hf => exact .failed hs hr (hF hf)

theorem Ended.mono (hF : F → F') (h : Ended m F tr t r) : Ended m F' tr t r := by
  obtain ⟨op, pre, mid, h1, h2, h3⟩ := h
  exact ⟨op, pre, mid, h1, h2, h3.mono hF⟩

theorem Ended.more (h : Ended m F tr t r) (he : thread e ≠ t) : Ended m F (tr ++ [e]) t r := by
  obtain ⟨op, pre, mid, h1, h2, h3⟩ := h
  refine ⟨op, pre, mid ++ [e], by rw [h1]; simp, h2.snoc he, ?_⟩
  cases h3 with
  | answer a b h hs ha => exact .answer a (b ++ [e]) (by rw [h]; simp) (hs.snoc he) ha
  | added k v a b h h1 h2 ho hr ha => exact .added k v a (b ++ [e]) (by rw [h]; simp) h1 (h2.snoc he) ho hr ha
  | failed hs hr hf => exact .failed (hs.snoc he) hr hf

theorem During.answered (h : During m tr t op (fun mm => Answer mm op r)) : Ended m F tr t r := by
  obtain ⟨pre, m1, m2, h1, h2, h3⟩ := h
  exact ⟨op, pre, m1 ++ m2, h1, h2.inside, .answer m1 m2 rfl h2 h3⟩

theorem During.broken (h : During m tr t op P) (hF : F) : Ended m F tr t (.error .io) := by
  obtain ⟨pre, m1, m2, h1, h2, _⟩ := h
  exact ⟨op, pre, m1 ++ m2, h1, h2.inside, .failed h2 rfl hF⟩

theorem During.adds {k v : Bytes} (h : During m tr t (.insert k v) P) (hc : contents m tr k = none) :
    Ended m F (tr ++ [.added t k v]) t .done := by
  obtain ⟨pre, m1, m2, h1, h2, _⟩ := h
  refine ⟨.insert k v, pre, (m1 ++ m2) ++ [.added t k v], by rw [h1]; simp, ?_, ?_⟩
  · intro e' h'
    rcases List.mem_append.mp h' with h' | h'
    · exact h2.inside e' h'
    · rw [List.mem_singleton.mp h']
      constructor <;> intros <;> exact Ev.noConfusion
  · exact .added k v (m1 ++ m2) [] rfl h2 (by intro e h; cases h) rfl rfl (by rw [← h1]; exact hc)

end

/-- All calls so far returned a right result. -/
def Hist (m : Map) (F : Prop) (tr : List Ev) : Prop :=
  ∀ t op r pre mid post, Call tr t op r pre mid post → Right m F t op r pre mid

section
variable {m : Map} {tr : List Ev} {F F' : Prop}

theorem Hist.mono (hF : F → F') (h : Hist m F tr) : Hist m F' tr :=
  fun t op r pre mid post hc => (h t op r pre mid post hc).mono hF

theorem snoc_cases {a b : List Ev} {e x : Ev} (h : a ++ [e] = b ++ x :: l) :
    (∃ l', l = l' ++ [e] ∧ a = b ++ x :: l') ∨ (l = [] ∧ e = x ∧ a = b) := by
  rcases List.eq_nil_or_concat l with rfl | ⟨l', y, rfl⟩
  · have := List.append_inj' h rfl
    exact .inr ⟨rfl, by simpa using this.2, this.1⟩
  · left
    rw [List.concat_eq_append] at h ⊢
    rw [show b ++ x :: (l' ++ [y]) = (b ++ x :: l') ++ [y] by simp] at h
    have := List.append_inj' h rfl
    have e1 : e = y := by simpa using this.2
    exact ⟨l', by rw [e1], this.1⟩

theorem Hist.other (h : Hist m F tr) {e : Ev} (he : ∀ t r, e ≠ .ret t r) : Hist m F (tr ++ [e]) := by
  intro t op r pre mid post hc
  obtain ⟨h1, h2⟩ := hc
  rw [show pre ++ Ev.call t op :: (mid ++ .ret t r :: post) = (pre ++ .call t op :: mid) ++ .ret t r :: post by simp] at h1
  rcases snoc_cases h1 with ⟨l', rfl, h3⟩ | ⟨_, h3, _⟩
  · exact h t op r pre mid l' ⟨by rw [h3]; simp, h2⟩
  · exact absurd h3 (he t r)

/-- the last call of a thread is determined -/
theorem last_call {t : Nat} {op op' : COp} {pre pre' mid mid' : List Ev} (h : Inside t mid) (h' : Inside t mid')
    (he : pre ++ .call t op :: mid = pre' ++ .call t op' :: mid') : op = op' ∧ pre = pre' ∧ mid = mid' := by
  rcases List.append_eq_append_iff.mp he with ⟨a, h1, h2⟩ | ⟨a, h1, h2⟩
  · cases a with
    | nil => simp at h1 h2; exact ⟨h2.1, h1.symm, h2.2⟩
    | cons e a =>
      simp only [List.cons_append, List.cons.injEq] at h2
      have hm : Ev.call t op' ∈ mid := by rw [h2.2]; simp
      exact absurd rfl ((h _ hm).1 op')
  · cases a with
    | nil => simp at h1 h2; exact ⟨h2.1.symm, h1, h2.2.symm⟩
    | cons e a =>
      simp only [List.cons_append, List.cons.injEq] at h2
      have hm : Ev.call t op ∈ mid' := by rw [h2.2]; simp
      exact absurd rfl ((h' _ hm).1 op)

theorem Hist.ret (h : Hist m F tr) {t : Nat} {r : CRet} (he : Ended m F tr t r) : Hist m F (tr ++ [.ret t r]) := by
  intro t' op' r' pre mid post hc
  obtain ⟨h1, h2⟩ := hc
  rw [show pre ++ Ev.call t' op' :: (mid ++ .ret t' r' :: post) = (pre ++ .call t' op' :: mid) ++ .ret t' r' :: post by simp] at h1
  rcases snoc_cases h1 with ⟨l', rfl, h3⟩ | ⟨_, h3, h4⟩
  · exact h t' op' r' pre mid l' ⟨by rw [h3]; simp, h2⟩
  · cases h3
    obtain ⟨op, pre1, mid1, a1, a2, a3⟩ := he
    rw [a1] at h4
    obtain ⟨rfl, rfl, rfl⟩ := last_call a2 h2 h4
    exact a3

theorem Spec.Owned.other (h : Owned m tr) {e : Ev} (he : ∀ t k v, e ≠ .added t k v) : Owned m (tr ++ [e]) := by
  intro pre t k v post h1
  rcases snoc_cases h1 with ⟨l', rfl, h3⟩ | ⟨_, h3, _⟩
  · exact h pre t k v l' h3
  · exact absurd h3 (he t k v)

theorem Spec.Owned.add (h : Owned m tr) {t : Nat} {k v : Bytes} {P : Map → Prop} (hd : During m tr t (.insert k v) P)
    (hc : contents m tr k = none) : Owned m (tr ++ [.added t k v]) := by
  intro pre t' k' v' post h1
  rcases snoc_cases h1 with ⟨l', rfl, h3⟩ | ⟨_, h3, h4⟩
  · exact h pre t' k' v' l' h3
  · cases h3
    subst h4
    obtain ⟨pre, m1, m2, a1, a2, _⟩ := hd
    exact ⟨hc, pre, m1 ++ m2, a1, a2⟩

end

/-! Locks -/

/-- The thread holds `m_` shared. -/
def isC : Pc → Bool
  | .fetchC .. => true
  | .insC .. => true
  | _ => false

/-- The thread holds `u_`. -/
def holdsU : Pc → Bool
  | .ins2 .. => true
  | .insC .. => true
  | .insS .. => true
  | .insK .. => true
  | .ins3 .. => true
  | _ => false

/-- The generation that the thread holds. -/
def genOf : Pc → Option Nat
  | .fetchK _ _ g _ => some g
  | .insK _ _ _ g _ => some g
  | _ => none

/-- The bucket that the thread reads from the key file. -/
def blockOf : Pc → Option Nat
  | .fetchK _ n _ _ => some n
  | .insK _ _ n _ _ => some n
  | _ => none

/-- Replace the place of one thread. -/
def upd (pc : Nat → Pc) (t : Nat) (q : Pc) : Nat → Pc := fun u => if u = t then q else pc u

theorem updPc_same {pc : Nat → Pc} {t : Nat} {q : Pc} : upd pc t q t = q := by simp [upd]
theorem updPc_other {pc : Nat → Pc} {t u : Nat} {q : Pc} (h : u ≠ t) : upd pc t q u = pc u := by simp [upd, h]

structure Lsh (pc : Nat → Pc) (sh : List Nat) : Prop where
  nodup : sh.Nodup
  iff : ∀ t, t ∈ sh ↔ isC (pc t) = true

def Low (pc : Nat → Pc) (o : Option Nat) : Prop := ∀ t, o = some t ↔ holdsU (pc t) = true

structure Lgen (pc : Nat → Pc) (g : Gentex) : Prop where
  le : ∀ t h, genOf (pc t) = some h → h ≤ g.gen
  count : ∃ A P : List Nat, A.Nodup ∧ P.Nodup ∧ A.length = g.cur ∧ P.length = g.prev ∧
    (∀ t, t ∈ A ↔ genOf (pc t) = some g.gen) ∧ (∀ t, t ∈ P ↔ ∃ h, genOf (pc t) = some h ∧ h < g.gen)

section
variable {pc : Nat → Pc} {t : Nat} {q : Pc}

theorem Lsh.same {sh : List Nat} (h : Lsh pc sh) (he : isC q = isC (pc t)) : Lsh (upd pc t q) sh := by
  refine ⟨h.nodup, fun u => ?_⟩
  by_cases hu : u = t
  · subst hu; rw [updPc_same, he]; exact h.iff u
  · rw [updPc_other hu]; exact h.iff u

theorem Lsh.add {sh : List Nat} (h : Lsh pc sh) (h1 : isC (pc t) = false) (h2 : isC q = true) :
    Lsh (upd pc t q) (t :: sh) := by
  refine ⟨List.nodup_cons.mpr ⟨fun hm => ?_, h.nodup⟩, fun u => ?_⟩
  · rw [h.iff, h1] at hm; cases hm
  · by_cases hu : u = t
    · subst hu; rw [updPc_same, h2]; simp
    · rw [updPc_other hu, List.mem_cons, h.iff u]; simp [hu]

theorem Lsh.drop {sh : List Nat} (h : Lsh pc sh) (h2 : isC q = false) : Lsh (upd pc t q) (sh.erase t) := by
  refine ⟨h.nodup.erase t, fun u => ?_⟩
  rw [h.nodup.mem_erase_iff]
  by_cases hu : u = t
  · subst hu; rw [updPc_same, h2]; simp
  · rw [updPc_other hu, h.iff u]; simp [hu]

theorem Low.same {o : Option Nat} (h : Low pc o) (he : holdsU q = holdsU (pc t)) : Low (upd pc t q) o := by
  intro u
  by_cases hu : u = t
  · subst hu; rw [updPc_same, he]; exact h u
  · rw [updPc_other hu]; exact h u

theorem Low.take (h : Low pc none) (h2 : holdsU q = true) : Low (upd pc t q) (some t) := by
  intro u
  by_cases hu : u = t
  · subst hu; rw [updPc_same, h2]; simp
  · rw [updPc_other hu, ← h u]; simp [Ne.symm hu]

theorem Low.drop {o : Option Nat} (h : Low pc o) (h1 : holdsU (pc t) = true) (h2 : holdsU q = false) :
    Low (upd pc t q) none := by
  intro u
  by_cases hu : u = t
  · subst hu; rw [updPc_same, h2]; simp
  · rw [updPc_other hu]
    constructor
    · intro h; cases h
    · intro h3
      have e1 := (h u).mpr h3
      have e2 := (h t).mpr h1
      rw [e1] at e2
      exact absurd (Option.some.inj e2) hu

theorem Low.unique {o : Option Nat} (h : Low pc o) {u : Nat} (h1 : holdsU (pc t) = true) (h2 : holdsU (pc u) = true) :
    u = t := by
  have e1 := (h u).mpr h2
  have e2 := (h t).mpr h1
  rw [e1] at e2
  exact Option.some.inj e2

theorem Lgen.same {g : Gentex} (h : Lgen pc g) (he : genOf q = genOf (pc t)) : Lgen (upd pc t q) g := by
  have key : ∀ u, genOf (upd pc t q u) = genOf (pc u) := by
    intro u
    by_cases hu : u = t
    · subst hu; rw [updPc_same, he]
    · rw [updPc_other hu]
  obtain ⟨A, P, a1, a2, a3, a4, a5, a6⟩ := h.count
  exact ⟨fun u => by rw [key]; exact h.le u,
    A, P, a1, a2, a3, a4, fun u => by rw [key]; exact a5 u, fun u => by rw [key]; exact a6 u⟩

theorem Lgen.lock {g : Gentex} (h : Lgen pc g) (h1 : genOf (pc t) = none) (h2 : genOf q = some g.gen) :
    Lgen (upd pc t q) g.lock := by
  obtain ⟨A, P, a1, a2, a3, a4, a5, a6⟩ := h.count
  refine ⟨?_, t :: A, P, List.nodup_cons.mpr ⟨fun hm => ?_, a1⟩, a2, by simp [Gentex.lock, a3], a4, ?_, ?_⟩
  · intro u hh e
    by_cases hu : u = t
    · subst hu; rw [updPc_same, h2] at e; cases e; exact Nat.le_refl _
    · rw [updPc_other hu] at e; exact h.le u hh e
  · rw [a5, h1] at hm; cases hm
  · intro u
    by_cases hu : u = t
    · subst hu; rw [updPc_same, h2]; simp [Gentex.lock]
    · rw [updPc_other hu, List.mem_cons, a5 u]; simp [hu, Gentex.lock]
  · intro u
    by_cases hu : u = t
    · subst hu
      rw [updPc_same, h2, a6, h1]
      constructor
      · rintro ⟨_, e, _⟩; cases e
      · rintro ⟨hh, e, hl⟩; cases e; exact absurd hl (Nat.lt_irrefl _)
    · rw [updPc_other hu, a6 u]; rfl

theorem Lgen.unlock {g : Gentex} (h : Lgen pc g) {d : Nat} (h1 : genOf (pc t) = some d) (h2 : genOf q = none) :
    Lgen (upd pc t q) (g.unlock d) := by
  obtain ⟨A, P, a1, a2, a3, a4, a5, a6⟩ := h.count
  have key : (g.unlock d).gen = g.gen := by unfold Gentex.unlock; split <;> rfl
  have hle := h.le t d h1
  refine ⟨?_, A.erase t, P.erase t, a1.erase t, a2.erase t, ?_, ?_, ?_, ?_⟩
  · intro u hh e
    rw [key]
    by_cases hu : u = t
    · subst hu; rw [updPc_same, h2] at e; cases e
    · rw [updPc_other hu] at e; exact h.le u hh e
  · unfold Gentex.unlock
    split
    · rename_i e
      have hm : t ∈ A := (a5 t).mpr (by rw [h1, e])
      rw [List.length_erase_of_mem hm, a3]
    · rename_i e
      have hm : t ∉ A := fun hm => by have := (a5 t).mp hm; rw [h1] at this; exact e (Option.some.inj this)
      rw [List.erase_of_not_mem hm, a3]
  · unfold Gentex.unlock
    split
    · rename_i e
      have hm : t ∉ P := fun hm => by
        obtain ⟨hh, e1, e2⟩ := (a6 t).mp hm
        rw [h1] at e1; cases e1; omega
      rw [List.erase_of_not_mem hm, a4]
    · rename_i e
      have hm : t ∈ P := (a6 t).mpr ⟨d, h1, by omega⟩
      rw [List.length_erase_of_mem hm, a4]
  · intro u
    rw [key, a1.mem_erase_iff]
    by_cases hu : u = t
    · subst hu; rw [updPc_same, h2]; simp
    · rw [updPc_other hu, a5 u]; simp [hu]
  · intro u
    rw [key, a2.mem_erase_iff]
    by_cases hu : u = t
    · subst hu; rw [updPc_same, h2]; simp
    · rw [updPc_other hu, a6 u]; simp [hu]

theorem nodup_append_of {A P : List Nat} (h1 : A.Nodup) (h2 : P.Nodup) (h : ∀ t, t ∈ A → t ∈ P → False) :
    (P ++ A).Nodup := by
  rw [List.nodup_append]
  exact ⟨h2, h1, fun a ha b hb e => h b hb (e ▸ ha)⟩

theorem Lgen.start {g : Gentex} (h : Lgen pc g) : Lgen pc g.start := by
  obtain ⟨A, P, a1, a2, a3, a4, a5, a6⟩ := h.count
  refine ⟨fun u hh e => Nat.le_succ_of_le (h.le u hh e), [], P ++ A, List.Pairwise.nil,
    nodup_append_of a1 a2 ?_, rfl, by simp [Gentex.start, a3, a4], ?_, ?_⟩
  · intro u h1 h2
    rw [a5] at h1; rw [a6] at h2
    obtain ⟨hh, e, hl⟩ := h2
    rw [h1] at e; cases e; exact Nat.lt_irrefl _ hl
  · intro u
    constructor
    · intro h; cases h
    · intro e
      have := h.le u _ e
      simp only [Gentex.start] at this
      omega
  · intro u
    rw [List.mem_append, a5, a6]
    constructor
    · rintro (⟨hh, e, hl⟩ | e)
      · exact ⟨hh, e, Nat.lt_succ_of_lt hl⟩
      · exact ⟨_, e, Nat.lt_succ_self _⟩
    · rintro ⟨hh, e, hl⟩
      have := h.le u hh e
      simp only [Gentex.start] at hl
      by_cases hc : hh = g.gen
      · right; rw [e, hc]
      · left; exact ⟨hh, e, by omega⟩

/-- Nobody waits for a generation: all hold the present one. -/
theorem Lgen.none_old {g : Gentex} (h : Lgen pc g) (h0 : g.prev = 0) {d : Nat} (h1 : genOf (pc t) = some d) :
    d = g.gen := by
  obtain ⟨A, P, a1, a2, a3, a4, a5, a6⟩ := h.count
  have hP : P = [] := List.length_eq_zero_iff.mp (by omega)
  subst hP
  have hle := h.le t d h1
  by_cases hc : d = g.gen
  · exact hc
  · have := (a6 t).mpr ⟨d, h1, by omega⟩
    cases this

end

end NuDB
