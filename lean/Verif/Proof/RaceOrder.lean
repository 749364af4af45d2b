import Verif.Proof.Race
/-
Absence of data races, second part: the states of an execution by position, and what orders two
positions.
-/
namespace NuDB.Race

/-- The states of an execution: `st i` is the one in which event `i` happens. -/
structure Seq (tr : Trace Loc Mu) (st : Nat → Sys) : Prop where
  zero : st 0 = Sys.init
  step : ∀ i t e, tr[i]? = some (t, e) → Step (st i) t (st (i + 1)) e

theorem Exec.seq {tr : Trace Loc Mu} {x : Sys} (h : Exec tr x) : ∃ st, Seq tr st ∧ st tr.length = x := by
  induction h with
  | init => exact ⟨fun _ => Sys.init, ⟨rfl, fun i t e h => by simp at h⟩, rfl⟩
  | @step tr x t y e _ hs ih =>
    obtain ⟨st, hq, hl⟩ := ih
    refine ⟨fun i => if i ≤ tr.length then st i else y, ⟨?_, ?_⟩, ?_⟩
    · simp only [Nat.zero_le, if_true]; exact hq.zero
    · intro i u f hi
      by_cases hlt : i < tr.length
      · rw [List.getElem?_append_left hlt] at hi
        have h1 : i ≤ tr.length := by omega
        have h2 : i + 1 ≤ tr.length := by omega
        simp only [if_pos h1, if_pos h2]
        exact hq.step i u f hi
      · rw [List.getElem?_append_right (by omega)] at hi
        have he : i = tr.length := by
          by_cases h0 : i - tr.length = 0
          · omega
          · have : ([(t, e)] : Trace Loc Mu)[i - tr.length]? = none := by simp; omega
            rw [this] at hi; cases hi
        subst he
        simp only [Nat.sub_self, List.getElem?_cons_zero, Option.some.injEq, Prod.mk.injEq] at hi
        obtain ⟨rfl, rfl⟩ := hi
        have h2 : ¬ (tr.length + 1 ≤ tr.length) := by omega
        simp only [Nat.le_refl, if_true, if_neg h2]
        rw [hl]; exact hs
    · have h2 : ¬ ((tr ++ [(t, e)]).length ≤ tr.length) := by simp
      simp only [if_neg h2]

variable {tr : Trace Loc Mu} {st : Nat → Sys}

/-- Every event up to a later one exists. -/
theorem some_of_lt {i j : Nat} {p : Nat × Ev Loc Mu} (h : tr[j]? = some p) (hij : i ≤ j) : ∃ t e, tr[i]? = some (t, e) := by
  have hj : j < tr.length := by
    by_cases hl : j < tr.length
    · exact hl
    · rw [List.getElem?_eq_none (by omega)] at h; cases h
  exact ⟨(tr[i]'(by omega)).1, (tr[i]'(by omega)).2, List.getElem?_eq_getElem (by omega)⟩

theorem Seq.inv (hq : Seq tr st) : ∀ {i}, i ≤ tr.length → Inv (st i)
  | 0, _ => by rw [hq.zero]; exact inv_init
  | i + 1, h => by
    have hi : i < tr.length := by omega
    have hs := hq.step i (tr[i]'hi).1 (tr[i]'hi).2 (List.getElem?_eq_getElem hi)
    exact inv_step (hq.inv (by omega)) hs

theorem Seq.inv_at (hq : Seq tr st) {i : Nat} {p} (h : tr[i]? = some p) : Inv (st i) := by
  refine hq.inv ?_
  by_cases hl : i < tr.length
  · omega
  · rw [List.getElem?_eq_none (by omega)] at h; cases h

/-- What a step does to the locks of a thread. -/
theorem step_held {x y : Sys} {t : Nat} {e} (h : Step x t y e) (u : Nat) (m : Mu) :
    y.held u m = x.held u m ∨ (u = t ∧ ∃ k, e = .lock m k ∧ x.Free m k ∧ y.held u m = some k) ∨
      (u = t ∧ ∃ k, e = .unlock m k ∧ x.held u m = some k ∧ y.held u m = none) := by
  cases h with
  | op hp he =>
    rename_i o k
    cases o with
    | lock n k =>
      by_cases h : u = t ∧ m = n
      · right; left
        obtain ⟨rfl, rfl⟩ := h
        refine ⟨rfl, k, rfl, he, ?_⟩
        simp [Op.run, Sys.hold, Sys.goto]
      · left
        simp only [Op.run, Sys.hold, Sys.goto, if_neg h]
    | unlock n k =>
      by_cases h : u = t ∧ m = n
      · right; right
        obtain ⟨rfl, rfl⟩ := h
        refine ⟨rfl, k, rfl, he, ?_⟩
        simp [Op.run, Sys.hold, Sys.goto]
      · left
        simp only [Op.run, Sys.hold, Sys.goto, if_neg h]
    | _ => left; rfl
  | _ => left; rfl

/-- A lock is held until it is released. -/
theorem Seq.release (hq : Seq tr st) {i : Nat} {t : Nat} {m : Mu} {k : Mode} (h : (st i).held t m = some k) :
    ∀ d, (∀ r, i ≤ r → r < i + d → ∃ p, tr[r]? = some p) → (st (i + d)).held t m ≠ some k →
      ∃ r, i ≤ r ∧ r < i + d ∧ tr[r]? = some (t, .unlock m k)
  | 0, _, hn => absurd h hn
  | d + 1, hs, hn => by
    by_cases hd : (st (i + d)).held t m = some k
    · obtain ⟨⟨u, e⟩, hp⟩ := hs (i + d) (by omega) (by omega)
      rcases step_held (hq.step _ _ _ hp) t m with h1 | ⟨hu, k', he, hf, -⟩ | ⟨hu, k', he, hk, -⟩
      · exact absurd (h1.trans hd) hn
      · exfalso
        cases k' with
        | excl => have := hf t; rw [hd] at this; cases this
        | shared =>
          have := hf t
          cases k with
          | excl => exact this hd
          | shared =>
            rcases step_held (hq.step _ _ _ hp) t m with h1 | ⟨_, k2, he2, _, h2⟩ | ⟨_, k2, he2, _, _⟩
            · exact absurd (h1.trans hd) hn
            · rw [he] at he2
              simp only [Ev.lock.injEq, true_and] at he2
              rw [← he2] at h2
              exact hn h2
            · rw [he] at he2; cases he2
      · refine ⟨i + d, by omega, by omega, ?_⟩
        rw [hd] at hk
        cases hk
        rw [hp, hu, he]
    · obtain ⟨r, h1, h2, h3⟩ := hq.release h d (fun r h1 h2 => hs r h1 (by omega)) hd
      exact ⟨r, h1, by omega, h3⟩

/-- A lock that is held has been held for the whole time or was acquired. -/
theorem Seq.acquire (hq : Seq tr st) {i : Nat} {u : Nat} {m : Mu} {k : Mode} :
    ∀ d, (∀ r, i ≤ r → r < i + d → ∃ p, tr[r]? = some p) → (st (i + d)).held u m = some k →
      (st i).held u m = some k ∨ ∃ a, i ≤ a ∧ a < i + d ∧ tr[a]? = some (u, .lock m k) ∧ (st a).Free m k
  | 0, _, h => Or.inl h
  | d + 1, hs, h => by
    obtain ⟨⟨v, e⟩, hp⟩ := hs (i + d) (by omega) (by omega)
    rcases step_held (hq.step _ _ _ hp) u m with h1 | ⟨hu, k', he, hf, h1⟩ | ⟨hu, k', he, hk, h1⟩
    · rcases hq.acquire d (fun r h1 h2 => hs r h1 (by omega)) (h1.symm.trans h) with h2 | ⟨a, h2, h3, h4⟩
      · exact Or.inl h2
      · exact Or.inr ⟨a, h2, by omega, h4⟩
    · right
      have : k' = k := by
        have := h1.symm.trans h
        cases this; rfl
      subst this
      exact ⟨i + d, by omega, by omega, by rw [hp, hu, he], hf⟩
    · have := h1.symm.trans h
      cases this

/-- Locks held in modes that exclude each other order two positions. -/
theorem Seq.locked (hq : Seq tr st) {i j t u : Nat} {a b : Ev Loc Mu} {m : Mu} {k k' : Mode} (hij : i < j)
    (hi : tr[i]? = some (t, a)) (hj : tr[j]? = some (u, b)) (ht : (st i).held t m = some k)
    (hu : (st j).held u m = some k') (hx : k = .excl ∨ k' = .excl) : HB tr i j := by
  by_cases htu : t = u
  · subst htu; exact .order hij hi hj
  have hall : ∀ r, i ≤ r → r < i + (j - i) → ∃ p, tr[r]? = some p := by
    intro r _ h2
    obtain ⟨v, e, h⟩ := some_of_lt hj (i := r) (by omega)
    exact ⟨_, h⟩
  have hji : i + (j - i) = j := by omega
  rcases hq.acquire (j - i) hall (by rw [hji]; exact hu) with h | ⟨c, h1, h2, h3, h4⟩
  · exfalso
    have hv := hq.inv_at hi
    rcases hx with rfl | rfl
    · have := hv.excl m t u htu ht; rw [h] at this; cases this
    · have := hv.excl m u t (fun e => htu e.symm) h; rw [ht] at this; cases this
  · have hn : (st (i + (c - i))).held t m ≠ some k := by
      have : i + (c - i) = c := by omega
      rw [this]
      intro hh
      cases k' with
      | excl => have := h4 t; rw [hh] at this; cases this
      | shared =>
        rcases hx with rfl | hx
        · exact h4 t hh
        · cases hx
    obtain ⟨r, h5, h6, h7⟩ := hq.release ht (c - i) (fun r h1 h2 => hall r h1 (by omega)) hn
    have hrc : HB tr r c := .mutex (by omega) h7 h3 hx
    have hcj : HB tr c j := .order (by omega) h3 hj
    by_cases hir : i = r
    · subst hir; exact .trans hrc hcj
    · exact .trans (.order (by omega) hi h7) (.trans hrc hcj)

/-- What a step does to the right to flush. -/
theorem step_token {x y : Sys} {t : Nat} {e} (hv : Inv x) (h : Step x t y e) :
    y.token = x.token ∨ (x.token = none ∧ y.token = some t ∧ x.held t .ctx = some .excl) ∨
      (x.token = some t ∧ y.token = none ∧ x.held t .ctx = some .excl) := by
  cases h with
  | op hp he =>
    rename_i o k
    have ha := hv.ok t
    rw [hp] at ha
    have ha := ha.1
    cases o with
    | take =>
      right; left
      refine ⟨he, rfl, ?_⟩
      simp only [Ctx.allows, Bool.and_eq_true, decide_eq_true_eq] at ha
      exact ha.1
    | put =>
      right; right
      refine ⟨he, rfl, ?_⟩
      simp only [Ctx.allows, Bool.and_eq_true, decide_eq_true_eq] at ha
      exact ha.1
    | _ => left; rfl
  | _ => left; rfl

theorem Seq.gives (hq : Seq tr st) {i : Nat} {t : Nat} (h : (st i).token = some t) :
    ∀ d, (∀ r, i ≤ r → r < i + d → ∃ p, tr[r]? = some p) → (st (i + d)).token ≠ some t →
      ∃ r e, i ≤ r ∧ r < i + d ∧ tr[r]? = some (t, e) ∧ (st r).held t .ctx = some .excl ∧ (st (r + 1)).token = none
  | 0, _, hn => absurd h hn
  | d + 1, hs, hn => by
    by_cases hd : (st (i + d)).token = some t
    · obtain ⟨⟨u, e⟩, hp⟩ := hs (i + d) (by omega) (by omega)
      rcases step_token (hq.inv_at hp) (hq.step _ _ _ hp) with h1 | ⟨h1, -, -⟩ | ⟨h1, h2, h3⟩
      · exact absurd (h1.trans hd) hn
      · rw [hd] at h1; cases h1
      · have : u = t := by rw [hd] at h1; cases h1; rfl
        subst this
        exact ⟨i + d, e, by omega, by omega, hp, h3, h2⟩
    · obtain ⟨r, e, h1, h2, h3⟩ := hq.gives h d (fun r h1 h2 => hs r h1 (by omega)) hd
      exact ⟨r, e, h1, by omega, h3⟩

theorem Seq.takes (hq : Seq tr st) {i : Nat} {u : Nat} (h : (st i).token ≠ some u) :
    ∀ d, (∀ r, i ≤ r → r < i + d → ∃ p, tr[r]? = some p) → (st (i + d)).token = some u →
      ∃ r e, i ≤ r ∧ r < i + d ∧ tr[r]? = some (u, e) ∧ (st r).held u .ctx = some .excl
  | 0, _, hn => absurd hn h
  | d + 1, hs, hn => by
    by_cases hd : (st (i + d)).token = some u
    · obtain ⟨r, e, h1, h2, h3⟩ := hq.takes h d (fun r h1 h2 => hs r h1 (by omega)) hd
      exact ⟨r, e, h1, by omega, h3⟩
    · obtain ⟨⟨v, e⟩, hp⟩ := hs (i + d) (by omega) (by omega)
      rcases step_token (hq.inv_at hp) (hq.step _ _ _ hp) with h1 | ⟨-, h2, h3⟩ | ⟨h1, h2, h3⟩
      · exact absurd (h1.symm.trans hn) hd
      · have h2 := hn.symm.trans h2
        have : u = v := by cases h2; rfl
        subst this
        exact ⟨i + d, e, by omega, by omega, hp, h3⟩
      · have h2 := hn.symm.trans h2
        cases h2

/-- The right to flush orders two positions. -/
theorem Seq.flushing (hq : Seq tr st) {i j t u : Nat} {a b : Ev Loc Mu} (hij : i < j)
    (hi : tr[i]? = some (t, a)) (hj : tr[j]? = some (u, b)) (ht : (st i).token = some t)
    (hu : (st j).token = some u) : HB tr i j := by
  by_cases htu : t = u
  · subst htu; exact .order hij hi hj
  have hall : ∀ r, r ≤ j → ∃ p, tr[r]? = some p := by
    intro r h
    obtain ⟨v, e, h⟩ := some_of_lt hj (i := r) h
    exact ⟨_, h⟩
  have hn : (st (i + (j - i))).token ≠ some t := by
    have : i + (j - i) = j := by omega
    rw [this, hu]
    intro h; cases h; exact htu rfl
  obtain ⟨p, e, h1, h2, h3, h4, h5⟩ := hq.gives ht (j - i) (fun r _ h2 => hall r (by omega)) hn
  have hn2 : (st (p + 1)).token ≠ some u := by rw [h5]; intro h; cases h
  obtain ⟨c, f, h6, h7, h8, h9⟩ := hq.takes hn2 (j - (p + 1)) (fun r _ h2 => hall r (by omega))
    (by have : p + 1 + (j - (p + 1)) = j := by omega
        rw [this]; exact hu)
  have hpc : HB tr p c := hq.locked (by omega) h3 h8 h4 h9 (Or.inl rfl)
  have hcj : HB tr c j := .order (by omega) h8 hj
  by_cases hip : i = p
  · subst hip; exact .trans hpc hcj
  · exact .trans (.order (by omega) hi h3) (.trans hpc hcj)

/-- Whatever only changes with `m_` held exclusively while flushing, and did change, was changed in between. -/
theorem Seq.changes (hq : Seq tr st) {β : Type} (f : Sys → β) (i : Nat)
    (hf : ∀ x t y e, Inv x → Step x t y e → f y = f x ∨ (x.held t .m = some .excl ∧ x.token = some t)) :
    ∀ d, (∀ r, i ≤ r → r < i + d → ∃ p, tr[r]? = some p) → f (st (i + d)) ≠ f (st i) →
      ∃ r t e, i ≤ r ∧ r < i + d ∧ tr[r]? = some (t, e) ∧ (st r).held t .m = some .excl ∧ (st r).token = some t
  | 0, _, hn => absurd rfl hn
  | d + 1, hs, hn => by
    by_cases hd : f (st (i + d)) = f (st i)
    · obtain ⟨⟨v, e⟩, hp⟩ := hs (i + d) (by omega) (by omega)
      rcases hf _ _ _ _ (hq.inv_at hp) (hq.step _ _ _ hp) with h1 | ⟨h1, h2⟩
      · exact absurd (h1.trans hd) hn
      · exact ⟨i + d, v, e, by omega, by omega, hp, h1, h2⟩
    · obtain ⟨r, t, e, h1, h2, h3⟩ := hq.changes f i hf d (fun r h1 h2 => hs r h1 (by omega)) hd
      exact ⟨r, t, e, h1, by omega, h3⟩

theorem X_iff {x : Sys} {t : Nat} : (x.ctx t).X = true ↔ x.held t .m = some .excl := by
  exact ⟨fun h => of_decide_eq_true h, fun h => decide_eq_true h⟩

theorem S_iff {x : Sys} {t : Nat} : (x.ctx t).S = true ↔ ∃ k, x.held t .m = some k := by
  simp only [Ctx.S, Sys.ctx, Option.isSome_iff_exists]

theorem tok_iff {x : Sys} {t : Nat} : (x.ctx t).tok = true ↔ x.token = some t := by
  simp [Sys.ctx]

theorem flip_changes (x : Sys) (t : Nat) (y : Sys) (e) (hv : Inv x) (h : Step x t y e) :
    y.flip = x.flip ∨ (x.held t .m = some .excl ∧ x.token = some t) := by
  cases h with
  | op hp he =>
    rename_i o k
    have ha := hv.ok t
    rw [hp] at ha
    have ha := ha.1
    cases o with
    | swapPools =>
      right
      simp only [Ctx.allows, Bool.and_eq_true] at ha
      exact ⟨X_iff.mp ha.1, tok_iff.mp ha.2⟩
    | _ => left; rfl
  | _ => left; rfl

theorem pub_changes (x : Sys) (t : Nat) (y : Sys) (e) (hv : Inv x) (h : Step x t y e) :
    y.pub = x.pub ∨ (x.held t .m = some .excl ∧ x.token = some t) := by
  cases h with
  | op hp he =>
    rename_i o k
    have ha := hv.ok t
    rw [hp] at ha
    have ha := ha.1
    cases o with
    | publish =>
      right
      simp only [Ctx.allows, Bool.and_eq_true] at ha
      exact ⟨X_iff.mp ha.1, tok_iff.mp ha.2⟩
    | _ => left; rfl
  | _ => left; rfl

/-- Who has seen `ecb_` set has loaded it. -/
theorem Seq.seen (hq : Seq tr st) {t : Nat} : ∀ {j}, j ≤ tr.length → (st j).saw t = true →
    ∃ l, l < j ∧ tr[l]? = some (t, .load) ∧ (st l).ecb = true
  | 0, _, h => by rw [hq.zero] at h; cases h
  | j + 1, hj, h => by
    have hj' : j < tr.length := by omega
    have hs := hq.step j (tr[j]'hj').1 (tr[j]'hj').2 (List.getElem?_eq_getElem hj')
    have hp : tr[j]? = some ((tr[j]'hj').1, (tr[j]'hj').2) := List.getElem?_eq_getElem hj'
    generalize (tr[j]'hj').1 = v at hs hp
    generalize (tr[j]'hj').2 = e at hs hp
    by_cases hsame : (st (j + 1)).saw t = (st j).saw t
    · obtain ⟨l, h1, h2⟩ := hq.seen (by omega) (hsame.symm.trans h)
      exact ⟨l, by omega, h2⟩
    · generalize hx : st j = x at hs hsame
      generalize hy : st (j + 1) = y at hs hsame h
      cases hs with
      | call c hpc =>
        exfalso
        simp only [Sys.goto] at h hsame
        by_cases ht : t = v
        · rw [if_pos ht] at h; cases h
        · rw [if_neg ht] at hsame; exact hsame rfl
      | op hpc he =>
        rename_i o k
        exact absurd (by cases o <;> rfl) hsame
      | load hpc =>
        simp only [Sys.goto] at h hsame
        by_cases ht : t = v
        · rw [if_pos ht] at h
          subst ht
          exact ⟨j, by omega, hp, by rw [hx]; exact h⟩
        · rw [if_neg ht] at hsame; exact absurd rfl hsame
      | test hpc => exact absurd rfl hsame
      | pick n hpc => exact absurd rfl hsame

/-- Where `ecb_` is set it has been stored to; the last such step is by a thread that flushes. -/
theorem Seq.stored (hq : Seq tr st) : ∀ {j}, j ≤ tr.length → (st j).ecb = true →
    ∃ s v, s < j ∧ tr[s]? = some (v, .store) ∧ (st s).token = some v ∧
      ∀ n w, s < n → n < j → tr[n]? ≠ some (w, .store)
  | 0, _, h => by rw [hq.zero] at h; cases h
  | j + 1, hj, h => by
    have hj' : j < tr.length := by omega
    have hs := hq.step j (tr[j]'hj').1 (tr[j]'hj').2 (List.getElem?_eq_getElem hj')
    have hp : tr[j]? = some ((tr[j]'hj').1, (tr[j]'hj').2) := List.getElem?_eq_getElem hj'
    generalize (tr[j]'hj').1 = v at hs hp
    generalize (tr[j]'hj').2 = e at hs hp
    by_cases he : e = .store
    · subst he
      refine ⟨j, v, by omega, hp, ?_, fun n w h1 h2 => by omega⟩
      have hv := hq.inv_at hp
      generalize st j = x at hs hv
      generalize st (j + 1) = y at hs
      generalize hE : (Ev.store : Ev Loc Mu) = E at hs
      cases hs with
      | op hpc hrun =>
        rename_i o k
        have ha := hv.ok v
        rw [hpc] at ha
        cases o with
        | store => exact tok_iff.mp ha.1
        | _ => simp [Op.run] at hE
      | call => cases hE
      | load => cases hE
      | test => cases hE
      | pick => cases hE
    · have hb : (st j).ecb = true := by
        rw [← h]
        generalize st j = x at hs
        generalize st (j + 1) = y at hs
        cases hs with
        | op hpc hrun =>
          rename_i o k
          cases o <;> first | rfl | exact absurd rfl he
        | _ => rfl
      obtain ⟨s, w, h1, h2, h3, h4⟩ := hq.stored (by omega) hb
      refine ⟨s, w, by omega, h2, h3, fun n z h5 h6 hn => ?_⟩
      by_cases hnj : n = j
      · subst hnj; rw [hp] at hn; cases hn; exact he rfl
      · exact h4 n z h5 (by omega) hn

end NuDB.Race
