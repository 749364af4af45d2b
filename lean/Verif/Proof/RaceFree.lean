import Verif.Proof.RaceOrder
/-
Absence of data races, third part: what is known where a location is accessed, and that conflicting
accesses are ordered.
-/
namespace NuDB.Race

/-- Thread `t` holds `m_` exclusively. -/
def Sys.X (x : Sys) (t : Nat) : Prop := x.held t .m = some .excl
/-- Thread `t` holds `m_`. -/
def Sys.S (x : Sys) (t : Nat) : Prop := ∃ k, x.held t .m = some k
/-- Thread `t` flushes. -/
def Sys.F (x : Sys) (t : Nat) : Prop := x.token = some t

theorem Sys.X.S {x : Sys} {t : Nat} (h : x.X t) : x.S t := ⟨_, h⟩

/-- What is known where thread `t` reads a location. -/
def Rd (x : Sys) (t : Nat) : Loc → Prop
  | .fld .open_ => True
  | .fld .kh => True
  | .fld .buckets => x.S t ∨ x.F t
  | .fld .frac => x.F t
  | .fld .p0 => x.S t ∨ x.F t
  | .fld .p1 => x.S t
  | .fld .c1 => x.S t ∨ x.F t
  | .fld .ec => x.F t ∨ x.saw t = true
  | .fld .when => x.S t
  | .fld .burst => x.S t
  | .fld .gen => x.held t .g = some .excl
  | .fld .list => x.held t .ctx = some .excl
  | .first b => x.S t ∨ (x.F t ∧ b = !x.flip)
  | .second b => (x.X t ∧ b = x.flip) ∨ (x.F t ∧ b = !x.flip)
  | .blocks k => x.F t ∨ (x.S t ∧ k = x.pub)
  | .pad _ => x.F t

/-- What is known where thread `t` writes a location. -/
def Wr (x : Sys) (t : Nat) : Loc → Prop
  | .fld .open_ => False
  | .fld .kh => False
  | .fld .buckets => x.X t ∧ x.F t
  | .fld .frac => x.F t
  | .fld .p0 => x.X t ∧ x.F t
  | .fld .p1 => x.X t
  | .fld .c1 => x.X t ∧ x.F t
  | .fld .ec => x.F t
  | .fld .when => x.X t
  | .fld .burst => x.X t
  | .fld .gen => x.held t .g = some .excl
  | .fld .list => x.held t .ctx = some .excl
  | .first b => x.X t ∧ (b = x.flip ∨ x.F t)
  | .second b => (x.X t ∧ b = x.flip) ∨ (x.F t ∧ b = !x.flip)
  | .blocks k => x.F t ∧ (x.X t ∨ k = x.own)
  | .pad _ => x.F t

theorem rd_of {x : Sys} {t : Nat} {v : Var} (h : (x.ctx t).read v = true) : Rd x t (x.loc v) := by
  have hX := @X_iff x t
  have hS := @S_iff x t
  have hT := @tok_iff x t
  cases v with
  | fld f =>
    cases f <;> simp only [Ctx.read, Bool.or_eq_true, hS, hT] at h <;>
      simp only [Rd, Sys.loc, Sys.S, Sys.F] <;> first | exact h | exact of_decide_eq_true h | trivial
  | first0 =>
    simp only [Ctx.read, Bool.or_eq_true, hS, hT] at h
    exact h.elim Or.inl (fun h => Or.inr ⟨h, rfl⟩)
  | first1 => exact Or.inl (hS.mp h)
  | second0 => exact Or.inr ⟨hT.mp h, rfl⟩
  | second1 => exact Or.inl ⟨hX.mp h, rfl⟩
  | own => exact Or.inl (hT.mp h)
  | pub =>
    simp only [Ctx.read, Bool.or_eq_true, hS, hT] at h
    exact h.elim (fun h => Or.inr ⟨h, rfl⟩) Or.inl
  | padOwn => exact hT.mp h
  | padPub => exact hT.mp h

theorem wr_of {x : Sys} {t : Nat} {v : Var} (h : (x.ctx t).write v = true) : Wr x t (x.loc v) := by
  have hX := @X_iff x t
  have hT := @tok_iff x t
  cases v with
  | fld f =>
    cases f <;> simp only [Ctx.write, Bool.and_eq_true, hX, hT, Bool.false_eq_true] at h <;>
      simp only [Wr, Sys.loc, Sys.X, Sys.F] <;> first | exact h | exact of_decide_eq_true h
  | first0 =>
    simp only [Ctx.write, Bool.and_eq_true, hX, hT] at h
    exact ⟨h.1, Or.inr h.2⟩
  | first1 => exact ⟨hX.mp h, Or.inl rfl⟩
  | second0 => exact Or.inr ⟨hT.mp h, rfl⟩
  | second1 => exact Or.inl ⟨hX.mp h, rfl⟩
  | own => exact ⟨hT.mp h, Or.inr rfl⟩
  | pub =>
    simp only [Ctx.write, Bool.and_eq_true, hX, hT] at h
    exact ⟨h.2, Or.inl h.1⟩
  | padOwn => exact hT.mp h
  | padPub => exact hT.mp h

theorem step_read {x y : Sys} {t : Nat} {l : Loc} (hv : Inv x) (h : Step x t y (.read l)) : Rd x t l := by
  generalize hE : (Ev.read l : Ev Loc Mu) = E at h
  cases h with
  | op hp he =>
    rename_i o k
    have ha := hv.ok t
    rw [hp] at ha
    have ha := ha.1
    cases o with
    | rd v => simp only [Op.run, Ev.read.injEq] at hE; rw [hE]; exact rd_of ha
    | _ => simp [Op.run] at hE
  | test hp =>
    have ha := hv.ok t
    rw [hp] at ha
    simp only [Ev.read.injEq] at hE
    rw [hE]
    exact Or.inl (tok_iff.mp ha.1)
  | _ => cases hE

theorem step_write {x y : Sys} {t : Nat} {l : Loc} (hv : Inv x) (h : Step x t y (.write l)) : Wr x t l := by
  generalize hE : (Ev.write l : Ev Loc Mu) = E at h
  cases h with
  | op hp he =>
    rename_i o k
    have ha := hv.ok t
    rw [hp] at ha
    have ha := ha.1
    cases o with
    | wr v => simp only [Op.run, Ev.write.injEq] at hE; rw [hE]; exact wr_of ha
    | fail => simp only [Op.run, Ev.write.injEq] at hE; rw [hE]; exact tok_iff.mp ha
    | _ => simp [Op.run] at hE
  | _ => cases hE

variable {tr : Trace Loc Mu} {st : Nat → Sys}

section
variable (hq : Seq tr st) {i j t u : Nat} {a b : Ev Loc Mu} (hij : i < j)
  (hi : tr[i]? = some (t, a)) (hj : tr[j]? = some (u, b))
include hq hij hi hj

theorem hbXS (h1 : (st i).X t) (h2 : (st j).S u) : HB tr i j := by
  obtain ⟨k, h2⟩ := h2
  exact hq.locked hij hi hj h1 h2 (Or.inl rfl)

theorem hbSX (h1 : (st i).S t) (h2 : (st j).X u) : HB tr i j := by
  obtain ⟨k, h1⟩ := h1
  exact hq.locked hij hi hj h1 h2 (Or.inr rfl)

theorem hbFF (h1 : (st i).F t) (h2 : (st j).F u) : HB tr i j := hq.flushing hij hi hj h1 h2

/-- The flusher with `m_` held exclusively did something in between. -/
theorem between {β : Type} (f : Sys → β)
    (hf : ∀ x t y e, Inv x → Step x t y e → f y = f x ∨ (x.held t .m = some .excl ∧ x.token = some t))
    (hne : f (st j) ≠ f (st i)) :
    ∃ r v e, i ≤ r ∧ r < j ∧ tr[r]? = some (v, e) ∧ (st r).X v ∧ (st r).F v := by
  have hji : i + (j - i) = j := by omega
  obtain ⟨r, v, e, h1, h2, h3, h4, h5⟩ := hq.changes f i hf (j - i)
    (fun r _ h2 => by
      obtain ⟨v, e, h⟩ := some_of_lt hj (i := r) (by omega)
      exact ⟨_, h⟩) (by rw [hji]; exact hne)
  exact ⟨r, v, e, h1, by omega, h3, h4, h5⟩

/-- Hand-over to the flusher. -/
theorem hbToF {β : Type} (f : Sys → β)
    (hf : ∀ x t y e, Inv x → Step x t y e → f y = f x ∨ (x.held t .m = some .excl ∧ x.token = some t))
    (hne : f (st j) ≠ f (st i)) (h1 : (st i).S t) (h2 : (st j).F u) : HB tr i j := by
  obtain ⟨r, v, e, h3, h4, h5, h6, h7⟩ := between hq hij hi hj f hf hne
  have hrj := hbFF hq h4 h5 hj h7 h2
  by_cases hir : i = r
  · subst hir; exact hrj
  · exact .trans (hbSX hq (by omega) hi h5 h1 h6) hrj

/-- Hand-over by the flusher. -/
theorem hbOfF {β : Type} (f : Sys → β)
    (hf : ∀ x t y e, Inv x → Step x t y e → f y = f x ∨ (x.held t .m = some .excl ∧ x.token = some t))
    (hne : f (st j) ≠ f (st i)) (h1 : (st i).F t) (h2 : (st j).S u) : HB tr i j := by
  obtain ⟨r, v, e, h3, h4, h5, h6, h7⟩ := between hq hij hi hj f hf hne
  have hrj := hbXS hq h4 h5 hj h6 h2
  by_cases hir : i = r
  · subst hir; exact hrj
  · exact .trans (hbFF hq (by omega) hi h5 h1 h7) hrj

/-- Two accesses of the offset of an item. -/
theorem hbSecond {p : Bool} (h1 : ((st i).X t ∧ p = (st i).flip) ∨ ((st i).F t ∧ p = !(st i).flip))
    (h2 : ((st j).X u ∧ p = (st j).flip) ∨ ((st j).F u ∧ p = !(st j).flip)) : HB tr i j := by
  rcases h1 with ⟨h1, e1⟩ | ⟨h1, e1⟩ <;> rcases h2 with ⟨h2, e2⟩ | ⟨h2, e2⟩
  · exact hbXS hq hij hi hj h1 h2.S
  · refine hbToF hq hij hi hj Sys.flip flip_changes (fun h => ?_) h1.S h2
    rw [h, ← e1] at e2; cases p <;> cases e2
  · refine hbOfF hq hij hi hj Sys.flip flip_changes (fun h => ?_) h1 h2.S
    rw [h] at e2; rw [← e2] at e1; cases p <;> cases e1
  · exact hbFF hq hij hi hj h1 h2

end

/-- A write, then a read. -/
theorem hb_wr (hq : Seq tr st) {i j t u : Nat} {l : Loc} (hone : l = .fld .ec → Once tr) (hij : i < j)
    (hi : tr[i]? = some (t, .write l)) (hj : tr[j]? = some (u, .read l)) : HB tr i j := by
  have hw := step_write (hq.inv_at hi) (hq.step _ _ _ hi)
  have hr := step_read (hq.inv_at hj) (hq.step _ _ _ hj)
  cases l with
  | fld f =>
    cases f with
    | open_ => exact hw.elim
    | kh => exact hw.elim
    | buckets => exact hr.elim (hbXS hq hij hi hj hw.1) (hbFF hq hij hi hj hw.2)
    | frac => exact hbFF hq hij hi hj hw hr
    | p0 => exact hr.elim (hbXS hq hij hi hj hw.1) (hbFF hq hij hi hj hw.2)
    | p1 => exact hbXS hq hij hi hj hw hr
    | c1 => exact hr.elim (hbXS hq hij hi hj hw.1) (hbFF hq hij hi hj hw.2)
    | ec =>
      rcases hr with hr | hr
      · exact hbFF hq hij hi hj hw hr
      · have hlen : j ≤ tr.length := by
          by_cases hl : j < tr.length
          · omega
          · rw [List.getElem?_eq_none (by omega)] at hj; cases hj
        obtain ⟨n, h1, h2, h3⟩ := hq.seen hlen hr
        obtain ⟨s, v, h4, h5, h6, h7⟩ := hq.stored (by omega) h3
        have hnj : HB tr n j := .order h1 h2 hj
        have hsn : HB tr s n := .atomic h4 h5 h2 h7
        have his : i < s := by
          by_cases h8 : i < s
          · exact h8
          · exfalso
            by_cases h9 : i = s
            · subst h9; rw [hi] at h5; cases h5
            · exact hone rfl s i v t (by omega) h5 hi
        exact .trans (hbFF hq his hi h5 hw h6) (.trans hsn hnj)
    | when => exact hbXS hq hij hi hj hw hr
    | burst => exact hbXS hq hij hi hj hw hr
    | gen => exact hq.locked hij hi hj hw hr (Or.inl rfl)
    | list => exact hq.locked hij hi hj hw hr (Or.inl rfl)
  | first p =>
    rcases hr with hr | ⟨hr, e2⟩
    · exact hbXS hq hij hi hj hw.1 hr
    · rcases hw.2 with e1 | h1
      · refine hbToF hq hij hi hj Sys.flip flip_changes (fun h => ?_) hw.1.S hr
        rw [h, ← e1] at e2; cases p <;> cases e2
      · exact hbFF hq hij hi hj h1 hr
  | second p => exact hbSecond hq hij hi hj hw hr
  | blocks k =>
    rcases hr with hr | ⟨hr, e2⟩
    · exact hbFF hq hij hi hj hw.1 hr
    · rcases hw.2 with h1 | e1
      · exact hbXS hq hij hi hj h1 hr
      · refine hbOfF hq hij hi hj Sys.pub pub_changes (fun h => ?_) hw.1 hr
        exact (hq.inv_at hi).caches.2.2 (by rw [← h, ← e2, ← e1])
  | pad k => exact hbFF hq hij hi hj hw hr

/-- A read, then a write. -/
theorem hb_rw (hq : Seq tr st) {i j t u : Nat} {l : Loc} (hone : l = .fld .ec → Once tr) (hij : i < j)
    (hi : tr[i]? = some (t, .read l)) (hj : tr[j]? = some (u, .write l)) : HB tr i j := by
  have hr := step_read (hq.inv_at hi) (hq.step _ _ _ hi)
  have hw := step_write (hq.inv_at hj) (hq.step _ _ _ hj)
  cases l with
  | fld f =>
    cases f with
    | open_ => exact hw.elim
    | kh => exact hw.elim
    | buckets => exact hr.elim (fun h => hbSX hq hij hi hj h hw.1) (fun h => hbFF hq hij hi hj h hw.2)
    | frac => exact hbFF hq hij hi hj hr hw
    | p0 => exact hr.elim (fun h => hbSX hq hij hi hj h hw.1) (fun h => hbFF hq hij hi hj h hw.2)
    | p1 => exact hbSX hq hij hi hj hr hw
    | c1 => exact hr.elim (fun h => hbSX hq hij hi hj h hw.1) (fun h => hbFF hq hij hi hj h hw.2)
    | ec =>
      rcases hr with hr | hr
      · exact hbFF hq hij hi hj hr hw
      · exfalso
        have hlen : i ≤ tr.length := by
          by_cases hl : i < tr.length
          · omega
          · rw [List.getElem?_eq_none (by omega)] at hi; cases hi
        obtain ⟨n, h1, h2, h3⟩ := hq.seen hlen hr
        obtain ⟨s, v, h4, h5, h6, h7⟩ := hq.stored (by omega) h3
        exact hone rfl s j v u (by omega) h5 hj
    | when => exact hbSX hq hij hi hj hr hw
    | burst => exact hbSX hq hij hi hj hr hw
    | gen => exact hq.locked hij hi hj hr hw (Or.inl rfl)
    | list => exact hq.locked hij hi hj hr hw (Or.inl rfl)
  | first p =>
    rcases hr with hr | ⟨hr, e1⟩
    · exact hbSX hq hij hi hj hr hw.1
    · rcases hw.2 with e2 | h2
      · refine hbOfF hq hij hi hj Sys.flip flip_changes (fun h => ?_) hr hw.1.S
        rw [h] at e2; rw [← e2] at e1; cases p <;> cases e1
      · exact hbFF hq hij hi hj hr h2
  | second p => exact hbSecond hq hij hi hj hr hw
  | blocks k =>
    rcases hr with hr | ⟨hr, e1⟩
    · exact hbFF hq hij hi hj hr hw.1
    · rcases hw.2 with h2 | e2
      · exact hbSX hq hij hi hj hr h2
      · refine hbToF hq hij hi hj Sys.pub pub_changes (fun h => ?_) hr hw.1
        exact (hq.inv_at hj).caches.2.2 (by rw [h, ← e2, ← e1])
  | pad k => exact hbFF hq hij hi hj hr hw

/-- Two writes. -/
theorem hb_ww (hq : Seq tr st) {i j t u : Nat} {l : Loc} (hij : i < j)
    (hi : tr[i]? = some (t, .write l)) (hj : tr[j]? = some (u, .write l)) : HB tr i j := by
  have hr := step_write (hq.inv_at hi) (hq.step _ _ _ hi)
  have hw := step_write (hq.inv_at hj) (hq.step _ _ _ hj)
  cases l with
  | fld f =>
    cases f with
    | open_ => exact hw.elim
    | kh => exact hw.elim
    | buckets => exact hbFF hq hij hi hj hr.2 hw.2
    | frac => exact hbFF hq hij hi hj hr hw
    | p0 => exact hbFF hq hij hi hj hr.2 hw.2
    | p1 => exact hbXS hq hij hi hj hr hw.S
    | c1 => exact hbFF hq hij hi hj hr.2 hw.2
    | ec => exact hbFF hq hij hi hj hr hw
    | when => exact hbXS hq hij hi hj hr hw.S
    | burst => exact hbXS hq hij hi hj hr hw.S
    | gen => exact hq.locked hij hi hj hr hw (Or.inl rfl)
    | list => exact hq.locked hij hi hj hr hw (Or.inl rfl)
  | first p => exact hbXS hq hij hi hj hr.1 hw.1.S
  | second p => exact hbSecond hq hij hi hj hr hw
  | blocks k => exact hbFF hq hij hi hj hr.1 hw.1
  | pad k => exact hbFF hq hij hi hj hr hw

/-- Conflicting accesses are ordered. -/
theorem hb_conflict (hq : Seq tr st) {i j t u : Nat} {l : Loc} (hone : l = .fld .ec → Once tr) {a b : Ev Loc Mu} (hij : i < j)
    (hi : tr[i]? = some (t, a)) (hj : tr[j]? = some (u, b))
    (hc : (a = .write l ∧ b = .write l) ∨ (a = .write l ∧ b = .read l) ∨ (a = .read l ∧ b = .write l)) : HB tr i j := by
  obtain ⟨rfl, rfl⟩ | ⟨rfl, rfl⟩ | ⟨rfl, rfl⟩ := hc
  · exact hb_ww hq hij hi hj
  · exact hb_wr hq hone hij hi hj
  · exact hb_rw hq hone hij hi hj

end NuDB.Race
