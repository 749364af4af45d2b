import Verif.Proof.Wake
/-
More about the flush scheduler, used by `Props/Sched`.
-/
namespace NuDB.Sched
open Spec

theorem life_of_run {es : List Ev} {c : Ctx} (r : Run init es c) (s : Nat) :
    life s es = some (toLife (c.st s)) := run_life r inv_init s

theorem fold_split {s : Nat} {a b : List Ev} {l l' : Life} (h : (a ++ b).foldlM (advance s) l = some l') :
    ∃ m, a.foldlM (advance s) l = some m ∧ b.foldlM (advance s) m = some l' := by
  rw [List.foldlM_append] at h
  cases ha : a.foldlM (advance s) l with
  | none => rw [ha] at h; cases h
  | some m => rw [ha] at h; exact ⟨m, rfl, h⟩

theorem fold_cons {s : Nat} {e : Ev} {b : List Ev} {l l' : Life} (h : (e :: b).foldlM (advance s) l = some l') :
    ∃ m, advance s l e = some m ∧ b.foldlM (advance s) m = some l' := by
  rw [List.foldlM_cons] at h
  cases ha : advance s l e with
  | none => rw [ha] at h; cases h
  | some m => rw [ha] at h; exact ⟨m, rfl, h⟩

theorem gone_stays {s : Nat} : ∀ {es : List Ev} {l : Life}, es.foldlM (advance s) .gone = some l →
    Ev.registered s ∉ es → Ev.started s ∉ es ∧ l = .gone
  | [], l, h, _ => by cases h; exact ⟨by simp, rfl⟩
  | e :: es, l, h, hr => by
    simp only [List.mem_cons, not_or] at hr
    obtain ⟨m, h1, h2⟩ := fold_cons h
    have hm : m = .gone ∧ e ≠ .started s := by
      cases e with
      | registered x =>
        have : x ≠ s := fun e => hr.1 (by rw [e])
        simp [advance, this] at h1; exact ⟨h1.symm, by simp⟩
      | round xs =>
        by_cases hx : s ∈ xs <;> simp [advance, hx] at h1
        exact ⟨h1.symm, by simp⟩
      | started x =>
        by_cases hx : x = s <;> simp [advance, hx] at h1
        exact ⟨h1.symm, by simp [hx]⟩
      | finished x =>
        by_cases hx : x = s <;> simp [advance, hx] at h1
        exact ⟨h1.symm, by simp⟩
      | unregistered x =>
        by_cases hx : x = s <;> simp [advance, hx] at h1
        · exact ⟨h1.symm, by simp⟩
        · exact ⟨h1.symm, by simp⟩
    obtain ⟨rfl, hne⟩ := hm
    obtain ⟨i1, i2⟩ := gone_stays h2 hr.2
    exact ⟨by simp [i1, Ne.symm hne], i2⟩

theorem count_started {s : Nat} : ∀ {es : List Ev} {l : Life}, l ≠ .gone →
    es.foldlM (advance s) l = some .idle → Ev.unregistered s ∉ es → (∀ xs, Ev.round xs ∈ es → s ∉ xs) →
    es.count (.started s) = if l = .queued then 1 else 0
  | [], l, _, h, _, _ => by cases h; rfl
  | e :: es, l, hl, h, hu, hr => by
    simp only [List.mem_cons, not_or] at hu
    obtain ⟨m, h1, h2⟩ := fold_cons h
    have hr' : ∀ xs, Ev.round xs ∈ es → s ∉ xs := fun xs hx => hr xs (List.mem_cons_of_mem _ hx)
    have key : (m = l ∧ e ≠ .started s) ∨ (l = .queued ∧ m = .busy ∧ e = .started s) ∨
        (l = .busy ∧ m = .idle ∧ e ≠ .started s) := by
      cases e with
      | registered x =>
        by_cases hx : x = s <;> simp [advance, hx, hl] at h1
        exact .inl ⟨h1.symm, by simp⟩
      | round xs =>
        have hx : s ∉ xs := hr xs (List.mem_cons_self ..)
        by_cases hi : l = .idle <;> simp [advance, hx, hi] at h1
        exact .inl ⟨h1.symm, by simp⟩
      | started x =>
        by_cases hx : x = s
        · by_cases hq : l = .queued <;> simp [advance, hx, hq] at h1
          exact .inr (.inl ⟨hq, h1.symm, by rw [hx]⟩)
        · simp [advance, hx] at h1
          exact .inl ⟨h1.symm, by simp [hx]⟩
      | finished x =>
        by_cases hx : x = s
        · by_cases hq : l = .busy <;> simp [advance, hx, hq] at h1
          exact .inr (.inr ⟨hq, h1.symm, by simp⟩)
        · simp [advance, hx] at h1
          exact .inl ⟨h1.symm, by simp⟩
      | unregistered x =>
        have hx : x ≠ s := fun e => hu.1 (by rw [e])
        simp [advance, hx] at h1
        exact .inl ⟨h1.symm, by simp⟩
    rcases key with ⟨rfl, hne⟩ | ⟨rfl, rfl, rfl⟩ | ⟨rfl, rfl, hne⟩
    · rw [List.count_cons_of_ne hne, count_started hl h2 hu.2 hr']
    · rw [List.count_cons_self, count_started (by simp) h2 hu.2 hr']; rfl
    · rw [List.count_cons_of_ne hne, count_started (by simp) h2 hu.2 hr']; rfl

theorem idxOf_ne {x s : Nat} {l : List Nat} (h : x ≠ s) : (x :: l).idxOf s = l.idxOf s + 1 := by
  rw [List.idxOf_cons, beq_false_of_ne h]; rfl

theorem fifo_step {k k' : Core} {es : List Ev} (h : CoreStep k es k') (inv : Inv k) {s : Nat}
    (hs : s ∈ k.flushing) :
    (Ev.started s ∈ es ∨ Ev.unregistered s ∈ es) ∨
    (s ∈ k'.flushing ∧ k'.flushing.idxOf s + (es.filter isStarted).length ≤ k.flushing.idxOf s) := by
  cases h with
  | idle => exact .inr ⟨hs, by simp⟩
  | round =>
    right
    refine ⟨List.mem_append_left _ hs, ?_⟩
    show (k.flushing ++ k.waiting).idxOf s + _ ≤ _
    rw [List.idxOf_append, if_pos hs]
    simp [isStarted]
  | take w x l st fl t ht =>
    by_cases hx : x = s
    · subst hx; exact .inl (.inl (List.mem_cons_self ..))
    · right
      have hl : s ∈ l := by
        rcases List.mem_cons.1 hs with h | h
        · exact absurd h.symm hx
        · exact h
      refine ⟨hl, ?_⟩
      show l.idxOf s + 1 ≤ (x :: l).idxOf s
      rw [idxOf_ne hx]; exact Nat.le_refl _
  | give w l st fl t x ht => exact .inr ⟨hs, by simp [isStarted]⟩
  | insert w l st fl x hx => exact .inr ⟨hs, by simp [isStarted]⟩
  | remW w l st fl x hx => exact .inr ⟨hs, by simp [isStarted]⟩
  | remF w l st fl x hx =>
    by_cases he : x = s
    · subst he; exact .inl (.inr (List.mem_cons_self ..))
    · right
      have hs : s ∈ l := hs
      refine ⟨List.mem_filter.2 ⟨hs, by simp [Ne.symm he]⟩, ?_⟩
      show (l.filter (fun y => y ≠ x)).idxOf s + 0 ≤ l.idxOf s
      have gen : ∀ l : List Nat, s ∈ l → (l.filter (fun y => decide (y ≠ x))).idxOf s ≤ l.idxOf s := by
        intro l
        induction l with
        | nil => intro h; cases h
        | cons y l ih =>
          intro hm
          by_cases hys : y = s
          · subst hys
            rw [List.filter_cons_of_pos (by simp [Ne.symm he]), List.idxOf_cons_self, List.idxOf_cons_self]
            exact Nat.le_refl _
          · have hm : s ∈ l := by
              rcases List.mem_cons.1 hm with h | h
              · exact absurd h.symm hys
              · exact h
            have := ih hm
            rw [idxOf_ne hys]
            by_cases hyx : y = x
            · subst hyx
              rw [List.filter_cons_of_neg (by simp)]; omega
            · rw [List.filter_cons_of_pos (by simp [hyx]), idxOf_ne hys]; omega
      exact gen l hs
  | remN w l st fl x hx => exact .inr ⟨hs, by simp [isStarted]⟩

theorem Run.trans {a b c : Ctx} {es es' : List Ev} (r : Run a es b) (r' : Run b es' c) : Run a (es ++ es') c := by
  induction r' with
  | refl => rw [List.append_nil]; exact r
  | step _ h ih => rw [← List.append_assoc]; exact .step ih h

theorem exec_run : ∀ {l : List (Nat × Act)} {c c' : Ctx} {es : List Ev}, exec c l = some (c', es) → Run c es c'
  | [], c, c', es, h => by cases h; exact .refl c
  | (t, a) :: rest, c, c', es, h => by
    unfold exec at h
    cases hs : step c t a with
    | none => rw [hs] at h; cases h
    | some x =>
      obtain ⟨c1, e1⟩ := x
      rw [hs] at h
      dsimp only at h
      cases hr : exec c1 rest with
      | none => rw [hr] at h; cases h
      | some y =>
        obtain ⟨c2, e2⟩ := y
        rw [hr] at h
        cases h
        have := Run.trans (.step (.refl c) hs) (exec_run hr)
        simpa using this

theorem step_leads {c c' : Ctx} {t : Nat} {a : Act} {es : List Ev} (ha : a ≠ .stopAll) (hs : c.stop = false)
    (hj : ∀ x, (c.pc x ≠ .stWait) ∧ (∀ u, c.pc x ≠ .stJoin u) ∧ c.pc x ≠ .runLeave)
    (hl : c.num = 0 ∨ ∃ x, Leads (c.pc x) = true) (h : step c t a = some (c', es)) :
    c'.stop = false ∧ (∀ x, (c'.pc x ≠ .stWait) ∧ (∀ u, c'.pc x ≠ .stJoin u) ∧ c'.pc x ≠ .runLeave) ∧
    (c'.num = 0 ∨ ∃ x, Leads (c'.pc x) = true) := by
  -- a step of thread `t` to `p`, from a state `d` with the same threads
  have go : ∀ (d : Ctx) (p : PC) (u : Nat), d.stop = false → d.pc = c.pc →
      (p ≠ .stWait ∧ (∀ u, p ≠ .stJoin u) ∧ p ≠ .runLeave) →
      (Leads p = true ∨ (Leads (c.pc u) = false ∧ (d.num = 0 ∨ ∃ x, Leads (c.pc x) = true))) →
      (d.at u p).stop = false ∧
      (∀ x, ((d.at u p).pc x ≠ .stWait) ∧ (∀ u', (d.at u p).pc x ≠ .stJoin u') ∧ (d.at u p).pc x ≠ .runLeave) ∧
      ((d.at u p).num = 0 ∨ ∃ x, Leads ((d.at u p).pc x) = true) := by
    intro d p u h1 h2 h3 h4
    refine ⟨h1, fun x => ?_, ?_⟩
    · show (if x = u then p else d.pc x) ≠ _ ∧ _
      simp only [Ctx.at]
      by_cases hx : x = u
      · simp only [hx, if_true]; exact h3
      · simp only [hx, if_false, h2]; exact hj x
    · rcases h4 with h4 | ⟨h4, h5 | ⟨x, h5⟩⟩
      · exact .inr ⟨u, by simp [Ctx.at, h4]⟩
      · exact .inl h5
      · refine .inr ⟨x, ?_⟩
        have : x ≠ u := fun e => by rw [e, h4] at h5; cases h5
        simp [Ctx.at, this, h2, h5]
  have tk : ∀ {d : Ctx} {s : Nat}, c.take = some (s, d) → d.stop = false ∧ d.pc = c.pc ∧ d.num = c.num := by
    intro d s ht
    unfold Ctx.take at ht
    cases hf : c.flushing with
    | nil => rw [hf] at ht; cases ht
    | cons y l => rw [hf] at ht; cases ht; exact ⟨hs, rfl, rfl⟩
  have rm : ∀ s, (c.remove s).stop = false ∧ (c.remove s).pc = c.pc ∧ (c.remove s).num = c.num := by
    intro s
    unfold Ctx.remove
    split <;> exact ⟨hs, rfl, rfl⟩
  unfold step at h
  split at h
  case h_1 hp =>
    cases h
    refine go _ _ _ hs rfl (by simp) ?_
    by_cases hn : c.num = 0
    · left; simp [hn, Leads]
    · exact .inr ⟨by rw [hp]; rfl, .inr (hl.resolve_left hn)⟩
  case h_2 hp =>
    cases h
    refine go _ _ _ hs rfl (by simp) ?_
    by_cases hn : c.num = 0
    · left; simp [hn, Leads]
    · exact .inr ⟨by rw [hp]; rfl, .inr (hl.resolve_left hn)⟩
  case h_3 hp =>
    split at h
    · cases h; exact ⟨hs, hj, hl⟩
    · cases h
      exact go c.moveAll _ _ hs rfl (by simp) (.inr ⟨by rw [hp]; rfl, hl⟩)
  case h_4 hp =>
    split at h
    · cases h; exact ⟨hs, hj, hl⟩
    · cases h
  case h_5 s hp =>
    split at h
    · cases h; exact ⟨hs, hj, hl⟩
    · cases h
      exact go c _ _ hs rfl (by simp) (.inr ⟨by rw [hp]; rfl, hl⟩)
    · cases h
      obtain ⟨r1, r2, r3⟩ := rm s
      rw [r2, r3]; exact ⟨r1, hj, hl⟩
  case h_6 u hp =>
    split at h
    · rename_i hu
      split at h
      · cases h
        exact go { c with thread := some u } _ _ hs rfl (by simp) (.inr ⟨by rw [hu.2]; rfl, hl⟩)
      · cases h; exact ⟨hs, hj, hl⟩
    · cases h
  case h_7 hp => exact absurd rfl ha
  case h_8 f hp =>
    rw [if_neg (by simp [hs])] at h
    split at h
    · cases h; exact go c _ _ hs rfl (by simp) (.inl rfl)
    · rename_i hf
      have hf : f = false := by simpa using hf
      subst hf
      split at h <;> cases h <;> exact go c _ _ hs rfl (by simp) (.inr ⟨by rw [hp]; rfl, hl⟩)
  case h_9 hp =>
    unfold Ctx.timed at h
    rw [if_neg (by simp [hs])] at h
    by_cases he : c.waiting.isEmpty = true
    · rw [if_pos he] at h
      dsimp only at h
      split at h
      · cases h; exact go c _ _ hs rfl (by simp) (.inl rfl)
      · split at h
        · cases h; exact go c.notifyF _ _ hs rfl (by simp) (.inl rfl)
        · cases h; exact go c _ _ hs rfl (by simp) (.inl rfl)
    · rw [if_neg he] at h
      dsimp only at h
      split at h
      · cases h; exact go c.moveAll _ _ hs rfl (by simp) (.inl rfl)
      · split at h
        · cases h; exact go c.moveAll.notifyF _ _ hs rfl (by simp) (.inl rfl)
        · cases h; exact go c.moveAll _ _ hs rfl (by simp) (.inl rfl)
  case h_10 hp =>
    rw [if_neg (by simp [hs])] at h
    split at h <;> cases h <;> exact go c _ _ hs rfl (by simp) (.inr ⟨by rw [hp]; rfl, hl⟩)
  case h_11 f hp =>
    have hc : ∀ p, (f = true → Leads p = true) → Leads p = true ∨ (Leads (c.pc t) = false ∧
        (c.num = 0 ∨ ∃ x, Leads (c.pc x) = true)) := by
      intro p h
      cases f with
      | true => exact .inl (h rfl)
      | false => exact .inr ⟨by rw [hp]; rfl, hl⟩
    split at h
    · cases h
      exact go c _ _ hs rfl (by simp) (hc _ (fun e => by rw [e]; rfl))
    · rename_i s d ht
      cases h
      obtain ⟨r1, r2, r3⟩ := tk ht
      exact go d _ _ r1 r2 (by simp) (r3 ▸ hc _ (fun e => by rw [e]; rfl))
  case h_12 f s hp =>
    cases h
    refine go (c.giveBack s) _ _ hs rfl (by simp) ?_
    cases f with
    | true => exact .inl rfl
    | false => exact .inr ⟨by rw [hp]; rfl, hl⟩
  case h_13 hp => exact absurd hp (hj t).2.2
  case h_14 hp =>
    split at h
    · cases h
      exact go c _ _ hs rfl (by simp) (.inr ⟨by rw [hp]; rfl, hl⟩)
    · rename_i s d ht
      cases h
      obtain ⟨r1, r2, r3⟩ := tk ht
      exact go d _ _ r1 r2 (by simp) (.inr ⟨by rw [hp]; rfl, r3 ▸ hl⟩)
  case h_15 s hp =>
    cases h
    exact go (c.giveBack s) _ _ hs rfl (by simp) (.inr ⟨by rw [hp]; rfl, hl⟩)
  case h_16 s hp =>
    split at h
    · cases h
      exact go c _ _ hs rfl (by simp) (.inr ⟨by rw [hp]; rfl, hl⟩)
    · cases h
      obtain ⟨r1, r2, r3⟩ := rm s
      exact go (c.remove s) _ _ r1 r2 (by simp) (.inr ⟨by rw [hp]; rfl, r3 ▸ hl⟩)
  case h_17 hp => exact absurd hp (hj t).1
  case h_18 u hp => exact absurd hp ((hj t).2.1 u)
  case h_19 => cases h

theorem step_other {c c' : Ctx} {t x : Nat} {a : Act} {es : List Ev} (h : step c t a = some (c', es)) (hx : x ≠ t)
    (hu : ∀ u, a = .start u → x ≠ u) : c'.pc x = c.pc x := by
  have at_ : ∀ (d : Ctx) p u, x ≠ u → (d.at u p).pc x = d.pc x := fun d p u h => by simp [Ctx.at, h]
  unfold step at h
  split at h
  case h_6 u hp =>
    have := hu u rfl
    split at h
    · split at h
      · cases h; exact at_ _ _ _ this
      · cases h; rfl
    · cases h
  case h_9 hp =>
    unfold Ctx.timed at h
    by_cases hs : c.stop = true
    · rw [if_pos hs] at h; cases h; exact at_ _ _ _ hx
    · rw [if_neg hs] at h
      by_cases he : c.waiting.isEmpty = true
      · rw [if_pos he] at h
        dsimp only at h
        split at h
        · cases h; exact at_ _ _ _ hx
        · split at h <;> cases h <;> exact at_ _ _ _ hx
      · rw [if_neg he] at h
        dsimp only at h
        split at h
        · cases h; exact at_ _ _ _ hx
        · split at h <;> cases h <;> exact at_ _ _ _ hx
  all_goals (try split at h)
  all_goals (try dsimp only at h)
  all_goals (try split at h)
  all_goals (try split at h)
  all_goals first
    | (cases h; done)
    | (cases h; exact at_ _ _ _ hx)
    | (cases h; rfl)
    | (cases h; rw [(remove_pc c _).1])
    | (cases h; rw [at_ _ _ _ hx]; first | rw [(remove_pc c _).1] | (rename_i ht; rw [(take_pc ht).1]))
    | (cases h; unfold Ctx.halted; split <;> exact at_ _ _ _ hx)

theorem exec_leads : ∀ {l : List (Nat × Act)} {c c' : Ctx} {es : List Ev}, (∀ x ∈ l, x.2 ≠ .stopAll) →
    c.stop = false → (∀ x, (c.pc x ≠ .stWait) ∧ (∀ u, c.pc x ≠ .stJoin u) ∧ c.pc x ≠ .runLeave) →
    (c.num = 0 ∨ ∃ x, Leads (c.pc x) = true) → exec c l = some (c', es) →
    c'.num = 0 ∨ ∃ x, Leads (c'.pc x) = true
  | [], c, c', es, _, _, _, hl, h => by cases h; exact hl
  | (t, a) :: rest, c, c', es, hn, hs, hj, hl, h => by
    unfold exec at h
    cases hst : step c t a with
    | none => rw [hst] at h; cases h
    | some x =>
      obtain ⟨c1, e1⟩ := x
      rw [hst] at h
      dsimp only at h
      cases hr : exec c1 rest with
      | none => rw [hr] at h; cases h
      | some y =>
        obtain ⟨c2, e2⟩ := y
        rw [hr] at h
        cases h
        obtain ⟨g1, g2, g3⟩ := step_leads (hn _ (List.mem_cons_self ..)) hs hj hl hst
        exact exec_leads (fun x hx => hn x (List.mem_cons_of_mem _ hx)) g1 g2 g3 hr

/-- No thread leads, and one that does not lead is in `run`. -/
def Orphan (c : Ctx) : Prop :=
  c.stop = false ∧ c.pc 5 ≠ .runLeave ∧ InRun (c.pc 5) = true ∧
  ∀ x, Leads (c.pc x) = false ∧ c.pc x ≠ .stWait ∧ (∀ u, c.pc x ≠ .stJoin u) ∧ c.pc x ≠ .runLeave

theorem step_orphan {c c' : Ctx} {t : Nat} {a : Act} {es : List Ev} (ha : a ≠ .stopAll) (w : Counted c.pc c.num)
    (o : Orphan c) (h : step c t a = some (c', es)) : Orphan c' ∧ ∀ l, Ev.round l ∉ es := by
  obtain ⟨hs, h5, h5r, hx⟩ := o
  have hn : c.num ≠ 0 := by
    intro h0
    rw [h0] at w
    rw [w.none 5] at h5r; cases h5r
  have go : ∀ (d : Ctx) (p : PC) (u : Nat), d.stop = false → d.pc = c.pc →
      (Leads p = false ∧ p ≠ .stWait ∧ (∀ u, p ≠ .stJoin u) ∧ p ≠ .runLeave) →
      (InRun p = true ∨ InRun (c.pc u) = false) → Orphan (d.at u p) := by
    intro d p u h1 h2 h3 h4
    have hu : InRun ((d.at u p).pc 5) = true := by
      simp only [Ctx.at, h2]
      split
      · rename_i e
        rcases h4 with h4 | h4
        · exact h4
        · rw [← e, h5r] at h4; cases h4
      · exact h5r
    have ha : ∀ x, Leads ((d.at u p).pc x) = false ∧ (d.at u p).pc x ≠ .stWait ∧
        (∀ u', (d.at u p).pc x ≠ .stJoin u') ∧ (d.at u p).pc x ≠ .runLeave := by
      intro x
      simp only [Ctx.at, h2]
      split
      · exact h3
      · exact hx x
    exact ⟨h1, (ha 5).2.2.2, hu, ha⟩
  have tk : ∀ {d : Ctx} {s : Nat}, c.take = some (s, d) → d.stop = false ∧ d.pc = c.pc := by
    intro d s ht
    unfold Ctx.take at ht
    cases hf : c.flushing with
    | nil => rw [hf] at ht; cases ht
    | cons y l => rw [hf] at ht; cases ht; exact ⟨hs, rfl⟩
  have rm : ∀ s, (c.remove s).stop = false ∧ (c.remove s).pc = c.pc := by
    intro s
    unfold Ctx.remove
    split <;> exact ⟨hs, rfl⟩
  have self : Orphan c := ⟨hs, h5, h5r, hx⟩
  unfold step at h
  split at h
  case h_1 hp =>
    cases h
    refine ⟨go { c with num := c.num + 1 } _ _ hs rfl ⟨?_, by simp⟩ (.inl rfl), by simp⟩
    simp [hn, Leads]
  case h_2 hp =>
    cases h
    refine ⟨go { c with num := c.num + 1 } _ _ hs rfl ⟨?_, by simp⟩ (.inl rfl), by simp⟩
    simp [hn, Leads]
  case h_3 hp =>
    rw [if_pos (by simp [hs]; omega)] at h
    cases h; exact ⟨self, by simp⟩
  case h_4 hp =>
    split at h
    · cases h; exact ⟨self, by simp⟩
    · cases h
  case h_5 s hp =>
    split at h
    · cases h; exact ⟨self, by simp⟩
    · cases h
      exact ⟨go c _ _ hs rfl (by simp [Leads]) (.inr (by rw [hp]; rfl)), by simp⟩
    · cases h
      obtain ⟨r1, r2⟩ := rm s
      refine ⟨?_, by simp⟩
      unfold Orphan
      rw [r2]; exact ⟨r1, h5, h5r, hx⟩
  case h_6 u hp =>
    split at h
    · rename_i hu
      split at h
      · cases h
        exact ⟨go { c with thread := some u } _ _ hs rfl (by simp [Leads]) (.inr (by rw [hu.2]; rfl)), by simp⟩
      · cases h; exact ⟨self, by simp⟩
    · cases h
  case h_7 hp => exact absurd rfl ha
  case h_8 f hp =>
    have hf : f = false := by
      have := (hx t).1
      rw [hp] at this
      simpa [Leads] using this
    subst hf
    rw [if_neg (by simp [hs]), if_neg (by simp)] at h
    split at h <;> cases h <;> exact ⟨go c _ _ hs rfl (by simp [Leads]) (.inl rfl), by simp⟩
  case h_9 hp =>
    have := (hx t).1
    rw [hp] at this; cases this
  case h_10 hp =>
    rw [if_neg (by simp [hs])] at h
    split at h <;> cases h <;> exact ⟨go c _ _ hs rfl (by simp [Leads]) (.inl rfl), by simp⟩
  case h_11 f hp =>
    have hf : f = false := by
      have := (hx t).1
      rw [hp] at this
      simpa [Leads] using this
    subst hf
    split at h
    · cases h; exact ⟨go c _ _ hs rfl (by simp [Leads]) (.inl rfl), by simp⟩
    · rename_i s d ht
      cases h
      exact ⟨go d _ _ (tk ht).1 (tk ht).2 (by simp [Leads]) (.inl rfl), by simp⟩
  case h_12 f s hp =>
    have hf : f = false := by
      have := (hx t).1
      rw [hp] at this
      simpa [Leads] using this
    subst hf
    cases h
    exact ⟨go (c.giveBack s) _ _ hs rfl (by simp [Leads]) (.inl rfl), by simp⟩
  case h_13 hp => exact absurd hp (hx t).2.2.2
  case h_14 hp =>
    split at h
    · cases h
      exact ⟨go c _ _ hs rfl (by simp [Leads]) (.inr (by rw [hp]; rfl)), by simp⟩
    · rename_i s d ht
      cases h
      exact ⟨go d _ _ (tk ht).1 (tk ht).2 (by simp [Leads]) (.inr (by rw [hp]; rfl)), by simp⟩
  case h_15 s hp =>
    cases h
    exact ⟨go (c.giveBack s) _ _ hs rfl (by simp [Leads]) (.inr (by rw [hp]; rfl)), by simp⟩
  case h_16 s hp =>
    split at h
    · cases h
      exact ⟨go c _ _ hs rfl (by simp [Leads]) (.inr (by rw [hp]; rfl)), by simp⟩
    · cases h
      exact ⟨go (c.remove s) _ _ (rm s).1 (rm s).2 (by simp [Leads]) (.inr (by rw [hp]; rfl)), by simp⟩
  case h_17 hp => exact absurd hp (hx t).2.1
  case h_18 u hp => exact absurd hp ((hx t).2.2.1 u)
  case h_19 => cases h

theorem exec_orphan : ∀ {l : List (Nat × Act)} {c c' : Ctx} {es : List Ev}, (∀ x ∈ l, x.2 ≠ .stopAll) →
    Wake c → Inv c.core → Orphan c → exec c l = some (c', es) → ∀ l, Ev.round l ∉ es
  | [], c, c', es, _, _, _, _, h => by cases h; simp
  | (t, a) :: rest, c, c', es, hn, w, inv, o, h => by
    unfold exec at h
    cases hst : step c t a with
    | none => rw [hst] at h; cases h
    | some x =>
      obtain ⟨c1, e1⟩ := x
      rw [hst] at h
      dsimp only at h
      cases hr : exec c1 rest with
      | none => rw [hr] at h; cases h
      | some y =>
        obtain ⟨c2, e2⟩ := y
        rw [hr] at h
        cases h
        obtain ⟨g1, g2⟩ := step_orphan (hn _ (List.mem_cons_self ..)) w.cnt o hst
        have i1 : Inv c1.core := Inv.step (core_step hst) inv
        have g3 := exec_orphan (fun x hx => hn x (List.mem_cons_of_mem _ hx)) (w.step inv hst) i1 g1 hr
        intro l hm
        rcases List.mem_append.1 hm with hm | hm
        · exact g2 l hm
        · exact g3 l hm

end NuDB.Sched
