import Verif.Model.ContextThrow
import Verif.Spec.SchedThrow
import Verif.Proof.Wake
/- The flush scheduler with exceptions. -/
namespace NuDB.Sched
open Spec

/-! ### which store is where -/

/-- The state as if the flushes that threw were still running, each in a thread of its own. -/
def Core.hat (k : Core) (lost : List Nat) : Core :=
  { k with fl := fun i => if i % 2 = 0 then k.fl (i / 2) else lost[i / 2]? }

theorem hat_setv {fl : Nat → Option Nat} {lost : List Nat} {t : Nat} {v : Option Nat} :
    (fun i => if i % 2 = 0 then setv fl t v (i / 2) else lost[i / 2]?) =
      setv (fun i => if i % 2 = 0 then fl (i / 2) else lost[i / 2]?) (2 * t) v := by
  funext i
  unfold setv
  by_cases h : i = 2 * t
  · rw [if_pos h, if_pos (by omega), if_pos (by omega)]
  · rw [if_neg h]
    by_cases h2 : i % 2 = 0
    · simp only [h2, if_true]; rw [if_neg (by omega)]
    · simp only [h2, if_false]

theorem CoreStep.hat {k k' : Core} {es : List Ev} (lost : List Nat) (h : CoreStep k es k') : CoreStep (k.hat lost) es (k'.hat lost) := by
  cases h with
  | idle => exact .idle _
  | round => exact .round (k.hat lost)
  | take w s l st fl t ht =>
    unfold Core.hat
    dsimp only
    rw [hat_setv]
    exact .take _ _ _ _ _ (2 * t) (by rw [if_pos (by omega), Nat.mul_div_cancel_left _ (by omega)]; exact ht)
  | give w l st fl t s ht =>
    unfold Core.hat
    dsimp only
    rw [hat_setv]
    exact .give _ _ _ _ (2 * t) _ (by rw [if_pos (by omega), Nat.mul_div_cancel_left _ (by omega)]; exact ht)
  | insert w l st fl s hs => exact .insert _ _ _ _ _ hs
  | remW w l st fl s hs => exact .remW _ _ _ _ _ hs
  | remF w l st fl s hs => exact .remF _ _ _ _ _ hs
  | remN w l st fl s hs => exact .remN _ _ _ _ _ hs

/-- A flush changes its thread. -/
theorem Inv.move {k : Core} {t u s : Nat} {fl : Nat → Option Nat} (inv : Inv k) (ht : k.fl t = some s) (hu : k.fl u = none)
    (hfl : ∀ i, fl i = if i = u then some s else if i = t then none else k.fl i) : Inv { k with fl := fl } := by
  have hne : t ≠ u := by rintro rfl; rw [ht] at hu; cases hu
  have back : ∀ x i, fl i = some x → ∃ j, k.fl j = some x ∧ (i = u → j = t) ∧ (i ≠ u → j = i) := by
    intro x i h
    rw [hfl] at h
    by_cases h1 : i = u
    · rw [if_pos h1] at h; cases h; exact ⟨t, ht, fun _ => rfl, fun h => absurd h1 h⟩
    · rw [if_neg h1] at h
      by_cases h2 : i = t
      · rw [if_pos h2] at h; cases h
      · rw [if_neg h2] at h; exact ⟨i, h, fun h => absurd h h1, fun _ => rfl⟩
  refine ⟨inv.nodupW, inv.nodupF, inv.memW, inv.memF, fun x => ?_, fun x i j hi hj => ?_⟩
  · refine (inv.busy x).trans ⟨fun ⟨i, h⟩ => ?_, fun ⟨i, h⟩ => ?_⟩
    · by_cases h1 : i = t
      · subst h1; rw [ht] at h; cases h
        exact ⟨u, by show fl u = _; rw [hfl, if_pos rfl]⟩
      · refine ⟨i, ?_⟩
        show fl i = _
        rw [hfl, if_neg (fun e => by rw [e, hu] at h; cases h), if_neg h1]; exact h
    · obtain ⟨j, hj, _⟩ := back x i h; exact ⟨j, hj⟩
  · obtain ⟨a, ha, a1, a2⟩ := back x i hi
    obtain ⟨b, hb, b1, b2⟩ := back x j hj
    have hab := inv.uniq x a b ha hb
    have nt : ∀ y i, fl i = some y → i ≠ t := by
      intro y i h e
      rw [hfl, if_neg (fun h => hne (e.symm.trans h)), if_pos e] at h; cases h
    by_cases h1 : i = u
    · by_cases h2 : j = u
      · rw [h1, h2]
      · have := nt x j hj
        exact absurd ((b2 h2).symm.trans (hab.symm.trans (a1 h1))) this
    · by_cases h2 : j = u
      · have := nt x i hi
        exact absurd ((a2 h1).symm.trans (hab.trans (b1 h2))) this
      · rw [← a2 h1, ← b2 h2]; exact hab

/-- The flush of `s` in thread `t` throws. -/
theorem Inv.throw {c : Ctx} {t s : Nat} {lost : List Nat} (inv : Inv (c.core.hat lost)) (hp : (c.pc t).store = some s) :
    Inv ((c.at t .out).core.hat (lost ++ [s])) := by
  have h1 : (c.core.hat lost).fl (2 * t) = some s := by
    show (if 2 * t % 2 = 0 then c.core.fl (2 * t / 2) else _) = _
    rw [if_pos (by omega), Nat.mul_div_cancel_left _ (by omega)]; exact hp
  have h2 : (c.core.hat lost).fl (2 * lost.length + 1) = none := by
    show (if (2 * lost.length + 1) % 2 = 0 then _ else lost[(2 * lost.length + 1) / 2]?) = _
    rw [if_neg (by omega), show (2 * lost.length + 1) / 2 = lost.length by omega]; simp
  refine inv.move (fl := ((c.at t .out).core.hat (lost ++ [s])).fl) h1 h2 (fun i => ?_)
  rw [core_at]
  show (if i % 2 = 0 then setv c.core.fl t none (i / 2) else (lost ++ [s])[i / 2]?) =
    if i = 2 * lost.length + 1 then some s else if i = 2 * t then none else if i % 2 = 0 then c.core.fl (i / 2) else lost[i / 2]?
  by_cases h : i % 2 = 0
  · rw [if_pos h, if_neg (by omega), if_pos h]
    unfold setv
    by_cases hi : i = 2 * t
    · rw [if_pos hi, if_pos (by omega)]
    · rw [if_neg hi, if_neg (by omega)]
  · rw [if_neg h, if_neg h, if_neg (show ¬ i = 2 * t by omega)]
    by_cases hi : i = 2 * lost.length + 1
    · rw [if_pos hi, show i / 2 = lost.length by omega]; simp
    · rw [if_neg hi, List.getElem?_append]
      split
      · rfl
      · rw [List.getElem?_eq_none (by simp; omega), List.getElem?_eq_none (by omega)]

/-- The stores whose flush threw. -/
def lostOf : List EvX → List Nat
  | [] => []
  | .ev _ :: xs => lostOf xs
  | .threw s _ :: xs => s :: lostOf xs

theorem lostOf_append (xs ys : List EvX) : lostOf (xs ++ ys) = lostOf xs ++ lostOf ys := by
  induction xs with
  | nil => rfl
  | cons x xs ih => cases x <;> simp [lostOf, ih]

theorem lostOf_ev (es : List Ev) : lostOf (es.map .ev) = [] := by
  induction es with
  | nil => rfl
  | cons x xs ih => exact ih

theorem mem_lostOf {xs : List EvX} {s : Nat} : s ∈ lostOf xs ↔ ∃ r, EvX.threw s r ∈ xs := by
  induction xs with
  | nil => simp [lostOf]
  | cons x xs ih =>
    cases x with
    | ev e => simpa [lostOf] using ih
    | threw a b =>
      constructor
      · intro h
        rcases List.mem_cons.1 h with rfl | h
        · exact ⟨b, List.mem_cons_self⟩
        · obtain ⟨r, h⟩ := ih.1 h; exact ⟨r, List.mem_cons_of_mem _ h⟩
      · rintro ⟨r, h⟩
        rcases List.mem_cons.1 h with h | h
        · cases h; exact List.mem_cons_self
        · exact List.mem_cons_of_mem _ (ih.2 ⟨r, h⟩)

theorem plain_append (xs ys : List EvX) : plain (xs ++ ys) = plain xs ++ plain ys := List.filterMap_append ..

theorem plain_ev (es : List Ev) : plain (es.map .ev) = es := by
  induction es with
  | nil => rfl
  | cons x xs ih =>
    show x :: plain (xs.map .ev) = _
    rw [ih]

/-- What a step does, seen as a step of the scheduler without exceptions. -/
theorem stepX_core {c c' : Ctx} {t : Nat} {a : ActX} {xs : List EvX} {lost : List Nat} (h : stepX c t a = some (c', xs))
    (inv : Inv (c.core.hat lost)) : Inv (c'.core.hat (lost ++ lostOf xs)) ∧ ∀ s,
      (plain xs).foldlM (advance s) (toLife (c.st s)) = some (toLife (c'.st s)) := by
  cases a with
  | act a =>
    simp only [stepX] at h
    cases hs : step c t a with
    | none => rw [hs] at h; cases h
    | some x =>
      obtain ⟨d, es⟩ := x
      rw [hs] at h
      simp only [Option.map_some, Option.some.injEq, Prod.mk.injEq] at h
      obtain ⟨rfl, rfl⟩ := h
      have hc := (core_step hs).hat lost
      rw [lostOf_ev, List.append_nil, plain_ev]
      exact ⟨inv.step hc, fun s => life_step hc inv s⟩
  | throw =>
    simp only [stepX] at h
    split at h
    · rename_i s hp
      split at h
      · cases h
      · cases h
        exact ⟨inv.throw (by rw [hp]; rfl), fun _ => rfl⟩
    · rename_i s hp
      cases h
      exact ⟨inv.throw (by rw [hp]; rfl), fun _ => rfl⟩
    · cases h

theorem runX_inv {c c' : Ctx} {xs : List EvX} {lost : List Nat} (r : RunX c xs c') (inv : Inv (c.core.hat lost)) :
    Inv (c'.core.hat (lost ++ lostOf xs)) := by
  induction r with
  | refl => rw [show lostOf [] = [] from rfl, List.append_nil]; exact inv
  | step _ hs ih =>
    rw [lostOf_append, ← List.append_assoc]
    exact (stepX_core hs ih).1

theorem runX_life {c c' : Ctx} {xs : List EvX} {lost : List Nat} (r : RunX c xs c') (inv : Inv (c.core.hat lost)) (s : Nat) :
    (plain xs).foldlM (advance s) (toLife (c.st s)) = some (toLife (c'.st s)) := by
  induction r with
  | refl => rfl
  | step r hs ih =>
    rw [plain_append, List.foldlM_append, ih]
    exact (stepX_core hs (runX_inv r inv)).2 s

theorem hat_nil {k : Core} (inv : Inv k) : Inv (k.hat []) := by
  have hfl : ∀ i x, (k.hat []).fl i = some x → i % 2 = 0 ∧ k.fl (i / 2) = some x := by
    intro i x h
    have h : (if i % 2 = 0 then k.fl (i / 2) else ([] : List Nat)[i / 2]?) = some x := h
    by_cases hi : i % 2 = 0
    · rw [if_pos hi] at h; exact ⟨hi, h⟩
    · rw [if_neg hi] at h; simp at h
  refine ⟨inv.nodupW, inv.nodupF, inv.memW, inv.memF, fun x => ?_, fun x i j hi hj => ?_⟩
  · refine (inv.busy x).trans ⟨fun ⟨i, h⟩ => ⟨2 * i, ?_⟩, fun ⟨i, h⟩ => ⟨i / 2, (hfl i x h).2⟩⟩
    show (if 2 * i % 2 = 0 then k.fl (2 * i / 2) else _) = _
    rw [if_pos (by omega), Nat.mul_div_cancel_left _ (by omega)]; exact h
  · obtain ⟨a1, a2⟩ := hfl i x hi
    obtain ⟨b1, b2⟩ := hfl j x hj
    have := inv.uniq x _ _ a2 b2
    omega

/-! ### threads in `run` -/

/-- What a step does to the threads in `run`. -/
inductive NumStep (c : Ctx) (es : List Ev) (c' : Ctx) : Prop
  | stay (h : c'.pc = c.pc) (hn : c'.num = c.num) (he : ∀ l, Ev.round l ∉ es)
  | move (u : Nat) (p : PC) (h : c'.pc = fun x => if x = u then p else c.pc x) (hn : c'.num = c.num)
      (hr : InRun p = InRun (c.pc u)) (hl : Leads p = true → Leads (c.pc u) = true) (hw : c.pc u = .stWait → c.num ≠ 0 → p = .stWait)
      (he : ∀ l, Ev.round l ∈ es → c.num = 0 ∨ Leads (c.pc u) = true)
  | enter (u : Nat) (p : PC) (h : c'.pc = fun x => if x = u then p else c.pc x) (hn : c'.num = c.num + 1)
      (hr : InRun p = true) (hr' : InRun (c.pc u) = false) (hl : Leads p = true → c.num = 0) (hw : c.pc u ≠ .stWait)
      (he : ∀ l, Ev.round l ∉ es)
  | leave (u : Nat) (h : c'.pc = fun x => if x = u then .out else c.pc x) (hn : c'.num = c.num - 1)
      (hr : InRun (c.pc u) = true) (hw : c.pc u ≠ .stWait) (he : ∀ l, Ev.round l ∉ es)

theorem num_step {c c' : Ctx} {t : Nat} {a : Act} {es : List Ev} (h : step c t a = some (c', es)) : NumStep c es c' := by
  have go : ∀ (d : Ctx) (p q : PC), c' = d.at t p → d.pc = c.pc → d.num = c.num → c.pc t = q → InRun p = InRun q →
      (Leads p = true → Leads q = true) → (q = .stWait → c.num ≠ 0 → p = .stWait) →
      (∀ l, Ev.round l ∈ es → c.num = 0 ∨ Leads q = true) → NumStep c es c' := by
    intro d p q e h1 h2 h3 h4 h5 h6 h7
    subst e h3
    exact .move t p (by rw [← h1]; rfl) h2 h4 h5 h6 h7
  have halted : ∀ (d : Ctx), d.pc = c.pc → d.num = c.num → (c.pc t = .out ∨ (c.pc t = .stWait ∧ c.num = 0)) → es = [] →
      c' = d.halted t → NumStep c es c' := by
    intro d h1 h2 h3 h4 e
    subst h4
    unfold Ctx.halted at e
    split at e
    · refine go d _ _ e h1 h2 rfl ?_ (by simp [Leads]) ?_ (by simp)
      · rcases h3 with h3 | ⟨h3, _⟩ <;> rw [h3] <;> rfl
      · intro hq hn; rcases h3 with h3 | ⟨_, h3⟩
        · rw [h3] at hq; cases hq
        · exact absurd h3 hn
    · refine go { d with stop := false } _ _ e h1 h2 rfl ?_ (by simp [Leads]) ?_ (by simp)
      · rcases h3 with h3 | ⟨h3, _⟩ <;> rw [h3] <;> rfl
      · intro hq hn; rcases h3 with h3 | ⟨_, h3⟩
        · rw [h3] at hq; cases hq
        · exact absurd h3 hn
  unfold step at h
  split at h
  case h_1 hp =>
    cases h
    exact .enter t _ rfl rfl rfl (by rw [hp]; rfl) (by simp [Leads]) (by rw [hp]; simp) (by simp)
  case h_2 hp =>
    cases h
    exact .enter t _ rfl rfl rfl (by rw [hp]; rfl) (by simp [Leads]) (by rw [hp]; simp) (by simp)
  case h_3 hp =>
    split at h
    · cases h; exact .stay rfl rfl (by simp)
    · rename_i hn
      cases h
      refine go c.moveAll _ _ rfl rfl rfl hp rfl (by simp [Leads]) (by simp) (fun l _ => .inl ?_)
      simp at hn; exact hn.2
  case h_4 hp =>
    split at h
    · cases h; exact .stay rfl rfl (by simp)
    · cases h
  case h_5 s hp =>
    split at h
    · cases h; exact .stay rfl rfl (by simp)
    · cases h; exact go c _ _ rfl rfl rfl hp rfl (by simp [Leads]) (by simp) (by simp)
    · cases h; exact .stay (remove_pc c s).1 (remove_pc c s).2 (by simp)
  case h_6 u hp =>
    split at h
    · rename_i hu
      split at h
      · cases h
        exact .move u .spawned rfl rfl (by rw [hu.2]; rfl) (by simp [Leads]) (by rw [hu.2]; simp) (by simp)
      · cases h; exact .stay rfl rfl (by simp)
    · cases h
  case h_7 hp =>
    split at h
    · cases h; exact .stay rfl rfl (by simp)
    · dsimp only at h
      split at h
      · cases h; exact halted (({ c with stop := true }.notifyF).notifyW) rfl rfl (.inl hp) rfl rfl
      · cases h; exact go (({ c with stop := true }.notifyF).notifyW) .stWait .out rfl rfl rfl hp rfl (by simp [Leads]) (by simp) (by simp)
  case h_8 f hp =>
    split at h
    · cases h; exact go c _ _ rfl rfl rfl hp rfl (by simp [Leads]) (by simp) (by simp)
    · split at h
      · rename_i hf; cases h; exact go c _ _ rfl rfl rfl hp rfl (fun _ => hf) (by simp) (by simp)
      · split at h
        · cases h; exact go c _ _ rfl rfl rfl hp rfl (by simp [Leads]) (by simp) (by simp)
        · cases h; exact go c _ _ rfl rfl rfl hp rfl (by simp [Leads]) (by simp) (by simp)
  case h_9 hp =>
    unfold Ctx.timed at h
    by_cases hs : c.stop = true
    · rw [if_pos hs] at h; cases h; exact go c _ _ rfl rfl rfl hp rfl (fun _ => rfl) (by simp) (fun _ _ => .inr rfl)
    · rw [if_neg hs] at h
      by_cases he : c.waiting.isEmpty = true
      · rw [if_pos he] at h
        dsimp only at h
        split at h
        · cases h; exact go c _ _ rfl rfl rfl hp rfl (fun _ => rfl) (by simp) (fun _ _ => .inr rfl)
        · split at h
          · cases h; exact go c.notifyF _ _ rfl rfl rfl hp rfl (fun _ => rfl) (by simp) (fun _ _ => .inr rfl)
          · cases h; exact go c _ _ rfl rfl rfl hp rfl (fun _ => rfl) (by simp) (fun _ _ => .inr rfl)
      · rw [if_neg he] at h
        dsimp only at h
        split at h
        · cases h; exact go c.moveAll _ _ rfl rfl rfl hp rfl (fun _ => rfl) (by simp) (fun _ _ => .inr rfl)
        · split at h
          · cases h; exact go c.moveAll.notifyF _ _ rfl rfl rfl hp rfl (fun _ => rfl) (by simp) (fun _ _ => .inr rfl)
          · cases h; exact go c.moveAll _ _ rfl rfl rfl hp rfl (fun _ => rfl) (by simp) (fun _ _ => .inr rfl)
  case h_10 hp =>
    split at h
    · cases h; exact go c _ _ rfl rfl rfl hp rfl (by simp [Leads]) (by simp) (by simp)
    · split at h <;> cases h <;> exact go c _ _ rfl rfl rfl hp rfl (by simp [Leads]) (by simp) (by simp)
  case h_11 f hp =>
    split at h
    · cases h; exact go c _ _ rfl rfl rfl hp rfl (fun h => h) (by simp) (by simp)
    · rename_i s d ht
      cases h; exact go d _ _ rfl (take_pc ht).1 (take_pc ht).2 hp rfl (fun h => h) (by simp) (by simp)
  case h_12 f s hp => cases h; exact go (c.giveBack s) _ _ rfl rfl rfl hp rfl (fun h => h) (by simp) (by simp)
  case h_13 hp => cases h; exact .leave t rfl rfl (by rw [hp]; rfl) (by rw [hp]; simp) (by simp)
  case h_14 hp =>
    split at h
    · cases h; exact go c _ _ rfl rfl rfl hp rfl (by simp [Leads]) (by simp) (by simp)
    · rename_i s d ht
      cases h; exact go d _ _ rfl (take_pc ht).1 (take_pc ht).2 hp rfl (by simp [Leads]) (by simp) (by simp)
  case h_15 s hp => cases h; exact go (c.giveBack s) _ _ rfl rfl rfl hp rfl (by simp [Leads]) (by simp) (by simp)
  case h_16 s hp =>
    split at h
    · cases h; exact go c _ _ rfl rfl rfl hp rfl (by simp [Leads]) (by simp) (by simp)
    · cases h
      exact go (c.remove s) _ _ rfl (remove_pc c s).1 (remove_pc c s).2 hp rfl (by simp [Leads]) (by simp) (by simp)
  case h_17 hp =>
    split at h
    · rename_i hn; cases h; exact halted c rfl rfl (.inr ⟨hp, hn⟩) rfl rfl
    · cases h; exact go c _ _ rfl rfl rfl hp rfl (by simp [Leads]) (fun _ _ => rfl) (by simp)
  case h_18 u hp =>
    split at h
    · cases h; exact go { c with thread := none, stop := false } _ _ rfl rfl rfl hp rfl (by simp [Leads]) (by simp) (by simp)
    · cases h
  case h_19 => cases h

/-- `k` threads have left `run` by an exception. -/
def Missing (c : Ctx) (k : Nat) : Prop := ∃ n, Counted c.pc n ∧ c.num = n + k

/-- The number of exceptions thrown in `run`. -/
def runThrows (xs : List EvX) : Nat := xs.countP (fun | .threw _ r => r | _ => false)

theorem runThrows_append (xs ys : List EvX) : runThrows (xs ++ ys) = runThrows xs + runThrows ys := List.countP_append ..

theorem runThrows_ev (es : List Ev) : runThrows (es.map .ev) = 0 := by
  induction es with
  | nil => rfl
  | cons x xs ih => simp [runThrows]

theorem Counted.pos {pc : Nat → PC} {n t : Nat} (h : Counted pc n) (ht : InRun (pc t) = true) : 0 < n := by
  obtain ⟨L, nd, hm, hl⟩ := h
  have := (hm t).2 ht
  cases L with
  | nil => cases this
  | cons => simp at hl; omega

theorem stepX_missing {c c' : Ctx} {t k : Nat} {a : ActX} {xs : List EvX} (h : stepX c t a = some (c', xs)) (m : Missing c k) :
    Missing c' (k + runThrows xs) := by
  obtain ⟨n, hc, hn⟩ := m
  cases a with
  | act a =>
    simp only [stepX] at h
    cases hs : step c t a with
    | none => rw [hs] at h; cases h
    | some x =>
      obtain ⟨d, es⟩ := x
      rw [hs] at h
      simp only [Option.map_some, Option.some.injEq, Prod.mk.injEq] at h
      obtain ⟨rfl, rfl⟩ := h
      rw [runThrows_ev]
      cases num_step hs with
      | stay h1 h2 => exact ⟨n, by rw [h1]; exact hc, by omega⟩
      | move u p h1 h2 h3 => exact ⟨n, by rw [h1]; exact hc.same h3, by omega⟩
      | enter u p h1 h2 h3 h4 => exact ⟨n + 1, by rw [h1]; exact hc.enter h3 h4, by omega⟩
      | leave u h1 h2 h3 => have := hc.pos h3; exact ⟨n - 1, by rw [h1]; exact hc.leave rfl h3, by omega⟩
  | throw =>
    simp only [stepX] at h
    split at h
    · rename_i f s hp
      split at h
      · cases h
      · cases h
        have h3 : InRun (c.pc t) = true := by rw [hp]; rfl
        have := hc.pos h3
        refine ⟨n - 1, hc.leave rfl h3, ?_⟩
        show c.num = n - 1 + (k + 1)
        omega
    · rename_i s hp
      cases h
      exact ⟨n, hc.same (by rw [hp]; rfl), hn⟩
    · cases h

theorem runX_missing {c c' : Ctx} {xs : List EvX} {k : Nat} (r : RunX c xs c') (m : Missing c k) : Missing c' (k + runThrows xs) := by
  induction r with
  | refl => exact m
  | step _ hs ih =>
    rw [runThrows_append, ← Nat.add_assoc]
    exact stepX_missing hs ih

/-- A thread in `stop_all` stays there. -/
theorem stepX_stop {c c' : Ctx} {t u : Nat} {a : ActX} {xs : List EvX} (h : stepX c t a = some (c', xs)) (hn : c.num ≠ 0)
    (hu : c.pc u = .stWait) : c'.pc u = .stWait := by
  cases a with
  | act a =>
    simp only [stepX] at h
    cases hs : step c t a with
    | none => rw [hs] at h; cases h
    | some x =>
      obtain ⟨d, es⟩ := x
      rw [hs] at h
      simp only [Option.map_some, Option.some.injEq, Prod.mk.injEq] at h
      obtain ⟨rfl, rfl⟩ := h
      cases num_step hs with
      | stay h1 h2 => rw [h1]; exact hu
      | move v p h1 h2 h3 h4 h5 =>
        rw [h1]; dsimp only
        split
        · rename_i e; subst e; exact h5 hu hn
        · exact hu
      | enter v p h1 h2 h3 h4 h5 h6 =>
        rw [h1]; dsimp only
        rw [if_neg (show ¬ u = v from fun e => h6 (e ▸ hu))]; exact hu
      | leave v h1 h2 h3 h4 =>
        rw [h1]; dsimp only
        rw [if_neg (show ¬ u = v from fun e => h4 (e ▸ hu))]; exact hu
  | throw =>
    simp only [stepX] at h
    have key : ∀ q, c.pc t = q → q ≠ .stWait → (c.at t .out).pc u = .stWait := by
      intro q hq hne
      simp only [Ctx.at]
      rw [if_neg (fun e => hne (by rw [← hq, ← e]; exact hu))]; exact hu
    split at h
    · rename_i f s hp
      split at h
      · cases h
      · cases h; exact key _ hp (by simp)
    · rename_i s hp
      cases h; exact key _ hp (by simp)
    · cases h

/-- Without a leading thread no round is started. -/
theorem stepX_rounds {c c' : Ctx} {t : Nat} {a : ActX} {xs : List EvX} (h : stepX c t a = some (c', xs)) (hn : c.num ≠ 0)
    (hl : ∀ u, Leads (c.pc u) = false) : (∀ u, Leads (c'.pc u) = false) ∧ ∀ l, EvX.ev (.round l) ∉ xs := by
  cases a with
  | act a =>
    simp only [stepX] at h
    cases hs : step c t a with
    | none => rw [hs] at h; cases h
    | some x =>
      obtain ⟨d, es⟩ := x
      rw [hs] at h
      simp only [Option.map_some, Option.some.injEq, Prod.mk.injEq] at h
      obtain ⟨rfl, rfl⟩ := h
      have key : (∀ l, Ev.round l ∉ es) → ∀ l, EvX.ev (.round l) ∉ es.map .ev := by
        intro h l hm
        obtain ⟨e, h1, h2⟩ := List.mem_map.1 hm
        cases h2; exact h l h1
      have upd : ∀ {v : Nat} {p : PC}, Leads p = false → ∀ u, Leads (if u = v then p else c.pc u) = false := by
        intro v p hp u
        split
        · exact hp
        · exact hl u
      cases num_step hs with
      | stay h1 h2 h3 => exact ⟨by rw [h1]; exact hl, key h3⟩
      | move v p h1 h2 h3 h4 h5 h6 =>
        rw [h1]
        refine ⟨upd ?_, key fun l hm => ?_⟩
        · cases e : Leads p with
          | false => rfl
          | true => have := h4 e; rw [hl v] at this; cases this
        · rcases h6 l hm with h | h
          · exact hn h
          · rw [hl v] at h; cases h
      | enter v p h1 h2 h3 h4 h5 h6 h7 =>
        rw [h1]
        refine ⟨upd ?_, key h7⟩
        cases e : Leads p with
        | false => rfl
        | true => exact absurd (h5 e) hn
      | leave v h1 h2 h3 h4 h5 => exact ⟨by rw [h1]; exact upd rfl, key h5⟩
  | throw =>
    simp only [stepX] at h
    have key : ∀ u, Leads ((c.at t .out).pc u) = false := by
      intro u
      simp only [Ctx.at]
      split
      · rfl
      · exact hl u
    split at h
    · split at h
      · cases h
      · cases h; exact ⟨key, by simp⟩
    · cases h; exact ⟨key, by simp⟩
    · cases h

end NuDB.Sched
