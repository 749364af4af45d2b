import Verif.Spec.Sched
/- The flush scheduler: which store is where, for any number of threads. -/
namespace NuDB.Sched
open Spec

/-- The store a thread flushes. -/
def PC.store : PC → Option Nat
  | .runFlush _ s | .flFlush s => some s
  | _ => none

theorem inFlush_iff {c : Ctx} {t s : Nat} : InFlush c t s ↔ (c.pc t).store = some s := by
  unfold InFlush PC.store
  cases c.pc t <;> simp

/-- The part of the state that says which store is where. -/
structure Core where
  waiting : List Nat
  flushing : List Nat
  st : Nat → St
  fl : Nat → Option Nat

def Ctx.core (c : Ctx) : Core := ⟨c.waiting, c.flushing, c.st, fun t => (c.pc t).store⟩

def setv (f : Nat → α) (i : Nat) (x : α) : Nat → α := fun j => if j = i then x else f j

/-- What steps do to that part. -/
inductive CoreStep : Core → List Ev → Core → Prop
  | idle (k) : CoreStep k [] k
  | round (k : Core) : CoreStep k [.round k.waiting]
      ⟨[], k.flushing ++ k.waiting, fun x => if x ∈ k.waiting then .flushing else k.st x, k.fl⟩
  | take (w s l st fl t) : fl t = none → CoreStep ⟨w, s :: l, st, fl⟩ [.started s]
      ⟨w, l, setv st s .intermediate, setv fl t (some s)⟩
  | give (w l st fl t s) : fl t = some s → CoreStep ⟨w, l, st, fl⟩ [.finished s]
      ⟨w ++ [s], l, setv st s .waiting, setv fl t none⟩
  | insert (w l st fl s) : st s = .none → CoreStep ⟨w, l, st, fl⟩ [.registered s]
      ⟨w ++ [s], l, setv st s .waiting, fl⟩
  | remW (w l st fl s) : st s = .waiting → CoreStep ⟨w, l, st, fl⟩ [.unregistered s]
      ⟨w.filter (fun x => x ≠ s), l, setv st s .none, fl⟩
  | remF (w l st fl s) : st s = .flushing → CoreStep ⟨w, l, st, fl⟩ [.unregistered s]
      ⟨w, l.filter (fun x => x ≠ s), setv st s .none, fl⟩
  | remN (w l st fl s) : st s = .none → CoreStep ⟨w, l, st, fl⟩ [.unregistered s]
      ⟨w, l, setv st s .none, fl⟩

theorem core_at {c : Ctx} {t : Nat} {p : PC} : (c.at t p).core = ⟨c.waiting, c.flushing, c.st, setv c.core.fl t p.store⟩ := by
  unfold Ctx.core Ctx.at setv
  congr 1
  funext x
  dsimp only
  split <;> rfl

theorem setv_id {f : Nat → α} {t : Nat} {x : α} (h : f t = x) : setv f t x = f := by
  funext j; unfold setv; split
  · next e => rw [e, h]
  · rfl

theorem core_at_idle {c : Ctx} {t : Nat} {p q : PC} (h : c.pc t = q) (hq : q.store = none) (hp : p.store = none) :
    (c.at t p).core = c.core := by
  rw [core_at, hp, setv_id]
  · rfl
  · show (c.pc t).store = none
    rw [h]; exact hq

theorem core_remove {c : Ctx} {s : Nat} (h : c.st s ≠ .intermediate) :
    CoreStep c.core [.unregistered s] (c.remove s).core ∧ (c.remove s).pc = c.pc := by
  unfold Ctx.remove
  cases hs : c.st s with
  | waiting => exact ⟨CoreStep.remW _ _ _ _ _ hs, rfl⟩
  | flushing => exact ⟨CoreStep.remF _ _ _ _ _ hs, rfl⟩
  | intermediate => exact absurd hs h
  | none => exact ⟨CoreStep.remN _ _ _ _ _ hs, rfl⟩

theorem core_take {c c' : Ctx} {t s : Nat} {p : PC} (h : c.take = some (s, c')) (hn : (c.pc t).store = none)
    (hp : p.store = some s) : CoreStep c.core [.started s] (c'.at t p).core := by
  unfold Ctx.take at h
  cases hf : c.flushing with
  | nil => rw [hf] at h; cases h
  | cons x l =>
    rw [hf] at h
    cases h
    rw [core_at, hp]
    show CoreStep ⟨c.waiting, c.flushing, c.st, fun t => (c.pc t).store⟩ _ _
    rw [hf]
    exact CoreStep.take _ _ _ _ _ t hn

theorem core_give {c : Ctx} {t s : Nat} {p : PC} (hn : (c.pc t).store = some s)
    (hp : p.store = none) : CoreStep c.core [.finished s] ((c.giveBack s).at t p).core := by
  rw [core_at, hp]
  exact CoreStep.give _ _ _ _ t s hn

theorem core_halted {c : Ctx} {t : Nat} {q : PC} (h : c.pc t = q) (hq : q.store = none) :
    (c.halted t).core = c.core := by
  unfold Ctx.halted
  cases c.thread with
  | none => exact core_at_idle (c := { c with stop := false }) h hq rfl
  | some u => exact core_at_idle h hq rfl

theorem core_step {c c' : Ctx} {t : Nat} {a : Act} {es : List Ev} (h : step c t a = some (c', es)) :
    CoreStep c.core es c'.core := by
  have idle : ∀ (d : Ctx) (p : PC), d.pc = c.pc → d.waiting = c.waiting → d.flushing = c.flushing →
      d.st = c.st → (c.pc t).store = none → p.store = none → some (d.at t p, []) = some (c', es) →
      CoreStep c.core es c'.core := by
    intro d p e1 e2 e3 e4 e5 e6 e
    cases e
    rw [core_at_idle (q := c.pc t) (by rw [e1]) e5 e6]
    unfold Ctx.core
    rw [e1, e2, e3, e4]
    exact .idle _
  unfold step at h
  split at h
  · next hpc => exact idle { c with num := c.num + 1 } _ rfl rfl rfl rfl (by rw [hpc]; rfl) rfl h
  · next hpc => exact idle { c with num := c.num + 1 } _ rfl rfl rfl rfl (by rw [hpc]; rfl) rfl h
  · next hpc =>
    split at h
    · cases h; exact .idle _
    · cases h
      rw [core_at_idle (c := c.moveAll) hpc rfl rfl]
      exact .round c.core
  · next hpc =>
    split at h
    · next hs => cases h; exact .insert _ _ _ _ _ hs
    · cases h
  · next hpc =>
    split at h
    · cases h; exact .idle _
    · exact idle c _ rfl rfl rfl rfl (by rw [hpc]; rfl) rfl h
    · next hs1 hs2 =>
      cases h
      exact (core_remove hs2).1
  · next u hpc =>
    split at h
    · next hu =>
      split at h
      · cases h
        rw [core_at_idle (c := { c with thread := some u }) (t := u) hu.2 rfl rfl]
        exact .idle _
      · cases h; exact .idle _
    · cases h
  · next hpc =>
    split at h
    · cases h; exact .idle _
    · dsimp only at h
      split at h
      · cases h
        have hh := core_halted (c := Ctx.notifyW (Ctx.notifyF { c with stop := true })) (t := t)
          (q := .out) hpc rfl
        exact hh ▸ .idle _
      · exact idle (({ c with stop := true }.notifyF).notifyW) _ rfl rfl rfl rfl (by rw [hpc]; rfl) rfl h
  · next hpc =>
    have e5 : (c.pc t).store = none := by rw [hpc]; rfl
    split at h
    · exact idle c _ rfl rfl rfl rfl e5 rfl h
    · split at h
      · exact idle c _ rfl rfl rfl rfl e5 rfl h
      · split at h
        · exact idle c _ rfl rfl rfl rfl e5 rfl h
        · exact idle c _ rfl rfl rfl rfl e5 rfl h
  · next hpc =>
    have e5 : (c.pc t).store = none := by rw [hpc]; rfl
    unfold Ctx.timed at h
    by_cases hw : c.waiting.isEmpty = true
    · rw [if_pos hw] at h
      dsimp only at h
      split at h
      · exact idle c _ rfl rfl rfl rfl e5 rfl h
      · split at h
        · exact idle c _ rfl rfl rfl rfl e5 rfl h
        · split at h
          · exact idle c.notifyF _ rfl rfl rfl rfl e5 rfl h
          · exact idle c _ rfl rfl rfl rfl e5 rfl h
    · rw [if_neg hw] at h
      dsimp only at h
      have rd : ∀ (d : Ctx) (p : PC), d.pc = c.pc → d.core = c.moveAll.core → p.store = none →
          some (d.at t p, [Ev.round c.waiting]) = some (c', es) → CoreStep c.core es c'.core := by
        intro d p e1 e2 e3 e
        cases e
        rw [core_at_idle (q := c.pc t) (by rw [e1]) e5 e3, e2]
        exact .round c.core
      split at h
      · exact idle c _ rfl rfl rfl rfl e5 rfl h
      · split at h
        · exact rd c.moveAll _ rfl rfl rfl h
        · split at h
          · exact rd c.moveAll.notifyF _ rfl rfl rfl h
          · exact rd c.moveAll _ rfl rfl rfl h
  · next hpc =>
    have e5 : (c.pc t).store = none := by rw [hpc]; rfl
    split at h
    · exact idle c _ rfl rfl rfl rfl e5 rfl h
    · split at h
      · exact idle c _ rfl rfl rfl rfl e5 rfl h
      · exact idle c _ rfl rfl rfl rfl e5 rfl h
  · next hpc =>
    have e5 : (c.pc t).store = none := by rw [hpc]; rfl
    split at h
    · exact idle c _ rfl rfl rfl rfl e5 rfl h
    · next s d hs => cases h; exact core_take hs e5 rfl
  · next hpc => cases h; exact core_give (by rw [hpc]; rfl) rfl
  · next hpc =>
    exact idle ({ c with num := c.num - 1 }.notifyW) _ rfl rfl rfl rfl (by rw [hpc]; rfl) rfl h
  · next hpc =>
    have e5 : (c.pc t).store = none := by rw [hpc]; rfl
    split at h
    · exact idle c _ rfl rfl rfl rfl e5 rfl h
    · next s d hs => cases h; exact core_take hs e5 rfl
  · next hpc => cases h; exact core_give (by rw [hpc]; rfl) rfl
  · next s hpc =>
    split at h
    · exact idle c _ rfl rfl rfl rfl (by rw [hpc]; rfl) rfl h
    · next hs =>
      cases h
      obtain ⟨x, y⟩ := core_remove hs
      rw [core_at_idle (q := .erWait s) (by rw [y]; exact hpc) rfl rfl]
      exact x
  · next hpc =>
    split at h
    · cases h; rw [core_halted hpc rfl]; exact .idle _
    · exact idle c _ rfl rfl rfl rfl (by rw [hpc]; rfl) rfl h
  · next hpc =>
    split at h
    · exact idle { c with thread := none, stop := false } _ rfl rfl rfl rfl (by rw [hpc]; rfl) rfl h
    · cases h
  · cases h

structure Inv (k : Core) : Prop where
  nodupW : k.waiting.Nodup
  nodupF : k.flushing.Nodup
  memW : ∀ s, s ∈ k.waiting ↔ k.st s = .waiting
  memF : ∀ s, s ∈ k.flushing ↔ k.st s = .flushing
  busy : ∀ s, k.st s = .intermediate ↔ ∃ t, k.fl t = some s
  uniq : ∀ s t t', k.fl t = some s → k.fl t' = some s → t = t'

theorem setv_same (f : Nat → α) (i : Nat) (x : α) : setv f i x i = x := if_pos rfl
theorem setv_other (f : Nat → α) {i j : Nat} (x : α) (h : j ≠ i) : setv f i x j = f j := if_neg h

theorem nodup_snoc {w : List Nat} {s : Nat} (h : w.Nodup) (hs : s ∉ w) : (w ++ [s]).Nodup := by
  rw [List.nodup_append]
  refine ⟨h, by simp, ?_⟩
  intro a ha b hb e
  simp at hb
  exact hs (by rw [← hb, ← e]; exact ha)

/-- `life` and `state_` agree. -/
def toLife : St → Life
  | .waiting => .idle
  | .flushing => .queued
  | .intermediate => .busy
  | .none => .gone

theorem Inv.step {k k' : Core} {es : List Ev} (h : CoreStep k es k') (inv : Inv k) : Inv k' := by
  cases h with
  | idle => exact inv
  | round =>
    have dis : ∀ s, s ∈ k.waiting → s ∉ k.flushing := by
      intro s h1 h2
      rw [inv.memW] at h1; rw [inv.memF, h1] at h2; cases h2
    constructor
    · exact List.nodup_nil
    · exact List.nodup_append.2 ⟨inv.nodupF, inv.nodupW, fun a ha b hb e => dis b hb (e ▸ ha)⟩
    · intro s
      show s ∈ [] ↔ (if s ∈ k.waiting then St.flushing else k.st s) = .waiting
      constructor
      · intro h; cases h
      · intro h
        split at h
        · cases h
        · next hs => exact absurd ((inv.memW s).2 h) hs
    · intro s
      show s ∈ k.flushing ++ k.waiting ↔ (if s ∈ k.waiting then St.flushing else k.st s) = .flushing
      rw [List.mem_append, inv.memF]
      by_cases hs : s ∈ k.waiting
      · rw [if_pos hs]; exact ⟨fun _ => rfl, fun _ => .inr hs⟩
      · rw [if_neg hs]; exact ⟨fun h => h.resolve_right hs, .inl⟩
    · intro s
      show (if s ∈ k.waiting then St.flushing else k.st s) = .intermediate ↔ _
      rw [← inv.busy]
      by_cases hs : s ∈ k.waiting
      · rw [if_pos hs, (inv.memW s).1 hs]; simp
      · rw [if_neg hs]
    · exact inv.uniq
  | take w s l st fl t ht =>
    have hs : st s = .flushing := (inv.memF s).1 (List.mem_cons_self ..)
    have nd := List.nodup_cons.1 inv.nodupF
    have nofl : ∀ u, fl u ≠ some s := fun u hu => by
      have := (inv.busy s).2 ⟨u, hu⟩
      rw [show (Core.mk w (s :: l) st fl).st s = st s from rfl, hs] at this; cases this
    constructor
    · exact inv.nodupW
    · exact nd.2
    · intro x
      show x ∈ w ↔ setv st s .intermediate x = .waiting
      by_cases hx : x = s
      · subst hx; rw [setv_same]
        have := inv.memW x
        constructor
        · intro h
          have := (inv.memW x).1 h
          rw [show (Core.mk w (x :: l) st fl).st x = st x from rfl, hs] at this; cases this
        · intro h; cases h
      · rw [setv_other _ _ hx]; exact inv.memW x
    · intro x
      show x ∈ l ↔ setv st s .intermediate x = .flushing
      by_cases hx : x = s
      · subst hx; rw [setv_same]
        exact ⟨fun h => absurd h nd.1, fun h => by cases h⟩
      · rw [setv_other _ _ hx, ← inv.memF x]
        show _ ↔ x ∈ s :: l
        rw [List.mem_cons]
        exact ⟨.inr, fun h => h.resolve_left hx⟩
    · intro x
      show setv st s .intermediate x = .intermediate ↔ ∃ u, setv fl t (some s) u = some x
      by_cases hx : x = s
      · subst hx; rw [setv_same]
        exact ⟨fun _ => ⟨t, setv_same ..⟩, fun _ => rfl⟩
      · rw [setv_other _ _ hx]
        refine (inv.busy x).trans ⟨fun ⟨u, hu⟩ => ⟨u, ?_⟩, fun ⟨u, hu⟩ => ⟨u, ?_⟩⟩
        · have : u ≠ t := fun e => by
            subst e
            rw [show (Core.mk w (s :: l) st fl).fl u = fl u from rfl, ht] at hu; cases hu
          rw [setv_other _ _ this]; exact hu
        · have : u ≠ t := fun e => by
            subst e
            rw [setv_same] at hu; cases hu; exact hx rfl
          rw [setv_other _ _ this] at hu; exact hu
    · intro x u u'
      show setv fl t (some s) u = some x → setv fl t (some s) u' = some x → u = u'
      intro h h'
      by_cases hu : u = t
      · subst hu
        rw [setv_same] at h; cases h
        by_cases hu' : u' = u
        · exact hu'.symm
        · rw [setv_other _ _ hu'] at h'; exact absurd h' (nofl u')
      · rw [setv_other _ _ hu] at h
        by_cases hu' : u' = t
        · subst hu'
          rw [setv_same] at h'; cases h'
          exact absurd h (nofl u)
        · rw [setv_other _ _ hu'] at h'
          exact inv.uniq x u u' h h'
  | give w l st fl t s ht =>
    have hs : st s = .intermediate := (inv.busy s).2 ⟨t, ht⟩
    constructor
    · refine nodup_snoc inv.nodupW (fun h => ?_)
      have := (inv.memW s).1 h
      rw [show (Core.mk w l st fl).st s = st s from rfl, hs] at this; cases this
    · exact inv.nodupF
    · intro x
      show x ∈ w ++ [s] ↔ setv st s .waiting x = .waiting
      rw [List.mem_append, List.mem_singleton]
      by_cases hx : x = s
      · subst hx; rw [setv_same]; simp
      · rw [setv_other _ _ hx, ← inv.memW x]; exact ⟨fun h => h.resolve_right hx, .inl⟩
    · intro x
      show x ∈ l ↔ setv st s .waiting x = .flushing
      by_cases hx : x = s
      · subst hx; rw [setv_same]
        constructor
        · intro h
          have := (inv.memF x).1 h
          rw [show (Core.mk w l st fl).st x = st x from rfl, hs] at this; cases this
        · intro h; cases h
      · rw [setv_other _ _ hx]; exact inv.memF x
    · intro x
      show setv st s .waiting x = .intermediate ↔ ∃ u, setv fl t none u = some x
      by_cases hx : x = s
      · subst hx; rw [setv_same]
        constructor
        · intro h; cases h
        · rintro ⟨u, hu⟩
          by_cases hut : u = t
          · subst hut; rw [setv_same] at hu; cases hu
          · rw [setv_other _ _ hut] at hu
            exact absurd (inv.uniq x u t hu ht) hut
      · rw [setv_other _ _ hx]
        refine (inv.busy x).trans ⟨fun ⟨u, hu⟩ => ⟨u, ?_⟩, fun ⟨u, hu⟩ => ⟨u, ?_⟩⟩
        · have : u ≠ t := fun e => by
            subst e
            rw [show (Core.mk w l st fl).fl u = fl u from rfl, ht] at hu; cases hu; exact hx rfl
          rw [setv_other _ _ this]; exact hu
        · have : u ≠ t := fun e => by
            subst e
            rw [setv_same] at hu; cases hu
          rw [setv_other _ _ this] at hu; exact hu
    · intro x u u'
      show setv fl t none u = some x → setv fl t none u' = some x → u = u'
      intro h h'
      by_cases hu : u = t
      · subst hu; rw [setv_same] at h; cases h
      · by_cases hu' : u' = t
        · subst hu'; rw [setv_same] at h'; cases h'
        · rw [setv_other _ _ hu] at h; rw [setv_other _ _ hu'] at h'
          exact inv.uniq x u u' h h'
  | insert w l st fl s hs =>
    constructor
    · refine nodup_snoc inv.nodupW (fun h => ?_)
      have := (inv.memW s).1 h
      rw [show (Core.mk w l st fl).st s = st s from rfl, hs] at this; cases this
    · exact inv.nodupF
    · intro x
      show x ∈ w ++ [s] ↔ setv st s .waiting x = .waiting
      rw [List.mem_append, List.mem_singleton]
      by_cases hx : x = s
      · subst hx; rw [setv_same]; simp
      · rw [setv_other _ _ hx, ← inv.memW x]; exact ⟨fun h => h.resolve_right hx, .inl⟩
    · intro x
      show x ∈ l ↔ setv st s .waiting x = .flushing
      by_cases hx : x = s
      · subst hx; rw [setv_same]
        constructor
        · intro h
          have := (inv.memF x).1 h
          rw [show (Core.mk w l st fl).st x = st x from rfl, hs] at this; cases this
        · intro h; cases h
      · rw [setv_other _ _ hx]; exact inv.memF x
    · intro x
      show setv st s .waiting x = .intermediate ↔ _
      rw [← inv.busy x]
      by_cases hx : x = s
      · subst hx; rw [setv_same]; simp [hs]
      · rw [setv_other _ _ hx]
    · exact inv.uniq
  | remW w l st fl s hs =>
    constructor
    · exact inv.nodupW.filter _
    · exact inv.nodupF
    · intro x
      show x ∈ w.filter (fun x => x ≠ s) ↔ setv st s .none x = .waiting
      rw [List.mem_filter]
      by_cases hx : x = s
      · subst hx; rw [setv_same]; simp
      · rw [setv_other _ _ hx, ← inv.memW x]; simp [hx]
    · intro x
      show x ∈ l ↔ setv st s .none x = .flushing
      by_cases hx : x = s
      · subst hx; rw [setv_same]
        constructor
        · intro h
          have := (inv.memF x).1 h
          rw [show (Core.mk w l st fl).st x = st x from rfl, hs] at this; cases this
        · intro h; cases h
      · rw [setv_other _ _ hx]; exact inv.memF x
    · intro x
      show setv st s .none x = .intermediate ↔ _
      rw [← inv.busy x]
      by_cases hx : x = s
      · subst hx; rw [setv_same]; simp [hs]
      · rw [setv_other _ _ hx]
    · exact inv.uniq
  | remF w l st fl s hs =>
    constructor
    · exact inv.nodupW
    · exact inv.nodupF.filter _
    · intro x
      show x ∈ w ↔ setv st s .none x = .waiting
      by_cases hx : x = s
      · subst hx; rw [setv_same]
        constructor
        · intro h
          have := (inv.memW x).1 h
          rw [show (Core.mk w l st fl).st x = st x from rfl, hs] at this; cases this
        · intro h; cases h
      · rw [setv_other _ _ hx]; exact inv.memW x
    · intro x
      show x ∈ l.filter (fun x => x ≠ s) ↔ setv st s .none x = .flushing
      rw [List.mem_filter]
      by_cases hx : x = s
      · subst hx; rw [setv_same]; simp
      · rw [setv_other _ _ hx, ← inv.memF x]; simp [hx]
    · intro x
      show setv st s .none x = .intermediate ↔ _
      rw [← inv.busy x]
      by_cases hx : x = s
      · subst hx; rw [setv_same]; simp [hs]
      · rw [setv_other _ _ hx]
    · exact inv.uniq
  | remN w l st fl s hs =>
    rw [setv_id hs]; exact inv

theorem life_step {k k' : Core} {es : List Ev} (h : CoreStep k es k') (inv : Inv k) (s : Nat) :
    es.foldlM (advance s) (toLife (k.st s)) = some (toLife (k'.st s)) := by
  have one : ∀ l e, List.foldlM (advance s) l [e] = advance s l e := by
    intro l e
    show (advance s l e >>= fun x => some x) = _
    cases advance s l e <;> rfl
  cases h with
  | idle => rfl
  | round =>
    rw [one]
    show (if s ∈ k.waiting then _ else _) = some (toLife (if s ∈ k.waiting then .flushing else k.st s))
    by_cases hs : s ∈ k.waiting
    · rw [if_pos hs, if_pos hs, (inv.memW s).1 hs]; rfl
    · rw [if_neg hs, if_neg hs]
      have : toLife (k.st s) ≠ .idle := by
        intro h
        apply hs; rw [inv.memW]
        cases hk : k.st s <;> rw [hk] at h <;> first | rfl | cases h
      rw [if_neg this]
  | take w x l st fl t ht =>
    have hx : st x = .flushing := (inv.memF x).1 (List.mem_cons_self ..)
    rw [one]
    show (if x = s then _ else _) = some (toLife (setv st x .intermediate s))
    by_cases h : x = s
    · subst h; rw [if_pos rfl, setv_same, show (Core.mk w (x :: l) st fl).st x = st x from rfl, hx]; rfl
    · rw [if_neg h, setv_other _ _ (Ne.symm h)]
  | give w l st fl t x ht =>
    have hx : st x = .intermediate := (inv.busy x).2 ⟨t, ht⟩
    rw [one]
    show (if x = s then _ else _) = some (toLife (setv st x .waiting s))
    by_cases h : x = s
    · subst h; rw [if_pos rfl, setv_same, show (Core.mk w l st fl).st x = st x from rfl, hx]; rfl
    · rw [if_neg h, setv_other _ _ (Ne.symm h)]
  | insert w l st fl x hx =>
    rw [one]
    show (if x = s then _ else _) = some (toLife (setv st x .waiting s))
    by_cases h : x = s
    · subst h; rw [if_pos rfl, setv_same, show (Core.mk w l st fl).st x = st x from rfl, hx]; rfl
    · rw [if_neg h, setv_other _ _ (Ne.symm h)]
  | remW w l st fl x hx =>
    rw [one]
    show (if x = s then _ else _) = some (toLife (setv st x .none s))
    by_cases h : x = s
    · subst h; rw [if_pos rfl, setv_same, show (Core.mk w l st fl).st x = st x from rfl, hx]; rfl
    · rw [if_neg h, setv_other _ _ (Ne.symm h)]
  | remF w l st fl x hx =>
    rw [one]
    show (if x = s then _ else _) = some (toLife (setv st x .none s))
    by_cases h : x = s
    · subst h; rw [if_pos rfl, setv_same, show (Core.mk w l st fl).st x = st x from rfl, hx]; rfl
    · rw [if_neg h, setv_other _ _ (Ne.symm h)]
  | remN w l st fl x hx =>
    rw [one]
    show (if x = s then _ else _) = some (toLife (setv st x .none s))
    by_cases h : x = s
    · subst h; rw [if_pos rfl, setv_same, show (Core.mk w l st fl).st x = st x from rfl, hx]; rfl
    · rw [if_neg h, setv_other _ _ (Ne.symm h)]

theorem inv_init : Inv init.core := by
  constructor
  · exact List.nodup_nil
  · exact List.nodup_nil
  · intro s; exact ⟨fun h => (by cases h), fun h => (by cases h)⟩
  · intro s; exact ⟨fun h => (by cases h), fun h => (by cases h)⟩
  · intro s; exact ⟨fun h => (by cases h), fun ⟨t, h⟩ => (by cases h)⟩
  · intro s t t' h; cases h

theorem run_inv {c c' : Ctx} {es : List Ev} (r : Run c es c') (inv : Inv c.core) : Inv c'.core := by
  induction r with
  | refl => exact inv
  | step _ hs ih => exact ih.step (core_step hs)

theorem run_life {c c' : Ctx} {es : List Ev} (r : Run c es c') (inv : Inv c.core) (s : Nat) :
    es.foldlM (advance s) (toLife (c.st s)) = some (toLife (c'.st s)) := by
  induction r with
  | refl => rfl
  | step r hs ih =>
    rw [List.foldlM_append, ih]
    exact life_step (core_step hs) (run_inv r inv) s

end NuDB.Sched
