import Verif.Proof.Sched
/-
No lost wakeups in the flush scheduler, and `num_threads_` counts the threads in `run`.
-/
namespace NuDB.Sched
open Spec

/-- What a thread that waits and was not notified may rely on. -/
def WaitOk (c : Ctx) (x : Nat) : Prop :=
  c.woken x = false →
    (c.pc x = .runIdle → c.flushing = [] ∧ c.stop = false) ∧
    (∀ s, c.pc x = .erWait s → c.st s = .intermediate) ∧
    (c.pc x = .stWait → c.num ≠ 0)

def Quiet (c : Ctx) (t : Nat) : Prop := ∀ x, x ≠ t → WaitOk c x

/-- `num_threads_` is the number of threads in `run`. -/
def Counted (pc : Nat → PC) (n : Nat) : Prop :=
  ∃ L : List Nat, L.Nodup ∧ (∀ t, t ∈ L ↔ InRun (pc t) = true) ∧ L.length = n

structure Wake (c : Ctx) : Prop where
  ok : ∀ x, WaitOk c x
  cnt : Counted c.pc c.num

theorem Quiet.at {c : Ctx} {t : Nat} {p : PC} (q : Quiet c t)
    (h1 : p = .runIdle → c.flushing = [] ∧ c.stop = false)
    (h2 : ∀ s, p = .erWait s → c.st s = .intermediate)
    (h3 : p = .stWait → c.num ≠ 0) : ∀ x, WaitOk (c.at t p) x := by
  intro x hw
  by_cases hx : x = t
  · subst hx
    simp only [Ctx.at, if_true]
    exact ⟨h1, h2, h3⟩
  · have := q x hx
    simp only [Ctx.at, if_neg hx] at hw ⊢
    exact this hw

theorem Quiet.plain {c : Ctx} {t : Nat} {p : PC} (q : Quiet c t)
    (h1 : p ≠ .runIdle) (h2 : ∀ s, p ≠ .erWait s) (h3 : p ≠ .stWait) : ∀ x, WaitOk (c.at t p) x :=
  q.at (fun h => absurd h h1) (fun s h => absurd h (h2 s)) (fun h => absurd h h3)

theorem Counted.same {pc : Nat → PC} {n t : Nat} {p : PC} (h : Counted pc n) (hp : InRun p = InRun (pc t)) :
    Counted (fun x => if x = t then p else pc x) n := by
  obtain ⟨L, nd, hm, hl⟩ := h
  refine ⟨L, nd, fun x => ?_, hl⟩
  by_cases hx : x = t
  · subst hx; rw [hm x]; simp [hp]
  · simp [hx, hm x]

theorem Counted.enter {pc : Nat → PC} {n t : Nat} {p : PC} (h : Counted pc n) (hp : InRun p = true)
    (ht : InRun (pc t) = false) : Counted (fun x => if x = t then p else pc x) (n + 1) := by
  obtain ⟨L, nd, hm, hl⟩ := h
  refine ⟨t :: L, List.nodup_cons.2 ⟨fun h => ?_, nd⟩, fun x => ?_, by simp [hl]⟩
  · rw [hm t, ht] at h; cases h
  · by_cases hx : x = t
    · subst hx; simp [hp]
    · simp [hx, hm x]

theorem Counted.leave {pc : Nat → PC} {n t : Nat} {p : PC} (h : Counted pc n) (hp : InRun p = false)
    (ht : InRun (pc t) = true) : Counted (fun x => if x = t then p else pc x) (n - 1) := by
  obtain ⟨L, nd, hm, hl⟩ := h
  refine ⟨L.erase t, nd.erase t, fun x => ?_, ?_⟩
  · by_cases hx : x = t
    · subst hx; simp [nd.mem_erase_iff, hp]
    · simp [hx, nd.mem_erase_iff, hm x]
  · rw [List.length_erase_of_mem ((hm t).2 ht), hl]

theorem Counted.none {pc : Nat → PC} (h : Counted pc 0) (t : Nat) : InRun (pc t) = false := by
  obtain ⟨L, nd, hm, hl⟩ := h
  cases hp : InRun (pc t) with
  | false => rfl
  | true =>
    have := (hm t).2 hp
    rw [List.eq_nil_of_length_eq_zero hl] at this
    cases this

theorem Counted.one {pc : Nat → PC} {n t x : Nat} (h : Counted pc n) (hn : n ≤ 1) (ht : InRun (pc t) = true)
    (hx : x ≠ t) : InRun (pc x) = false := by
  obtain ⟨L, nd, hm, hl⟩ := h
  cases hp : InRun (pc x) with
  | false => rfl
  | true =>
    have h1 := (hm t).2 ht
    have h2 := (hm x).2 hp
    rcases L with _ | ⟨a, _ | ⟨b, L⟩⟩
    · cases h1
    · simp at h1 h2; exact absurd (h2.trans h1.symm) hx
    · simp at hl; omega

theorem Wake.quiet {c : Ctx} (w : Wake c) (t : Nat) : Quiet c t := fun x _ => w.ok x

theorem Quiet.notifyF {c : Ctx} {t : Nat} (q : Quiet c t) : Quiet c.notifyF t := by
  intro x hx hw
  simp only [Ctx.notifyF, Bool.or_eq_false_iff] at hw ⊢
  exact q x hx hw.1

theorem WaitOk.notifyW {c : Ctx} {x : Nat} (q : WaitOk c x) : WaitOk c.notifyW x := by
  intro hw
  simp only [Ctx.notifyW, Bool.or_eq_false_iff] at hw ⊢
  exact q hw.1

/-- After `cv_w_.notify_all` only the waits on `cv_f_` matter. -/
theorem waitOk_notifyW {c d : Ctx} {x : Nat} (q : WaitOk c x) (hpc : d.pc x = c.pc x) (hw : d.woken x = c.woken x)
    (hf : d.flushing = c.flushing ∨ d.flushing = []) (hs : d.stop = c.stop) : WaitOk d.notifyW x := by
  intro h
  simp only [Ctx.notifyW, Bool.or_eq_false_iff, hpc, hw] at h ⊢
  obtain ⟨h1, h2⟩ := h
  obtain ⟨q1, q2, q3⟩ := q h1
  refine ⟨fun hp => ?_, fun s hp => ?_, fun hp => ?_⟩
  · obtain ⟨a, b⟩ := q1 hp
    refine ⟨?_, by rw [hs]; exact b⟩
    rcases hf with hf | hf
    · rw [hf]; exact a
    · exact hf
  · rw [hp] at h2; cases h2
  · rw [hp] at h2; cases h2

theorem waitOk_st {c d : Ctx} {x : Nat} (q : WaitOk c x) (hpc : d.pc x = c.pc x)
    (hw : d.woken x = false → c.woken x = false)
    (hf : c.flushing = [] → d.flushing = []) (hs : d.stop = c.stop ∨ d.stop = false) (hn : c.num ≠ 0 → d.num ≠ 0)
    (hst : ∀ s, c.st s = .intermediate → d.st s = .intermediate) : WaitOk d x := by
  intro h
  obtain ⟨q1, q2, q3⟩ := q (hw h)
  rw [hpc]
  refine ⟨fun hp => ?_, fun s hp => hst s (q2 s hp), fun hp => hn (q3 hp)⟩
  obtain ⟨a, b⟩ := q1 hp
  refine ⟨hf a, ?_⟩
  rcases hs with hs | hs
  · rw [hs]; exact b
  · exact hs

theorem waitOk_remove {c : Ctx} {x s : Nat} (q : WaitOk c x) (hs : c.st s ≠ .intermediate) : WaitOk (c.remove s) x := by
  have hst : ∀ y, c.st y = .intermediate → (if y = s then St.none else c.st y) = .intermediate := by
    intro y hy
    by_cases h : y = s
    · subst h; exact absurd hy hs
    · rw [if_neg h]; exact hy
  unfold Ctx.remove
  split
  · refine waitOk_st q rfl (fun h => ?_) (fun h => h) (.inl rfl) (fun h => h) hst
    simp only [Ctx.setSt, Ctx.notifyW, Bool.or_eq_false_iff] at h
    exact h.1
  · refine waitOk_st q rfl (fun h => h) (fun h => ?_) (.inl rfl) (fun h => h) hst
    simp only [Ctx.setSt, h]; rfl
  · exact waitOk_st q rfl (fun h => h) (fun h => h) (.inl rfl) (fun h => h) hst

theorem waitOk_take {c d : Ctx} {x s : Nat} (q : WaitOk c x) (h : c.take = some (s, d)) : WaitOk d x := by
  unfold Ctx.take at h
  cases hl : c.flushing with
  | nil => rw [hl] at h; cases h
  | cons a l =>
    rw [hl] at h
    cases h
    refine waitOk_st q rfl (fun h => h) (fun h => ?_) (.inl rfl) (fun h => h) (fun y hy => ?_)
    · rw [hl] at h; cases h
    · show (if y = s then _ else _) = _
      split
      · rfl
      · exact hy

theorem take_pc {c d : Ctx} {s : Nat} (h : c.take = some (s, d)) : d.pc = c.pc ∧ d.num = c.num := by
  unfold Ctx.take at h
  cases hl : c.flushing with
  | nil => rw [hl] at h; cases h
  | cons a l => rw [hl] at h; cases h; exact ⟨rfl, rfl⟩

theorem waitOk_giveBack {c : Ctx} {x s : Nat} (q : WaitOk c x) : WaitOk (c.giveBack s) x :=
  waitOk_notifyW q rfl rfl (.inl rfl) rfl

theorem remove_pc (c : Ctx) (s : Nat) : (c.remove s).pc = c.pc ∧ (c.remove s).num = c.num := by
  unfold Ctx.remove
  split <;> exact ⟨rfl, rfl⟩

theorem waitOk_insert {c : Ctx} {x s : Nat} (q : WaitOk c x) : WaitOk (c.insert s) x :=
  waitOk_notifyW q rfl rfl (.inl rfl) rfl

/-- Moving stores to the queue when no thread waits for stores. -/
theorem quiet_moveAll {c : Ctx} {t : Nat} (inv : Inv c.core) (q : Quiet c t) (h : ∀ x, x ≠ t → c.pc x ≠ .runIdle) :
    Quiet c.moveAll t := by
  intro x hx hw
  obtain ⟨_, q2, q3⟩ := q x hx hw
  refine ⟨fun hp => absurd hp (h x hx), fun s hp => ?_, q3⟩
  have := q2 s hp
  show (if s ∈ c.waiting then _ else _) = _
  rw [if_neg]
  · exact this
  · intro hm
    have := (inv.memW s).1 hm
    simp [Ctx.core] at this
    simp_all

theorem quiet_moveAll_notify {c : Ctx} {t : Nat} (inv : Inv c.core) (q : Quiet c t) :
    Quiet c.moveAll.notifyF t := by
  intro x hx hw
  simp only [Ctx.notifyF, Bool.or_eq_false_iff] at hw ⊢
  obtain ⟨_, q2, q3⟩ := q x hx hw.1
  refine ⟨fun hp => ?_, fun s hp => ?_, q3⟩
  · have h2 := hw.2
    have hp : c.pc x = .runIdle := hp
    simp only [Ctx.moveAll, hp] at h2; cases h2
  have := q2 s hp
  show (if s ∈ c.waiting then _ else _) = _
  rw [if_neg]
  · exact this
  · intro hm
    have := (inv.memW s).1 hm
    simp [Ctx.core] at this
    simp_all

theorem Wake.mk' {c : Ctx} {t : Nat} {p : PC} (h : ∀ x, WaitOk (c.at t p) x)
    (hc : Counted (fun x => if x = t then p else c.pc x) c.num) : Wake (c.at t p) := ⟨h, hc⟩

theorem wake_timed {c : Ctx} {t : Nat} (w : Wake c) (inv : Inv c.core) (hp : c.pc t = .runTimed) :
    Wake (c.timed t).1 := by
  have hin : InRun (c.pc t) = true := by rw [hp]; rfl
  have hc : ∀ p, InRun p = true → Counted (fun x => if x = t then p else c.pc x) c.num :=
    fun p h => w.cnt.same (by rw [h, hin])
  unfold Ctx.timed
  by_cases hs : c.stop = true
  · rw [if_pos hs]
    exact .mk' ((w.quiet t).plain (by simp) (by simp) (by simp)) (hc _ rfl)
  rw [if_neg hs]
  by_cases he : c.waiting.isEmpty = true
  · rw [if_pos he]
    dsimp only
    by_cases hf : c.flushing.isEmpty = true
    · rw [if_pos hf]
      exact .mk' ((w.quiet t).plain (by simp) (by simp) (by simp)) (hc _ rfl)
    · rw [if_neg hf]
      by_cases hn : c.num > 1
      · rw [if_pos hn]
        exact .mk' ((w.quiet t).notifyF.plain (by simp) (by simp) (by simp)) (hc _ rfl)
      · rw [if_neg hn]
        exact .mk' ((w.quiet t).plain (by simp) (by simp) (by simp)) (hc _ rfl)
  · rw [if_neg he]
    dsimp only
    have hf : ¬ (c.moveAll.flushing.isEmpty = true) := by
      show ¬ ((c.flushing ++ c.waiting).isEmpty = true)
      simp at he ⊢
      exact fun _ => he
    rw [if_neg hf]
    by_cases hn : c.moveAll.num > 1
    · rw [if_pos hn]
      exact .mk' ((quiet_moveAll_notify inv (w.quiet t)).plain (by simp) (by simp) (by simp)) (hc _ rfl)
    · rw [if_neg hn]
      refine .mk' ((quiet_moveAll inv (w.quiet t) ?_).plain (by simp) (by simp) (by simp)) (hc _ rfl)
      intro x hx hpx
      have := w.cnt.one (by exact Nat.le_of_not_lt hn) hin hx
      rw [hpx] at this; cases this

theorem Wake.halted {c : Ctx} {t : Nat} (w : Quiet c t) (h : Counted c.pc c.num) (hp : InRun (c.pc t) = false) :
    Wake (c.halted t) := by
  unfold Ctx.halted
  split
  · exact .mk' (w.plain (by simp) (by simp) (by simp)) (h.same (by rw [hp] <;> rfl))
  · refine .mk' (Quiet.plain (fun x hx => ?_) (by simp) (by simp) (by simp)) (h.same (by rw [hp] <;> rfl))
    exact waitOk_st (w x hx) rfl (fun h => h) (fun h => h) (.inr rfl) (fun h => h) (fun _ h => h)

theorem Wake.step {c c' : Ctx} {t : Nat} {a : Act} {es : List Ev} (w : Wake c) (inv : Inv c.core)
    (h : step c t a = some (c', es)) : Wake c' := by
  unfold Sched.step at h
  split at h
  case h_1 hp =>
    cases h
    refine .mk' (Quiet.plain (fun x hx => ?_) (by simp) (by simp) (by simp)) (w.cnt.enter rfl (by rw [hp] <;> rfl))
    exact waitOk_st (w.ok x) rfl (fun h => h) (fun h => h) (.inl rfl) (fun _ => Nat.succ_ne_zero _) (fun _ h => h)
  case h_2 hp =>
    cases h
    refine .mk' (Quiet.plain (fun x hx => ?_) (by simp) (by simp) (by simp)) (w.cnt.enter rfl (by rw [hp] <;> rfl))
    exact waitOk_st (w.ok x) rfl (fun h => h) (fun h => h) (.inl rfl) (fun _ => Nat.succ_ne_zero _) (fun _ h => h)
  case h_3 hp =>
    split at h
    · cases h; exact w
    · rename_i hn
      cases h
      refine .mk' ((quiet_moveAll inv (w.quiet t) ?_).plain (by simp) (by simp) (by simp))
        (w.cnt.same (by rw [hp] <;> rfl))
      intro x _ hpx
      have h0 : c.num = 0 := by
        simp at hn; exact hn.2
      have hc := w.cnt
      rw [h0] at hc
      have := hc.none x
      rw [hpx] at this; cases this
  case h_4 hp =>
    split at h
    · cases h; exact ⟨fun x => waitOk_insert (w.ok x), w.cnt⟩
    · cases h
  case h_5 s hp =>
    split at h
    · cases h; exact w
    · rename_i hst
      cases h
      refine .mk' ((w.quiet t).at (by simp) (fun s' e => ?_) (by simp)) (w.cnt.same (by rw [hp] <;> rfl))
      cases e; exact hst
    · rename_i h1 h2
      cases h
      refine ⟨fun x => waitOk_remove (w.ok x) ?_, ?_⟩
      · exact fun e => h2 e
      · rw [(remove_pc c s).1, (remove_pc c s).2]; exact w.cnt
  case h_6 u hp =>
    split at h
    · rename_i hu
      split at h
      · cases h
        refine .mk' (Quiet.plain (fun x hx => ?_) (by simp) (by simp) (by simp)) (w.cnt.same (by rw [hu.2]; rfl))
        exact waitOk_st (w.ok x) rfl (fun h => h) (fun h => h) (.inl rfl) (fun h => h) (fun _ h => h)
      · cases h; exact w
    · cases h
  case h_7 hp =>
    split at h
    · cases h; exact w
    · dsimp only at h
      have q : Quiet ({ c with stop := true }.notifyF).notifyW t := by
        intro x hx hw
        simp only [Ctx.notifyF, Ctx.notifyW, Bool.or_eq_false_iff] at hw ⊢
        refine ⟨fun hp => ?_, fun s hp => ?_, fun hp => ?_⟩ <;> rw [hp] at hw
        · exact absurd hw.1.2 (by simp [PC.onF])
        · exact absurd hw.2 (by simp [PC.onW])
        · exact absurd hw.2 (by simp [PC.onW])
      split at h
      · cases h
        exact Wake.halted q w.cnt (by show InRun (c.pc t) = false; rw [hp]; rfl)
      · rename_i hn
        cases h
        exact .mk' (q.at (by simp) (by simp) (fun _ => hn)) (w.cnt.same (by rw [hp] <;> rfl))
  case h_8 f hp =>
    have hin : InRun (c.pc t) = true := by rw [hp]; rfl
    split at h
    · cases h; exact .mk' ((w.quiet t).plain (by simp) (by simp) (by simp)) (w.cnt.same (by rw [hin]; rfl))
    · rename_i hst
      split at h
      · cases h; exact .mk' ((w.quiet t).plain (by simp) (by simp) (by simp)) (w.cnt.same (by rw [hin]; rfl))
      · split at h
        · rename_i hf
          cases h
          refine .mk' ((w.quiet t).at (fun _ => ⟨?_, ?_⟩) (by simp) (by simp)) (w.cnt.same (by rw [hin]; rfl))
          · simpa using hf
          · simpa using hst
        · cases h; exact .mk' ((w.quiet t).plain (by simp) (by simp) (by simp)) (w.cnt.same (by rw [hin]; rfl))
  case h_9 hp =>
    have := wake_timed w inv hp
    have e : c.timed t = (c', es) := Option.some.inj h
    rw [e] at this; exact this
  case h_10 hp =>
    have hin : InRun (c.pc t) = true := by rw [hp]; rfl
    split at h
    · cases h; exact .mk' ((w.quiet t).plain (by simp) (by simp) (by simp)) (w.cnt.same (by rw [hin]; rfl))
    · rename_i hst
      split at h
      · rename_i hf
        cases h
        refine .mk' ((w.quiet t).at (fun _ => ⟨?_, ?_⟩) (by simp) (by simp)) (w.cnt.same (by rw [hin]; rfl))
        · simpa using hf
        · simpa using hst
      · cases h; exact .mk' ((w.quiet t).plain (by simp) (by simp) (by simp)) (w.cnt.same (by rw [hin]; rfl))
  case h_11 f hp =>
    have hin : InRun (c.pc t) = true := by rw [hp]; rfl
    split at h
    · cases h; exact .mk' ((w.quiet t).plain (by simp) (by simp) (by simp)) (w.cnt.same (by rw [hin]; rfl))
    · rename_i s d ht
      cases h
      obtain ⟨e1, e2⟩ := take_pc ht
      refine .mk' (Quiet.plain (fun x _ => waitOk_take (w.ok x) ht) (by simp) (by simp) (by simp)) ?_
      rw [e1, e2]; exact w.cnt.same (by rw [hin]; rfl)
  case h_12 f s hp =>
    cases h
    exact .mk' (Quiet.plain (fun x _ => waitOk_giveBack (w.ok x)) (by simp) (by simp) (by simp))
      (w.cnt.same (by rw [hp] <;> rfl))
  case h_13 hp =>
    cases h
    exact .mk' (Quiet.plain (fun x _ => waitOk_notifyW (w.ok x) rfl rfl (.inl rfl) rfl) (by simp) (by simp) (by simp))
      (w.cnt.leave rfl (by rw [hp] <;> rfl))
  case h_14 hp =>
    split at h
    · cases h; exact .mk' ((w.quiet t).plain (by simp) (by simp) (by simp)) (w.cnt.same (by rw [hp] <;> rfl))
    · rename_i s d ht
      cases h
      obtain ⟨e1, e2⟩ := take_pc ht
      refine .mk' (Quiet.plain (fun x _ => waitOk_take (w.ok x) ht) (by simp) (by simp) (by simp)) ?_
      rw [e1, e2]; exact w.cnt.same (by rw [hp] <;> rfl)
  case h_15 s hp =>
    cases h
    exact .mk' (Quiet.plain (fun x _ => waitOk_giveBack (w.ok x)) (by simp) (by simp) (by simp))
      (w.cnt.same (by rw [hp] <;> rfl))
  case h_16 s hp =>
    split at h
    · rename_i hst
      cases h
      refine .mk' ((w.quiet t).at (by simp) (fun s' e => ?_) (by simp)) (w.cnt.same (by rw [hp] <;> rfl))
      cases e; exact hst
    · rename_i hst
      cases h
      refine .mk' (Quiet.plain (fun x _ => waitOk_remove (w.ok x) hst) (by simp) (by simp) (by simp)) ?_
      rw [(remove_pc c s).1, (remove_pc c s).2]; exact w.cnt.same (by rw [hp] <;> rfl)
  case h_17 hp =>
    split at h
    · cases h; exact Wake.halted (w.quiet t) w.cnt (by rw [hp] <;> rfl)
    · rename_i hn
      cases h
      exact .mk' ((w.quiet t).at (by simp) (by simp) (fun _ => hn)) (w.cnt.same (by rw [hp] <;> rfl))
  case h_18 u hp =>
    split at h
    · cases h
      refine .mk' (Quiet.plain (fun x hx => ?_) (by simp) (by simp) (by simp)) (w.cnt.same (by rw [hp] <;> rfl))
      exact waitOk_st (w.ok x) rfl (fun h => h) (fun h => h) (.inr rfl) (fun h => h) (fun _ h => h)
    · cases h
  case h_19 => cases h

theorem wake_init : Wake init := by
  refine ⟨fun x _ => ⟨fun h => (by cases h), fun s h => (by cases h), fun h => (by cases h)⟩, [], .nil, fun t => ?_, rfl⟩
  simp [init, InRun]

theorem run_wake {es : List Ev} {c : Ctx} (r : Run init es c) : Wake c := by
  generalize hi : init = i at r
  induction r with
  | refl => rw [← hi]; exact wake_init
  | step r1 hs ih => subst hi; exact ih.step (run_inv r1 inv_init) hs

end NuDB.Sched
