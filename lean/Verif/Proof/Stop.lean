import Verif.Spec.Stop
import Verif.Proof.Sched2
import Verif.Proof.Wake
/- `stop_all`. -/
namespace NuDB.Sched
open Spec

/-- A thread is inside `stop_all`. -/
def Stopping : PC → Bool
  | .stWait | .stJoin _ => true
  | _ => false

structure StopInv (c : Ctx) : Prop where
  stop : ∀ t, Stopping (c.pc t) = true → c.stop = true
  one : ∀ t t', Stopping (c.pc t) = true → Stopping (c.pc t') = true → t = t'
  spawned : ∀ x, c.pc x = .spawned → c.thread = some x
  join : ∀ t u, c.pc t = .stJoin u → c.thread = some u

theorem stopInv_init : StopInv init := ⟨by simp [init, Stopping], by simp [init, Stopping], by simp [init], by simp [init]⟩

/-- A step of `t` to a place that is neither in `stop_all` nor the beginning of a thread. -/
theorem StopInv.plain {c d : Ctx} {t : Nat} {p : PC} (h : StopInv c) (h1 : Stopping p = false) (h2 : p ≠ .spawned) (hpc : d.pc = c.pc)
    (hs : c.stop = true → d.stop = true) (ht : d.thread = c.thread) : StopInv (d.at t p) := by
  have pc : ∀ x, (d.at t p).pc x = if x = t then p else c.pc x := fun x => by rw [← hpc]; rfl
  have st : ∀ x, Stopping ((d.at t p).pc x) = true → Stopping (c.pc x) = true := by
    intro x hx
    rw [pc] at hx
    split at hx
    · rw [h1] at hx; cases hx
    · exact hx
  refine ⟨fun x hx => hs (h.stop x (st x hx)), fun x y hx hy => h.one x y (st x hx) (st y hy), fun x hx => ?_, fun x u hx => ?_⟩
  · rw [pc] at hx
    split at hx
    · exact absurd hx h2
    · exact ht.trans (h.spawned x hx)
  · rw [pc] at hx
    split at hx
    · rw [hx] at h1; cases h1
    · exact ht.trans (h.join x u hx)

/-- A step that moves no thread. -/
theorem StopInv.same {c d : Ctx} (h : StopInv c) (hpc : d.pc = c.pc) (hs : d.stop = c.stop) (ht : d.thread = c.thread) : StopInv d := by
  refine ⟨?_, ?_, ?_, ?_⟩ <;> rw [hpc]
  · rw [hs]; exact h.stop
  · exact h.one
  · rw [ht]; exact h.spawned
  · rw [ht]; exact h.join

/-- `stop_all` ends. -/
theorem StopInv.leave {c d : Ctx} {t : Nat} (h : StopInv c) (hn : ∀ x, x ≠ t → Stopping (c.pc x) = false) (hpc : d.pc = c.pc)
    (ht : ∀ x, x ≠ t → c.pc x = .spawned → d.thread = some x) : StopInv (d.at t .out) := by
  have pc : ∀ x, (d.at t .out).pc x = if x = t then .out else c.pc x := fun x => by rw [← hpc]; rfl
  have st : ∀ x, Stopping ((d.at t .out).pc x) = false := by
    intro x
    rw [pc]
    split
    · rfl
    · rename_i e; exact hn x e
  refine ⟨fun x hx => (by rw [st] at hx; cases hx), fun x y hx => (by rw [st] at hx; cases hx), fun x hx => ?_, fun x u hx => ?_⟩
  · rw [pc] at hx
    split at hx
    · cases hx
    · rename_i e; exact ht x e hx
  · have := st x; rw [hx] at this; cases this

theorem StopInv.others {c : Ctx} {t : Nat} (h : StopInv c) (ht : Stopping (c.pc t) = true) : ∀ x, x ≠ t → Stopping (c.pc x) = false := by
  intro x hx
  cases e : Stopping (c.pc x) with
  | false => rfl
  | true => exact absurd (h.one x t e ht) hx

/-- `t` goes on in `stop_all`. -/
theorem StopInv.enter {c d : Ctx} {t : Nat} {p : PC} (h : StopInv c) (hn : ∀ x, x ≠ t → Stopping (c.pc x) = false) (hpc : d.pc = c.pc)
    (hs : d.stop = true) (hp : p ≠ .spawned) (hj : ∀ u, p = .stJoin u → d.thread = some u) (ht : d.thread = c.thread) :
    StopInv (d.at t p) := by
  have pc : ∀ x, (d.at t p).pc x = if x = t then p else c.pc x := fun x => by rw [← hpc]; rfl
  have st : ∀ x, Stopping ((d.at t p).pc x) = true → x = t := by
    intro x hx
    rw [pc] at hx
    split at hx
    · assumption
    · rename_i e; rw [hn x e] at hx; cases hx
  refine ⟨fun _ _ => hs, fun x y hx hy => (st x hx).trans (st y hy).symm, fun x hx => ?_, fun x u hx => ?_⟩
  · rw [pc] at hx
    split at hx
    · exact absurd hx hp
    · exact ht.trans (h.spawned x hx)
  · have e := st x (by rw [hx]; rfl)
    rw [pc, if_pos e] at hx
    exact hj u hx

theorem StopInv.halted {c d : Ctx} {t : Nat} (h : StopInv c) (hn : ∀ x, x ≠ t → Stopping (c.pc x) = false) (hpc : d.pc = c.pc)
    (hs : d.stop = true) (ht : d.thread = c.thread) : StopInv (d.halted t) := by
  unfold Ctx.halted
  split
  · rename_i u e
    exact h.enter hn hpc hs (by simp) (fun v hv => by cases hv; exact e) ht
  · rename_i e
    refine h.leave (d := { d with stop := false }) hn hpc fun x hx hsp => ?_
    have := h.spawned x hsp
    rw [← ht, e] at this; cases this

theorem StopInv.step {c c' : Ctx} {t : Nat} {a : Act} {es : List Ev} (i : StopInv c) (h : step c t a = some (c', es)) : StopInv c' := by
  have take : ∀ {s d}, c.take = some (s, d) → d.pc = c.pc ∧ d.stop = c.stop ∧ d.thread = c.thread := by
    intro s d hd
    unfold Ctx.take at hd
    split at hd
    · cases hd
    · cases hd; exact ⟨rfl, rfl, rfl⟩
  have rem : ∀ s, (c.remove s).pc = c.pc ∧ (c.remove s).stop = c.stop ∧ (c.remove s).thread = c.thread := by
    intro s
    unfold Ctx.remove
    split <;> exact ⟨rfl, rfl, rfl⟩
  unfold Sched.step at h
  split at h
  case h_1 hp => cases h; exact i.plain (d := { c with num := c.num + 1 }) rfl (by simp) rfl id rfl
  case h_2 hp => cases h; exact i.plain (d := { c with num := c.num + 1 }) rfl (by simp) rfl id rfl
  case h_3 hp =>
    split at h
    · cases h; exact i
    · cases h; exact i.plain (d := c.moveAll) rfl (by simp) rfl id rfl
  case h_4 hp =>
    split at h
    · cases h; exact i.same rfl rfl rfl
    · cases h
  case h_5 s hp =>
    split at h
    · cases h; exact i
    · cases h; exact i.plain rfl (by simp) rfl id rfl
    · cases h
      obtain ⟨r1, r2, r3⟩ := rem s
      exact i.same r1 r2 r3
  case h_6 u hp =>
    split at h
    · rename_i hu
      split at h
      · rename_i hs
        cases h
        have pc : ∀ x, (Ctx.at { c with thread := some u } u .spawned).pc x = if x = u then .spawned else c.pc x := fun _ => rfl
        have no : ∀ x, Stopping (c.pc x) = false := by
          intro x
          cases e : Stopping (c.pc x) with
          | false => rfl
          | true => have := i.stop x e; rw [hs.1] at this; cases this
        have st : ∀ x, Stopping ((Ctx.at { c with thread := some u } u .spawned).pc x) = false := by
          intro x
          rw [pc]
          split
          · rfl
          · exact no x
        refine ⟨fun x hx => (by rw [st] at hx; cases hx), fun x y hx => (by rw [st] at hx; cases hx), fun x hx => ?_, fun x u hx => ?_⟩
        · rw [pc] at hx
          split at hx
          · rename_i e; exact congrArg some e.symm
          · have := i.spawned x hx; rw [hs.2] at this; cases this
        · have := st x; rw [hx] at this; cases this
      · cases h; exact i
    · cases h
  case h_7 hp =>
    split at h
    · cases h; exact i
    · rename_i hs
      have no : ∀ x, x ≠ t → Stopping (c.pc x) = false := by
        intro x _
        cases e : Stopping (c.pc x) with
        | false => rfl
        | true => exact absurd (i.stop x e) hs
      dsimp only at h
      split at h
      · cases h; exact i.halted no rfl rfl rfl
      · cases h; exact i.enter no rfl rfl (by simp) (by simp) rfl
  case h_8 f hp =>
    repeat' split at h
    all_goals cases h; exact i.plain rfl (by simp) rfl id rfl
  case h_9 hp =>
    unfold Ctx.timed at h
    by_cases hs : c.stop = true
    · rw [if_pos hs] at h; cases h; exact i.plain rfl (by simp) rfl id rfl
    · rw [if_neg hs] at h
      by_cases he : c.waiting.isEmpty = true
      · rw [if_pos he] at h
        dsimp only at h
        split at h
        · cases h; exact i.plain rfl (by simp) rfl id rfl
        · split at h
          · cases h; exact i.plain (d := c.notifyF) rfl (by simp) rfl id rfl
          · cases h; exact i.plain rfl (by simp) rfl id rfl
      · rw [if_neg he] at h
        dsimp only at h
        split at h
        · cases h; exact i.plain (d := c.moveAll) rfl (by simp) rfl id rfl
        · split at h
          · cases h; exact i.plain (d := c.moveAll.notifyF) rfl (by simp) rfl id rfl
          · cases h; exact i.plain (d := c.moveAll) rfl (by simp) rfl id rfl
  case h_10 hp =>
    repeat' split at h
    all_goals cases h; exact i.plain rfl (by simp) rfl id rfl
  case h_11 f hp =>
    split at h
    · cases h; exact i.plain rfl (by simp) rfl id rfl
    · rename_i s d ht
      cases h
      obtain ⟨r1, r2, r3⟩ := take ht
      exact i.plain rfl (by simp) r1 (fun h => r2.trans h) r3
  case h_12 f s hp => cases h; exact i.plain (d := c.giveBack s) rfl (by simp) rfl id rfl
  case h_13 hp => cases h; exact i.plain (d := Ctx.notifyW { c with num := c.num - 1 }) rfl (by simp) rfl id rfl
  case h_14 hp =>
    split at h
    · cases h; exact i.plain rfl (by simp) rfl id rfl
    · rename_i s d ht
      cases h
      obtain ⟨r1, r2, r3⟩ := take ht
      exact i.plain rfl (by simp) r1 (fun h => r2.trans h) r3
  case h_15 s hp => cases h; exact i.plain (d := c.giveBack s) rfl (by simp) rfl id rfl
  case h_16 s hp =>
    split at h
    · cases h; exact i.plain rfl (by simp) rfl id rfl
    · cases h
      obtain ⟨r1, r2, r3⟩ := rem s
      exact i.plain rfl (by simp) r1 (fun h => r2.trans h) r3
  case h_17 hp =>
    have ht : Stopping (c.pc t) = true := by rw [hp]; rfl
    split at h
    · cases h; exact i.halted (i.others ht) rfl (i.stop t ht) rfl
    · cases h; exact i.enter (i.others ht) rfl (i.stop t ht) (by simp) (by simp) rfl
  case h_18 u hp =>
    have ht : Stopping (c.pc t) = true := by rw [hp]; rfl
    split at h
    · rename_i hu
      cases h
      refine i.leave (d := { c with thread := none, stop := false }) (i.others ht) rfl fun x hx hsp => ?_
      have h1 := i.spawned x hsp
      rw [i.join t u hp] at h1
      cases h1
      rw [hu] at hsp; cases hsp
    · cases h
  case h_19 => cases h

theorem run_stopInv {es : List Ev} {c : Ctx} (r : Run init es c) : StopInv c := by
  generalize e : init = c0 at r
  induction r with
  | refl => rw [← e]; exact stopInv_init
  | step _ h ih => exact ih.step h

/-- Work left for a thread that serves a context that is to stop. -/
def PC.left : PC → Nat
  | .spawned => 3
  | .runTop _ | .runTimed | .runIdle => 2
  | .runLoop _ => 3
  | .runFlush _ _ => 4
  | .runLeave => 1
  | _ => 0

/-- One step while the context is to stop. -/
theorem step_stop {c c' : Ctx} {t : Nat} {a : Act} {es : List Ev} (hs : c.stop = true) (ha : a ≠ .run)
    (h : Sched.step c t a = some (c', es)) :
    2 * c'.flushing.length + (c'.pc t).left + (if Serves (c.pc t) then 1 else 0) ≤ 2 * c.flushing.length + (c.pc t).left ∧
    (∀ x, x ≠ t → c'.pc x = c.pc x) ∧
    (Serves (c'.pc t) = true → Serves (c.pc t) = true) ∧
    (Stopping (c.pc t) = false → c'.stop = true ∧ c'.thread = c.thread) := by
  have at_ : ∀ (d : Ctx) p x, x ≠ t → (d.at t p).pc x = d.pc x := fun d p x h => by simp [Ctx.at, h]
  have att : ∀ (d : Ctx) p, (d.at t p).pc t = p := fun d p => by simp [Ctx.at]
  have atf : ∀ (d : Ctx) p, (d.at t p).flushing = d.flushing := fun d p => rfl
  have go : ∀ (d : Ctx) p, 2 * d.flushing.length + p.left + (if Serves (c.pc t) then 1 else 0) ≤ 2 * c.flushing.length + (c.pc t).left →
      d.pc = c.pc → (Serves p = true → Serves (c.pc t) = true) → (Stopping (c.pc t) = false → d.stop = true ∧ d.thread = c.thread) →
      2 * (d.at t p).flushing.length + ((d.at t p).pc t).left + (if Serves (c.pc t) then 1 else 0) ≤
        2 * c.flushing.length + (c.pc t).left ∧
      (∀ x, x ≠ t → (d.at t p).pc x = c.pc x) ∧
      (Serves ((d.at t p).pc t) = true → Serves (c.pc t) = true) ∧
      (Stopping (c.pc t) = false → (d.at t p).stop = true ∧ (d.at t p).thread = c.thread) := by
    intro d p h1 h2 h3 h4
    refine ⟨by rw [att]; exact h1, fun x hx => by rw [at_ _ _ _ hx, h2], by rw [att]; exact h3, h4⟩
  have same : ∀ d : Ctx, 2 * d.flushing.length + (if Serves (c.pc t) then 1 else 0) ≤ 2 * c.flushing.length →
      d.pc = c.pc → d.stop = true → d.thread = c.thread →
      2 * d.flushing.length + (d.pc t).left + (if Serves (c.pc t) then 1 else 0) ≤ 2 * c.flushing.length + (c.pc t).left ∧
      (∀ x, x ≠ t → d.pc x = c.pc x) ∧ (Serves (d.pc t) = true → Serves (c.pc t) = true) ∧
      (Stopping (c.pc t) = false → d.stop = true ∧ d.thread = c.thread) := by
    intro d h1 h2 h3 h4
    refine ⟨by rw [h2]; omega, fun x _ => by rw [h2], by rw [h2]; exact id, fun _ => ⟨h3, h4⟩⟩
  have take : ∀ {s d}, c.take = some (s, d) → d.pc = c.pc ∧ d.stop = c.stop ∧ d.thread = c.thread ∧
      c.flushing.length = d.flushing.length + 1 := by
    intro s d hd
    unfold Ctx.take at hd
    split at hd
    · cases hd
    · rename_i e; cases hd; exact ⟨rfl, rfl, rfl, by rw [e]; rfl⟩
  have rem : ∀ s, (c.remove s).pc = c.pc ∧ (c.remove s).stop = c.stop ∧ (c.remove s).thread = c.thread ∧
      (c.remove s).flushing.length ≤ c.flushing.length := by
    intro s
    unfold Ctx.remove
    split
    · exact ⟨rfl, rfl, rfl, Nat.le_refl _⟩
    · exact ⟨rfl, rfl, rfl, List.length_filter_le ..⟩
    · exact ⟨rfl, rfl, rfl, Nat.le_refl _⟩
  unfold Sched.step at h
  split at h
  case h_1 hp => exact absurd rfl ha
  case h_2 hp =>
    cases h
    exact go { c with num := c.num + 1 } _ (by rw [hp]; simp [PC.left, Serves]) rfl (by rw [hp]; simp [Serves]) fun _ => ⟨hs, rfl⟩
  case h_3 hp =>
    rw [if_pos (by simp [hs])] at h
    cases h; exact same c (by rw [hp]; simp [Serves, InRun]) rfl hs rfl
  case h_4 hp =>
    split at h
    · cases h; exact same _ (by rw [hp]; simp [Serves, InRun, Ctx.insert, Ctx.notifyW, Ctx.setSt]) rfl hs rfl
    · cases h
  case h_5 s hp =>
    split at h
    · cases h; exact same c (by rw [hp]; simp [Serves, InRun]) rfl hs rfl
    · cases h; exact go c _ (by rw [hp]; simp [PC.left, Serves, InRun]) rfl (by simp [Serves, InRun]) fun _ => ⟨hs, rfl⟩
    · cases h
      obtain ⟨r1, r2, r3, r4⟩ := rem s
      exact same _ (by rw [hp]; simp [Serves, InRun]; omega) r1 (r2.trans hs) r3
  case h_6 u hp =>
    split at h
    · rw [if_neg (by simp [hs])] at h
      cases h; exact same c (by rw [hp]; simp [Serves, InRun]) rfl hs rfl
    · cases h
  case h_7 hp =>
    rw [if_pos hs] at h
    cases h; exact same c (by rw [hp]; simp [Serves, InRun]) rfl hs rfl
  case h_8 f hp =>
    rw [if_pos hs] at h
    cases h
    exact go c _ (by rw [hp]; simp [PC.left, Serves, InRun]) rfl (by rw [hp]; simp [Serves, InRun]) fun _ => ⟨hs, rfl⟩
  case h_9 hp =>
    unfold Ctx.timed at h
    rw [if_pos hs] at h
    cases h
    exact go c _ (by rw [hp]; simp [PC.left, Serves, InRun]) rfl (by rw [hp]; simp [Serves, InRun]) fun _ => ⟨hs, rfl⟩
  case h_10 hp =>
    rw [if_pos hs] at h
    cases h
    exact go c _ (by rw [hp]; simp [PC.left, Serves, InRun]) rfl (by rw [hp]; simp [Serves, InRun]) fun _ => ⟨hs, rfl⟩
  case h_11 f hp =>
    split at h
    · cases h
      exact go c _ (by rw [hp]; simp [PC.left, Serves, InRun]) rfl (by rw [hp]; simp [Serves, InRun]) fun _ => ⟨hs, rfl⟩
    · rename_i s d ht
      cases h
      obtain ⟨r1, r2, r3, r4⟩ := take ht
      exact go d _ (by rw [hp]; simp [PC.left, Serves, InRun]; omega) r1 (by rw [hp]; simp [Serves, InRun])
        fun _ => ⟨r2.trans hs, r3⟩
  case h_12 f s hp =>
    cases h
    exact go (c.giveBack s) _ (by rw [hp]; simp [PC.left, Serves, InRun, Ctx.giveBack, Ctx.notifyW, Ctx.setSt]) rfl
      (by rw [hp]; simp [Serves, InRun]) fun _ => ⟨hs, rfl⟩
  case h_13 hp =>
    cases h
    exact go (Ctx.notifyW { c with num := c.num - 1 }) _ (by rw [hp]; simp [PC.left, Serves, InRun, Ctx.notifyW]) rfl
      (by rw [hp]; simp [Serves, InRun]) fun _ => ⟨hs, rfl⟩
  case h_14 hp =>
    split at h
    · cases h
      exact go c _ (by rw [hp]; simp [PC.left, Serves, InRun]) rfl (by rw [hp]; simp [Serves, InRun]) fun _ => ⟨hs, rfl⟩
    · rename_i s d ht
      cases h
      obtain ⟨r1, r2, r3, r4⟩ := take ht
      exact go d _ (by rw [hp]; simp [PC.left, Serves, InRun]; omega) r1 (by rw [hp]; simp [Serves, InRun])
        fun _ => ⟨r2.trans hs, r3⟩
  case h_15 s hp =>
    cases h
    exact go (c.giveBack s) _ (by rw [hp]; simp [PC.left, Serves, InRun, Ctx.giveBack, Ctx.notifyW, Ctx.setSt]) rfl
      (by rw [hp]; simp [Serves, InRun]) fun _ => ⟨hs, rfl⟩
  case h_16 s hp =>
    split at h
    · cases h
      exact go c _ (by rw [hp]; simp [PC.left, Serves, InRun]) rfl (by rw [hp]; simp [Serves, InRun]) fun _ => ⟨hs, rfl⟩
    · cases h
      obtain ⟨r1, r2, r3, r4⟩ := rem s
      exact go _ _ (by rw [hp]; simp [PC.left, Serves, InRun]; omega) r1 (by rw [hp]; simp [Serves, InRun])
        fun _ => ⟨r2.trans hs, r3⟩
  case h_17 hp =>
    have ht : Stopping (c.pc t) = false → False := by rw [hp]; simp [Stopping]
    split at h
    · cases h
      unfold Ctx.halted
      split
      · exact go c _ (by rw [hp]; simp [PC.left, Serves, InRun]) rfl (by rw [hp]; simp [Serves, InRun]) fun h => (ht h).elim
      · exact go { c with stop := false } _ (by rw [hp]; simp [PC.left, Serves, InRun]) rfl (by rw [hp]; simp [Serves, InRun])
          fun h => (ht h).elim
    · cases h
      exact go c _ (by rw [hp]; simp [PC.left, Serves, InRun]) rfl (by rw [hp]; simp [Serves, InRun]) fun h => (ht h).elim
  case h_18 u hp =>
    have ht : Stopping (c.pc t) = false → False := by rw [hp]; simp [Stopping]
    split at h
    · cases h
      exact go { c with thread := none, stop := false } _ (by rw [hp]; simp [PC.left, Serves, InRun]) rfl
        (by rw [hp]; simp [Serves, InRun]) fun h => (ht h).elim
    · cases h
  case h_19 => cases h

theorem sum_upd {f g : Nat → Nat} {L : List Nat} {t : Nat} (hn : L.Nodup) (h : ∀ x, x ≠ t → g x = f x) :
    (t ∈ L → (L.map g).sum + f t = (L.map f).sum + g t) ∧ (t ∉ L → (L.map g).sum = (L.map f).sum) := by
  induction L with
  | nil => simp
  | cons y L ih =>
    obtain ⟨hy, hn⟩ := List.nodup_cons.1 hn
    obtain ⟨h1, h2⟩ := ih hn
    refine ⟨fun ht => ?_, fun ht => ?_⟩
    · simp only [List.map_cons, List.sum_cons]
      rcases List.mem_cons.1 ht with rfl | ht
      · have := h2 hy; omega
      · have := h1 ht
        have := h y (fun e => hy (e ▸ ht)); omega
    · simp only [List.map_cons, List.sum_cons]
      have := h2 (fun e => ht (List.mem_cons_of_mem _ e))
      have := h y (fun e => ht (e ▸ List.mem_cons_self ..)); omega

theorem left_serves {p : PC} (h : Serves p = false) : p.left = 0 := by
  cases p <;> simp [Serves, InRun] at h <;> rfl

theorem left_le (p : PC) : p.left ≤ 4 := by cases p <;> simp [PC.left]

/-- The state during `stop_all` of thread `t`. -/
structure During (t B n : Nat) (d : Ctx) : Prop where
  stop : d.stop = true
  here : Stopping (d.pc t) = true
  join : ∀ u, d.pc t = .stJoin u → ∀ x, InRun (d.pc x) = true → x = u
  bound : ∃ L : List Nat, L.Nodup ∧ (∀ x, Serves (d.pc x) = true → x ∈ L) ∧
    n + (L.map fun x => (d.pc x).left).sum + 2 * d.flushing.length ≤ B

/-- What holds when it has returned. -/
structure Stopped (t B n : Nat) (d : Ctx) : Prop where
  out : d.pc t = .out
  nobody : ∀ x, Serves (d.pc x) = false
  thread : d.thread = .none
  stop : d.stop = false
  le : n ≤ B

theorem halted_cases {c : Ctx} {t B n : Nat} (i : StopInv c) (w : Counted c.pc c.num) (h0 : c.num = 0)
    (hs : c.stop = true) (hsv : Serves (c.pc t) = false)
    (hb : ∃ L : List Nat, L.Nodup ∧ (∀ x, Serves (c.pc x) = true → x ∈ L) ∧
      n + (L.map fun x => (c.pc x).left).sum + 2 * c.flushing.length ≤ B) :
    During t B n (c.halted t) ∨ Stopped t B n (c.halted t) := by
  rw [h0] at w
  have pc : ∀ (d : Ctx) p x, (d.at t p).pc x = if x = t then p else d.pc x := fun _ _ _ => rfl
  unfold Ctx.halted
  split
  · rename_i u e
    refine .inl ⟨hs, by simp [Ctx.at, Stopping], fun v hv x hx => ?_, ?_⟩
    · rw [pc] at hx
      split at hx
      · cases hx
      · rw [w.none x] at hx; cases hx
    · obtain ⟨L, h1, h2, h3⟩ := hb
      refine ⟨L, h1, fun x hx => ?_, ?_⟩
      · rw [pc] at hx
        split at hx
        · cases hx
        · exact h2 x hx
      · obtain ⟨a, b⟩ := sum_upd (f := fun x => (c.pc x).left) (g := fun x => ((c.at t (.stJoin u)).pc x).left) (t := t) h1
          (fun x hx => by simp only [pc, if_neg hx])
        have hl := left_serves hsv
        have hg : ((c.at t (.stJoin u)).pc t).left = 0 := by rw [pc, if_pos rfl]; rfl
        by_cases hm : t ∈ L
        · have := a hm
          show n + (L.map fun x => ((c.at t (.stJoin u)).pc x).left).sum + 2 * c.flushing.length ≤ B
          omega
        · have := b hm
          show n + (L.map fun x => ((c.at t (.stJoin u)).pc x).left).sum + 2 * c.flushing.length ≤ B
          omega
  · rename_i e
    obtain ⟨L, h1, h2, h3⟩ := hb
    refine .inr ⟨by simp [Ctx.at], fun x => ?_, e, rfl, by omega⟩
    rw [pc]
    split
    · rfl
    · show Serves (c.pc x) = false
      unfold Serves
      rw [w.none x, Bool.false_or]
      cases hp : c.pc x == .spawned with
      | false => rfl
      | true => have := i.spawned x (eq_of_beq hp); rw [e] at this; cases this

theorem During.step {t B n u : Nat} {d e : Ctx} {a : Act} {es : List Ev} (h : During t B n d) (i : StopInv d) (w : Wake d)
    (ha : a ≠ .run) (hs : Sched.step d u a = some (e, es)) :
    During t B (n + if Serves (d.pc u) then 1 else 0) e ∨ Stopped t B (n + if Serves (d.pc u) then 1 else 0) e := by
  obtain ⟨L, h1, h2, h3⟩ := h.bound
  obtain ⟨s1, s2, s3, s4⟩ := step_stop h.stop ha hs
  have hb : ∃ L : List Nat, L.Nodup ∧ (∀ x, Serves (e.pc x) = true → x ∈ L) ∧
      (n + if Serves (d.pc u) then 1 else 0) + (L.map fun x => (e.pc x).left).sum + 2 * e.flushing.length ≤ B := by
    refine ⟨L, h1, fun x hx => ?_, ?_⟩
    · by_cases e' : x = u
      · rw [e'] at hx ⊢; exact h2 u (s3 hx)
      · rw [s2 x e'] at hx; exact h2 x hx
    · obtain ⟨p, q⟩ := sum_upd (f := fun x => (d.pc x).left) (g := fun x => (e.pc x).left) (t := u) h1
        (fun x hx => by simp only [s2 x hx])
      by_cases hm : u ∈ L
      · have := p hm; omega
      · have := q hm
        have hu : Serves (d.pc u) = false := by
          cases e' : Serves (d.pc u) with
          | false => rfl
          | true => exact absurd (h2 u e') hm
        have hl := left_serves hu
        rw [hu] at s1 ⊢
        simp only [Bool.false_eq_true, if_false] at s1 ⊢
        omega
  by_cases hu : u = t
  · subst hu
    have hsv : Serves (d.pc u) = false := by
      have := h.here
      cases hp : d.pc u <;> rw [hp] at this <;> simp [Stopping] at this <;> rfl
    have keep : e = d.at u (d.pc u) → During u B (n + if Serves (d.pc u) then 1 else 0) e := by
      intro he
      have pc : e.pc = d.pc := by
        funext x
        rw [he]
        show (if x = u then d.pc u else d.pc x) = _
        split
        · rename_i e; rw [e]
        · rfl
      exact ⟨by rw [he]; exact h.stop, by rw [pc]; exact h.here, by rw [pc]; exact h.join, hb⟩
    have hh := h.here
    unfold Sched.step at hs
    split at hs
    case h_17 hp =>
      split at hs
      · rename_i h0
        cases hs
        rw [hsv]
        refine halted_cases i w.cnt h0 h.stop hsv ⟨L, h1, h2, ?_⟩
        simpa using h3
      · cases hs
        exact .inl (keep (by rw [hp]))
    case h_18 v hp =>
      split at hs
      · rename_i hv
        cases hs
        obtain ⟨L', _, _, hle⟩ := hb
        refine .inr ⟨by simp [Ctx.at], fun x => ?_, rfl, rfl, by omega⟩
        show Serves (if x = u then .out else d.pc x) = false
        split
        · rfl
        · unfold Serves
          have hr : InRun (d.pc x) = false := by
            cases e' : InRun (d.pc x) with
            | false => rfl
            | true => rw [h.join v hp x e', hv] at e'; cases e'
          rw [hr, Bool.false_or]
          cases e' : d.pc x == .spawned with
          | false => rfl
          | true =>
            have e' := eq_of_beq e'
            have h5 := i.spawned x e'
            rw [i.join u v hp] at h5
            cases h5
            rw [hv] at e'; cases e'
      · cases hs
    case h_19 => cases hs
    all_goals (rename_i hp; rw [hp] at hh; simp [Stopping] at hh)
  · have ht := s2 t (Ne.symm hu)
    obtain ⟨r1, r2⟩ := s4 (i.others h.here u hu)
    refine .inl ⟨r1, by rw [ht]; exact h.here, fun v hv x hx => ?_, hb⟩
    rw [ht] at hv
    by_cases e' : x = u
    · rw [e'] at hx ⊢
      have := s3 (by unfold Serves; rw [hx]; rfl)
      unfold Serves at this
      rcases Bool.or_eq_true_iff.1 this with h6 | h6
      · exact h.join v hv u h6
      · have h7 := i.spawned u (eq_of_beq h6)
        rw [i.join t v hv] at h7
        exact (Option.some.inj h7).symm
    · rw [s2 x e'] at hx
      exact h.join v hv x hx

theorem stopAll_during {c c1 : Ctx} {t : Nat} {es : List Ev} (i : StopInv c) (w : Wake c) (hs : c.stop = false)
    (h : Sched.step c t .stopAll = some (c1, es)) :
    During t (4 * (c.num + 1) + 2 * c.flushing.length) 0 c1 ∨ Stopped t (4 * (c.num + 1) + 2 * c.flushing.length) 0 c1 := by
  have hp : c.pc t = .out := by
    unfold Sched.step at h
    split at h <;> first | assumption | (rename_i hc; cases hc; done) | (cases h; done) | skip
    all_goals (rename_i hc _; cases hc)
  obtain ⟨L, l1, l2, l3⟩ := w.cnt
  have hb : ∃ L' : List Nat, L'.Nodup ∧ (∀ x, Serves (c.pc x) = true → x ∈ L') ∧ L'.length ≤ c.num + 1 := by
    by_cases hsp : ∃ x, c.pc x = .spawned
    · obtain ⟨y, hy⟩ := hsp
      refine ⟨y :: L, List.nodup_cons.2 ⟨fun hm => ?_, l1⟩, fun x hx => ?_, by simp [l3]⟩
      · have := (l2 y).1 hm; rw [hy] at this; cases this
      · unfold Serves at hx
        rcases Bool.or_eq_true_iff.1 hx with h6 | h6
        · exact List.mem_cons_of_mem _ ((l2 x).2 h6)
        · have h7 := i.spawned x (eq_of_beq h6)
          rw [i.spawned y hy] at h7
          cases h7; exact List.mem_cons_self ..
    · refine ⟨L, l1, fun x hx => ?_, by omega⟩
      unfold Serves at hx
      rcases Bool.or_eq_true_iff.1 hx with h6 | h6
      · exact (l2 x).2 h6
      · exact absurd ⟨x, eq_of_beq h6⟩ hsp
  obtain ⟨L', m1, m2, m3⟩ := hb
  have hsum : (L'.map fun x => (c.pc x).left).sum ≤ 4 * L'.length := by
    clear m1 m2 m3
    induction L' with
    | nil => simp
    | cons y L ih => have := left_le (c.pc y); simp only [List.map_cons, List.sum_cons, List.length_cons]; omega
  have hb2 : ∃ L : List Nat, L.Nodup ∧ (∀ x, Serves (c.pc x) = true → x ∈ L) ∧
      0 + (L.map fun x => (c.pc x).left).sum + 2 * c.flushing.length ≤ 4 * (c.num + 1) + 2 * c.flushing.length :=
    ⟨L', m1, m2, by omega⟩
  simp only [Sched.step, hp, hs, Bool.false_eq_true, if_false] at h
  split at h
  · rename_i h0
    cases h
    refine halted_cases (c := Ctx.notifyW (Ctx.notifyF { c with stop := true })) ?_ w.cnt h0 rfl (by
      show Serves (c.pc t) = false
      rw [hp]; rfl) hb2
    refine ⟨fun _ _ => rfl, i.one, i.spawned, i.join⟩
  · cases h
    have pc : ∀ x, (Ctx.at (Ctx.notifyW (Ctx.notifyF { c with stop := true })) t .stWait).pc x = if x = t then .stWait else c.pc x :=
      fun _ => rfl
    refine .inl ⟨rfl, by rw [pc, if_pos rfl]; rfl, fun u hu => ?_, L', m1, fun x hx => ?_, ?_⟩
    · rw [pc, if_pos rfl] at hu; cases hu
    · rw [pc] at hx
      split at hx
      · cases hx
      · exact m2 x hx
    · obtain ⟨p, q⟩ := sum_upd (f := fun x => (c.pc x).left)
        (g := fun x => ((Ctx.at (Ctx.notifyW (Ctx.notifyF { c with stop := true })) t .stWait).pc x).left) (t := t) m1
        (fun x hx => by simp only [pc, if_neg hx])
      have hl : (c.pc t).left = 0 := by rw [hp]; rfl
      have hg : ((Ctx.at (Ctx.notifyW (Ctx.notifyF { c with stop := true })) t .stWait).pc t).left = 0 := by rw [pc, if_pos rfl]; rfl
      have hf : (Ctx.at (Ctx.notifyW (Ctx.notifyF { c with stop := true })) t .stWait).flushing = c.flushing := rfl
      rw [hf]
      by_cases hm : t ∈ L'
      · have := p hm; omega
      · have := q hm; omega

theorem stops_run {t n : Nat} {c d : Ctx} {es : List Ev} (r : Run init es c) (h : Stops t c n d) : ∃ es', Run init es' d := by
  induction h with
  | refl => exact ⟨es, r⟩
  | step _ _ _ hs ih => obtain ⟨es', r'⟩ := ih; exact ⟨_, .step r' hs⟩

theorem stops_during {t n B : Nat} {c d : Ctx} {es : List Ev} (r : Run init es c) (h0 : During t B 0 c ∨ Stopped t B 0 c)
    (h : Stops t c n d) : During t B n d ∨ Stopped t B n d := by
  induction h with
  | refl => exact h0
  | step hd hne ha hs ih =>
    obtain ⟨es', r'⟩ := stops_run r hd
    rcases ih with ih | ih
    · exact ih.step (run_stopInv r') (run_wake r') ha hs
    · exact absurd ih.out hne

end NuDB.Sched
