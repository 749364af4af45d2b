import Verif.Proof.Stop
import Verif.Proof.ContextThrow
import Verif.Model.ContextEnd
/-
C77: `stop_all` and the destructor of a context.
-/
namespace NuDB.Sched
open Spec

/-- C77, as far as it holds: when `stop_all` returns, having found `stop_` not set, no thread executes `run`, nor is the thread made by
`start` about to; that thread was joined; and the context can be started again. Until then the threads that serve the context
took at most four steps each, and two for each store whose turn to be flushed had come. Missing: other calls of
`stop_all` during this one (`C77_second_violated`), threads in `flush` (`C77_flush_violated`), and threads that enter `run`
meanwhile (`C77_enter_violated`). -/
theorem C77_partial {es es1 : List Ev} {c c1 d : Ctx} {t n : Nat} (r : Run init es c) (hs : c.stop = false)
    (h : step c t .stopAll = some (c1, es1)) (st : Stops t c1 n d) (hd : d.pc t = .out) :
    (∀ u, Serves (d.pc u) = false) ∧ d.thread = none ∧ d.stop = false ∧ n ≤ 4 * (c.num + 1) + 2 * c.flushing.length := by
  rcases stops_during (.step r h) (stopAll_during (run_stopInv r) (run_wake r) hs h) st with h | h
  · have := h.here; rw [hd] at this; cases this
  · exact ⟨h.nobody, h.thread, h.stop, h.le⟩

/-- C77: `stop_all` is never stuck. As long as it has not returned, there is a thread serving the context, which can go on, and which
was notified if it sleeps without a time limit; their number of steps is bounded as in `C77_partial`, also before `stop_all` returns. Or
there is none, then `stop_all` itself goes on, was notified if it sleeps, and does not sleep again. The thread
made by `start` executes `run` and nothing else. -/
theorem C77_progress {es es1 : List Ev} {c c1 d : Ctx} {t n : Nat} (r : Run init es c) (hs : c.stop = false)
    (h : step c t .stopAll = some (c1, es1)) (st : Stops t c1 n d) (hd : d.pc t ≠ .out)
    (hr : ∀ u, d.thread = some u → Serves (d.pc u) = true ∨ d.pc u = .out) :
    n ≤ 4 * (c.num + 1) + 2 * c.flushing.length ∧
    ((∃ u, Serves (d.pc u) = true ∧ (step d u .go).isSome = true ∧ (d.pc u = .runIdle → d.woken u = true)) ∨
     ((∀ u, Serves (d.pc u) = false) ∧
      ∃ e es', step d t .go = some (e, es') ∧ (d.pc t = .stWait → d.woken t = true) ∧ e.pc t ≠ .stWait)) := by
  have r1 : Run init (es ++ es1) c1 := .step r h
  obtain ⟨es2, r2⟩ := stops_run r1 st
  have i := run_stopInv r2
  have w := run_wake r2
  rcases stops_during r1 (stopAll_during (run_stopInv r) (run_wake r) hs h) st with h | h
  · refine ⟨by obtain ⟨L, _, _, hL⟩ := h.bound; omega, ?_⟩
    by_cases hx : ∃ u, Serves (d.pc u) = true
    · obtain ⟨u, hu⟩ := hx
      refine .inl ⟨u, hu, ?_, fun hp => ?_⟩
      · unfold step
        cases hp : d.pc u <;> rw [hp] at hu <;> simp [Serves, InRun] at hu <;> dsimp only
        · rfl
        · repeat' split
          all_goals rfl
        · rfl
        · repeat' split
          all_goals rfl
        · repeat' split
          all_goals rfl
        · rfl
        · rfl
      · cases hw : d.woken u with
        | true => rfl
        | false => have := ((w.ok u hw).1 hp).2; rw [h.stop] at this; cases this
    · have hx : ∀ u, Serves (d.pc u) = false := fun u => by
        cases e : Serves (d.pc u) with
        | false => rfl
        | true => exact absurd ⟨u, e⟩ hx
      refine .inr ⟨hx, ?_⟩
      have h0 : d.num = 0 := by
        obtain ⟨L, l1, l2, l3⟩ := w.cnt
        cases L with
        | nil => exact l3.symm
        | cons y L =>
          have := (l2 y).1 (List.mem_cons_self ..)
          have hy := hx y
          unfold Serves at hy
          rw [this] at hy; cases hy
      have hh := h.here
      cases hp : d.pc t <;> rw [hp] at hh <;> simp [Stopping] at hh
      · refine ⟨d.halted t, [], ?_, fun _ => ?_, ?_⟩
        · simp only [step, hp]; rw [if_pos h0]
        · cases hw : d.woken t with
          | true => rfl
          | false => exact absurd h0 ((w.ok t hw).2.2 hp)
        · unfold Ctx.halted
          split <;> simp [Ctx.at]
      · rename_i u
        have hu : d.pc u = .out := (hr u (i.join t u hp)).resolve_left (by rw [hx u]; simp)
        refine ⟨{ d with thread := none, stop := false }.at t .out, [], by simp only [step, hp]; rw [if_pos hu],
          fun h => (by cases h), by simp [Ctx.at]⟩
  · exact absurd h.out hd

/-- C77: if no thread uses the context, its destructor throws exactly if a store is registered. -/
theorem C77_destructor {es : List Ev} {c : Ctx} (r : Run init es c) (ho : ∀ t, c.pc t = .out) :
    c.destroyThrows = true ↔ ∃ s, life s es ≠ some .gone := by
  have inv := run_inv r inv_init
  have hl := life_of_run r
  have key : c.destroyThrows = true ↔ ∃ s, s ∈ c.waiting ∨ s ∈ c.flushing := by
    unfold Ctx.destroyThrows
    cases hw : c.waiting with
    | cons x l => simp only [List.isEmpty_cons, Bool.not_false, Bool.true_or, true_iff]; exact ⟨x, .inl (List.mem_cons_self ..)⟩
    | nil =>
      cases hf : c.flushing with
      | cons x l => simp only [List.isEmpty_cons, Bool.not_false, Bool.or_true, true_iff]; exact ⟨x, .inr (List.mem_cons_self ..)⟩
      | nil => simp
  rw [key]
  refine exists_congr fun s => ?_
  rw [hl s]
  have hi : c.st s ≠ .intermediate := fun e => by
    obtain ⟨t, ht⟩ := (inv.busy s).1 e
    have : (c.pc t).store = some s := ht
    rw [ho t] at this; cases this
  have h1 : s ∈ c.waiting ↔ c.st s = .waiting := inv.memW s
  have h2 : s ∈ c.flushing ↔ c.st s = .flushing := inv.memF s
  rw [h1, h2]
  cases e : c.st s <;> simp [toLife, e] at hi ⊢

/-- C77 is false for a call of `stop_all` during another one: it returns at once, while a store is being flushed in `run`. -/
theorem C77_second_violated : ∃ es c c1, Run init es c ∧ step c 4 .stopAll = some (c1, []) ∧ c1.pc 4 = .out ∧ InFlush c1 1 10 := by
  have h : (exec init [(0, .insert 10), (1, .run), (1, .go), (1, .go), (1, .go), (3, .stopAll)]).map
      (fun x => (x.1.stop, x.1.pc 4, x.1.pc 1)) = some (true, .out, .runFlush true 10) := by decide
  cases e : exec init [(0, .insert 10), (1, .run), (1, .go), (1, .go), (1, .go), (3, .stopAll)] with
  | none => rw [e] at h; cases h
  | some x =>
    obtain ⟨c, es⟩ := x
    rw [e] at h
    simp only [Option.map_some, Option.some.injEq, Prod.mk.injEq] at h
    obtain ⟨h1, h2, h3⟩ := h
    refine ⟨es, c, c, exec_run e, ?_, h2, .inl ⟨true, h3⟩⟩
    simp only [step, h2, h1, if_true]

/-- C77 is false for a thread in `flush`: `stop_all` returns at once, while that thread is flushing a store. -/
theorem C77_flush_violated : ∃ es c c1, Run init es c ∧ c.stop = false ∧ step c 3 .stopAll = some (c1, []) ∧ c1.pc 3 = .out ∧
    InFlush c1 1 10 := by
  have h : (exec init [(0, .insert 10), (1, .flush), (1, .go)]).map
      (fun x => (x.1.stop, x.1.pc 3, x.1.pc 1, x.1.num, x.1.thread)) = some (false, .out, .flFlush 10, 0, none) := by decide
  cases e : exec init [(0, .insert 10), (1, .flush), (1, .go)] with
  | none => rw [e] at h; cases h
  | some x =>
    obtain ⟨c, es⟩ := x
    rw [e] at h
    simp only [Option.map_some, Option.some.injEq, Prod.mk.injEq] at h
    obtain ⟨h1, h2, h3, h4, h5⟩ := h
    refine ⟨es, c, { (({ c with stop := true }.notifyF).notifyW) with stop := false }.at 3 .out, exec_run e, h1, ?_, ?_, .inr ?_⟩
    · simp only [step, h2, h1, Bool.false_eq_true, if_false]
      rw [if_pos (by exact h4)]
      unfold Ctx.halted
      have : (Ctx.notifyW (Ctx.notifyF { c with stop := true })).thread = none := h5
      rw [this]
    · simp [Ctx.at]
    · simp [Ctx.at, Ctx.notifyW, Ctx.notifyF, h3]

/-- C77 is false for a thread that enters `run` while `stop_all` joins the thread made by `start`: it serves the context after `stop_all` has
returned, and goes on to flush stores. -/
theorem C77_enter_violated : ∃ c es, exec init [(0, .insert 10), (0, .start 5), (5, .go), (3, .stopAll), (5, .go), (5, .go), (3, .go),
      (1, .run), (3, .go), (1, .go), (1, .go), (1, .go)] = some (c, es) ∧ c.pc 3 = .out ∧ c.stop = false ∧ InFlush c 1 10 := by
  have h : (exec init [(0, .insert 10), (0, .start 5), (5, .go), (3, .stopAll), (5, .go), (5, .go), (3, .go),
      (1, .run), (3, .go), (1, .go), (1, .go), (1, .go)]).map
      (fun x => (x.1.pc 3, x.1.stop, x.1.pc 1)) = some (.out, false, .runFlush true 10) := by decide
  cases e : exec init [(0, .insert 10), (0, .start 5), (5, .go), (3, .stopAll), (5, .go), (5, .go), (3, .go),
      (1, .run), (3, .go), (1, .go), (1, .go), (1, .go)] with
  | none => rw [e] at h; cases h
  | some x =>
    obtain ⟨c, es⟩ := x
    rw [e] at h
    simp only [Option.map_some, Option.some.injEq, Prod.mk.injEq] at h
    exact ⟨c, es, rfl, h.1, h.2.1, .inl ⟨_, h.2.2⟩⟩

/-- C77 is false for a store whose flush threw an exception in `flush`: no thread uses the context, the store is registered, and the
destructor does not throw. Later the store refers to a context that is gone. -/
theorem C77_lost_violated : ∃ xs c, RunX init xs c ∧ (∀ t, c.pc t = .out) ∧ life 10 (plain xs) ≠ some .gone ∧
    c.destroyThrows = false := by
  refine ⟨[.ev (.registered 10)] ++ [.ev (.round [10])] ++ [.ev (.started 10)] ++ [.threw 10 false], _,
    .step (t := 1) (a := .throw) (.step (t := 1) (a := .act .go) (.step (t := 1) (a := .act .flush)
      (.step (t := 0) (a := .act (.insert 10)) (.refl init) rfl) rfl) rfl) rfl, fun t => ?_, by decide, by decide⟩
  by_cases ht : t = 1
  · subst ht; decide
  · simp [Ctx.at, Ctx.insert, Ctx.moveAll, Ctx.setSt, Ctx.notifyW, init, ht]

/-! ### The premises are satisfiable -/

/-- Executions during `stop_all` of thread `t`, given by a schedule. -/
private def stopsExec (t : Nat) : Nat → Ctx → List (Nat × Act) → Option (Nat × Ctx)
  | n, c, [] => some (n, c)
  | n, c, (u, a) :: l =>
    if c.pc t = .out ∨ a = .run then none
    else match step c u a with
      | none => none
      | some (e, _) => stopsExec t (n + if Serves (c.pc u) then 1 else 0) e l

private theorem stops_exec {t n m : Nat} {c d e : Ctx} {l : List (Nat × Act)} (s : Stops t c n d)
    (h : stopsExec t n d l = some (m, e)) : Stops t c m e := by
  induction l generalizing n d with
  | nil => cases h; exact s
  | cons x l ih =>
    obtain ⟨u, a⟩ := x
    unfold stopsExec at h
    split at h
    · cases h
    rename_i hn
    cases hs : step d u a with
    | none => rw [hs] at h; cases h
    | some y =>
      obtain ⟨e1, es⟩ := y
      rw [hs] at h
      exact ih (.step s (fun e => hn (.inl e)) (fun e => hn (.inr e)) hs) h

/-- Two stores; a thread made by `start` and another one in `run`, which is flushing store 10 when `stop_all` is called. -/
def stopBefore : List (Nat × Act) :=
  [(0, .insert 10), (0, .insert 11), (0, .start 5), (5, .go), (5, .go), (1, .run), (1, .go), (5, .go), (1, .go), (1, .go)]

example : ∃ es c c1 d, Run init es c ∧ c.stop = false ∧ InRun (c.pc 5) = true ∧ c.pc 1 = .runFlush false 10 ∧ c.flushing = [11] ∧
    c.thread = some 5 ∧ step c 3 .stopAll = some (c1, []) ∧ Stops 3 c1 8 d ∧ d.pc 3 = .out := by
  have h : ((exec init stopBefore).bind fun x => (step x.1 3 .stopAll).bind fun y =>
      (stopsExec 3 0 y.1 [(1, .go), (1, .go), (1, .go), (3, .go), (1, .go), (5, .go), (5, .go), (1, .go), (1, .go), (3, .go), (3, .go)]).map
        fun z => ((x.1.stop, InRun (x.1.pc 5), x.1.pc 1), (x.1.flushing, x.1.thread), y.2, z.1, z.2.pc 3)) =
      some ((false, true, .runFlush false 10), ([11], some 5), [], 8, .out) := by decide
  cases e : exec init stopBefore with
  | none => rw [e] at h; cases h
  | some x =>
    rw [e] at h
    cases e1 : step x.1 3 .stopAll with
    | none => rw [Option.bind_some, e1] at h; cases h
    | some y =>
      rw [Option.bind_some, e1, Option.bind_some] at h
      generalize e2 : stopsExec 3 0 y.1 _ = z at h
      cases z with
      | none => cases h
      | some z =>
        simp only [Option.map_some, Option.some.injEq, Prod.mk.injEq] at h
        obtain ⟨⟨h1, h2, h3⟩, ⟨h4, h5⟩, h6, h7, h8⟩ := h
        refine ⟨x.2, x.1, y.1, z.2, exec_run e, h1, h2, h3, h4, h5, by rw [← h6]; exact e1, ?_, h8⟩
        rw [← h7]
        exact stops_exec .refl e2

end NuDB.Sched
