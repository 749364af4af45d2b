import Verif.Proof.Sched2
/-
C40: the flush scheduler. C50: whether there is always a thread that starts rounds.
-/
namespace NuDB.Sched
open Spec

/-- C40: in every execution, with any number of stores and threads, every store lives by the
rules of `Spec.advance`: each round queues every registered store that is neither queued nor
being flushed from an earlier round, each queued store is flushed once, no store is flushed by two
threads, none is flushed while not registered, and none is unregistered while being flushed. -/
theorem C40 {es : List Ev} {c : Ctx} (r : Run init es c) (s : Nat) :
    ∃ l, life s es = some l ∧ (l = .busy ↔ ∃ t, InFlush c t s) ∧
      ∀ t t', InFlush c t s → InFlush c t' s → t = t' := by
  have inv := run_inv r inv_init
  refine ⟨_, life_of_run r s, ?_, ?_⟩
  · have hb := inv.busy s
    have : toLife (c.st s) = .busy ↔ c.st s = .intermediate := by
      cases c.st s <;> simp [toLife]
    rw [this]
    refine hb.trans ⟨fun ⟨t, h⟩ => ⟨t, inFlush_iff.2 h⟩, fun ⟨t, h⟩ => ⟨t, inFlush_iff.1 h⟩⟩
  · intro t t' h h'
    exact inv.uniq s t t' (inFlush_iff.1 h) (inFlush_iff.1 h')

/-- C40, second half: when `erase` (called by `close`) returns no flush of the store is running,
and none is started or running later, unless the store is registered (opened) again. -/
theorem C40_closed {pre post : List Ev} {c : Ctx} {s : Nat}
    (r : Run init (pre ++ .unregistered s :: post) c) (hn : Ev.registered s ∉ post) :
    life s pre ≠ some .busy ∧ Ev.started s ∉ post ∧ ∀ t, ¬ InFlush c t s := by
  obtain ⟨m, h1, h2⟩ := fold_split (life_of_run r s)
  obtain ⟨m', h3, h4⟩ := fold_cons h2
  have hm : m ≠ .busy ∧ m' = .gone := by
    by_cases hb : m = .busy <;> simp [advance, hb] at h3
    exact ⟨hb, h3.symm⟩
  obtain ⟨hm1, rfl⟩ := hm
  obtain ⟨i1, i2⟩ := gone_stays h4 hn
  refine ⟨?_, i1, ?_⟩
  · show life s pre ≠ _
    unfold life
    rw [h1]
    exact fun h => hm1 (Option.some.inj h)
  · intro t ht
    obtain ⟨l, hl, hb, _⟩ := C40 r s
    have : l = .busy := hb.2 ⟨t, ht⟩
    subst this
    have e := life_of_run r s
    rw [hl, i2] at e
    cases e

/-- C40, first half: a round takes exactly the registered stores that are not still in the queue or
being flushed from an earlier round, and between this and the next round that takes a store, exactly
one flush of it is started, unless it is unregistered before. -/
theorem C40_round {pre post : List Ev} {c : Ctx} {l : List Nat}
    (r : Run init (pre ++ .round l :: post) c) :
    (∀ s, s ∈ l ↔ life s pre = some .idle) ∧
    ∀ s ∈ l, ∀ mid l' rest, post = mid ++ .round l' :: rest → s ∈ l' →
      (∀ xs, Ev.round xs ∈ mid → s ∉ xs) → Ev.unregistered s ∉ mid →
      mid.count (.started s) = 1 := by
  constructor
  · intro s
    obtain ⟨m, h1, h2⟩ := fold_split (life_of_run r s)
    obtain ⟨m', h3, h4⟩ := fold_cons h2
    unfold life
    rw [h1]
    by_cases hs : s ∈ l <;> by_cases hm : m = .idle <;> simp [advance, hs, hm] at h3 <;> simp [hs, hm]
  · intro s hs mid l' rest hp hs' hr hu
    subst hp
    obtain ⟨m, h1, h2⟩ := fold_split (life_of_run r s)
    obtain ⟨m', h3, h4⟩ := fold_cons h2
    obtain ⟨m2, h5, h6⟩ := fold_split h4
    obtain ⟨m3, h7, h8⟩ := fold_cons h6
    have hm : m' = .queued := by
      by_cases hm : m = .idle <;> simp [advance, hs, hm] at h3
      exact h3.symm
    have hm2 : m2 = .idle := by
      by_cases hm : m2 = .idle
      · exact hm
      · simp [advance, hs', hm] at h7
    subst hm hm2
    exact count_started (by simp) h5 hu hr

/-- C40: a queued store's turn comes. Once as many flushes were started (of any stores, by any
threads) as there were stores in the queue, the flush of a store that was queued has been started,
unless the store was unregistered. -/
theorem C40_turn {pre es : List Ev} {c c' : Ctx} (r : Run init pre c) (r' : Run c es c') {s : Nat}
    (hq : life s pre = some .queued) (hc : c.flushing.length ≤ (es.filter isStarted).length) :
    Ev.started s ∈ es ∨ Ev.unregistered s ∈ es := by
  have inv := run_inv r inv_init
  have hs : s ∈ c.flushing := by
    rw [show c.flushing = c.core.flushing from rfl, inv.memF]
    have := life_of_run r s
    rw [hq] at this
    show c.st s = .flushing
    cases hc : c.st s <;> rw [hc] at this <;> first | rfl | cases this
  have gen : (Ev.started s ∈ es ∨ Ev.unregistered s ∈ es) ∨
      (s ∈ c'.flushing ∧ c'.flushing.idxOf s + (es.filter isStarted).length ≤ c.flushing.idxOf s) := by
    clear hc hq
    induction r' with
    | refl => exact .inr ⟨hs, by simp⟩
    | step r1 hstep ih =>
      rcases ih with h | ⟨h1, h2⟩
      · left
        rcases h with h | h
        · exact .inl (List.mem_append_left _ h)
        · exact .inr (List.mem_append_left _ h)
      · rcases fifo_step (core_step hstep) (run_inv r1 inv) h1 with h | ⟨h3, h4⟩
        · left
          rcases h with h | h
          · exact .inl (List.mem_append_right _ h)
          · exact .inr (List.mem_append_right _ h)
        · right
          refine ⟨h3, ?_⟩
          rw [List.filter_append, List.length_append]
          have h4 : (Ctx.core _).flushing.idxOf s + _ ≤ (Ctx.core _).flushing.idxOf s := h4
          simp only [Ctx.core] at h4
          omega
  rcases gen with h | ⟨_, h⟩
  · exact h
  · have := List.idxOf_lt_length_of_mem hs
    omega

/-- C40: a thread leaves the flush loop only when nothing is queued any more. -/
theorem C40_drained {es : List Ev} {c c' : Ctx} {t : Nat} (r : Run init es c)
    (hpc : c.pc t = .flLoop ∨ ∃ f, c.pc t = .runLoop f) (h : step c t .go = some (c', [])) (s : Nat) :
    life s es ≠ some .queued := by
  have hf : c.flushing = [] := by
    cases hl : c.flushing with
    | nil => rfl
    | cons x l =>
      exfalso
      have ht : c.take = some (x, { c.setSt x .intermediate with flushing := l }) := by
        unfold Ctx.take; rw [hl]
      rcases hpc with hp | ⟨f, hp⟩ <;> unfold step at h <;> rw [hp] at h <;> dsimp only at h <;>
        rw [ht] at h <;> simp at h
  rw [life_of_run r s]
  intro h
  have : c.st s = .flushing := by
    cases hc : c.st s <;> rw [hc] at h <;> first | rfl | cases h
  have := ((run_inv r inv_init).memF s).2 this
  rw [show c.core.flushing = c.flushing from rfl, hf] at this
  cases this

/-- Threads 1 and 2 serve two stores; thread 3 closes the first store while thread 2 flushes it. -/
def schedule : List (Nat × Act) :=
  [(1, .run), (2, .run), (0, .insert 10), (0, .insert 11), (2, .go), (1, .go), (1, .go), (2, .go), (2, .go),
   (3, .erase 10), (3, .go), (1, .go), (2, .go), (2, .go), (1, .go), (3, .go), (2, .go)]

/-- What happens: the run meets the premises of `C40`, `C40_closed` (for store 10) and `C40_round`. -/
example : (exec init schedule).map (·.2) =
    some [.registered 10, .registered 11, .round [10, 11], .started 10, .finished 10,
      .started 11, .round [10], .unregistered 10, .finished 11] := by decide

/-- A whole cycle: two rounds, between them one flush of each store; the queue of two is served by
two flushes (`C40_turn`), then the loop ends (`C40_drained`). -/
example : (exec init [(0, .insert 10), (0, .insert 11), (1, .flush), (1, .go), (1, .go), (1, .go), (1, .go),
      (1, .go), (1, .flush)]).map (·.2) =
    some [.registered 10, .registered 11, .round [10, 11], .started 10, .finished 10,
      .started 11, .finished 11, .round [10, 11]] := by decide

/-- C40: no wakeup is lost. A thread that waits and was not notified since has nothing to do: an
idle thread of `run` finds no queued store and no order to stop, `erase` waits for a store that is
really being flushed, and `stop_all` waits while there really are threads in `run`. -/
theorem C40_wakeup {es : List Ev} {c : Ctx} (r : Run init es c) {t : Nat} (hw : c.woken t = false) :
    (c.pc t = .runIdle → c.stop = false ∧ ∀ s, life s es ≠ some .queued) ∧
    (∀ s, c.pc t = .erWait s → ∃ u, InFlush c u s) ∧
    (c.pc t = .stWait → ∃ u, InRun (c.pc u) = true) := by
  have w := run_wake r
  have inv := run_inv r inv_init
  obtain ⟨h1, h2, h3⟩ := w.ok t hw
  refine ⟨fun h => ⟨(h1 h).2, fun s hl => ?_⟩, fun s h => ?_, fun h => ?_⟩
  · rw [life_of_run r s] at hl
    have : c.st s = .flushing := by
      cases hc : c.st s <;> rw [hc] at hl <;> first | rfl | cases hl
    have := (inv.memF s).2 this
    rw [show c.core.flushing = c.flushing from rfl, (h1 h).1] at this
    cases this
  · obtain ⟨u, hu⟩ := (inv.busy s).1 (h2 s h)
    exact ⟨u, inFlush_iff.2 hu⟩
  · obtain ⟨L, _, hm, hl⟩ := w.cnt
    cases L with
    | nil => exact absurd hl.symm (h3 h)
    | cons u L => exact ⟨u, (hm u).1 (List.mem_cons_self ..)⟩

/-- All three kinds of waiting threads occur. -/
example :
    (exec init [(1, .run), (2, .run), (2, .go), (0, .insert 10), (3, .stopAll)]).map
      (fun x => (x.1.pc 2, x.1.woken 2, x.1.pc 3, x.1.woken 3)) = some (.runIdle, true, .stWait, false) ∧
    (exec init [(0, .insert 10), (1, .flush), (1, .go), (3, .erase 10), (2, .run), (4, .run), (4, .go)]).map
      (fun x => (x.1.pc 3, x.1.woken 3, x.1.pc 4, x.1.woken 4)) =
      some (.erWait 10, false, .runIdle, false) := by decide

/-! ### C50 -/

/-- C50, as far as it holds: as long as `stop_all` is not called, whenever threads serve the context
one of them is the thread that starts the rounds. Missing: executions in which `stop_all` is called,
see `C50_orphan`. -/
theorem C50_partial {l : List (Nat × Act)} {c : Ctx} {es : List Ev} (hn : ∀ x ∈ l, x.2 ≠ .stopAll)
    (h : exec init l = some (c, es)) (hr : ∃ t, InRun (c.pc t) = true) : ∃ t, Leads (c.pc t) = true := by
  rcases exec_leads hn rfl (fun x => ⟨by simp [init], by simp [init], by simp [init]⟩) (.inl rfl) h with h0 | h1
  · obtain ⟨t, ht⟩ := hr
    have := (run_wake (exec_run h)).cnt
    rw [h0] at this
    rw [this.none t] at ht; cases ht
  · exact h1

example : (exec init [(1, .run), (2, .run), (0, .insert 10), (2, .go), (1, .go), (1, .go), (2, .go), (2, .go)]).map
    (fun x => (x.1.pc 1, x.1.pc 2)) = some (.runTop true, .runFlush false 10) := by decide

/-- Threads 4 and 5 enter `run` while thread 3 is inside `stop_all`, joining the thread made by
`start`: thread 4 leaves because it sees `stop_`, thread 5 stays. -/
def orphanSchedule : List (Nat × Act) :=
  [(0, .insert 10), (1, .start 2), (2, .go), (3, .stopAll), (2, .go), (2, .go), (3, .go), (4, .run), (4, .go),
   (5, .run), (3, .go), (5, .go), (4, .go)]

/-- C50 fails: if threads enter `run` while `stop_all` joins, a state can be reached in which a
store is open, a thread serves the context and nobody stops it, but no round is ever started again,
whatever else is called (`start`, `run` by further threads, `flush`, `insert`), until `stop_all`
is called once more. -/
theorem C50_orphan : ∃ c es, Run init es c ∧ c.stop = false ∧ InRun (c.pc 5) = true ∧ life 10 es = some .idle ∧
    ∀ l c' es', (∀ x ∈ l, x.2 ≠ Act.stopAll) → exec c l = some (c', es') → ∀ r, Ev.round r ∉ es' := by
  have hex : (exec init orphanSchedule).isSome = true := by decide
  obtain ⟨⟨c, es⟩, he⟩ := Option.isSome_iff_exists.1 hex
  have r := exec_run he
  have f1 : (exec init orphanSchedule).map (fun x => (x.1.stop, [x.1.pc 5, x.1.pc 0, x.1.pc 1, x.1.pc 2, x.1.pc 3, x.1.pc 4]))
      = some (false, [.runIdle, .out, .out, .out, .out, .out]) := by decide
  have f2 : (exec init orphanSchedule).map (fun x => life 10 x.2) = some (some .idle) := by decide
  have f3 : (exec init orphanSchedule).map (fun x => x.1.num) = some 1 := by decide
  rw [he] at f1 f2 f3
  simp only [Option.map_some, Option.some.injEq, Prod.mk.injEq, List.cons.injEq, and_true] at f1 f2 f3
  obtain ⟨a1, a2, a3, a4, a5, a6, a7⟩ := f1
  refine ⟨c, es, r, a1, by rw [a2]; rfl, f2, ?_⟩
  intro l c' es' hn hl
  have w := run_wake r
  refine exec_orphan hn w (run_inv r inv_init) ⟨a1, by rw [a2]; simp, by rw [a2]; rfl, ?_⟩ hl
  -- the other threads never did anything
  have others : ∀ (l : List (Nat × Act)) (c c' : Ctx) (es : List Ev), exec c l = some (c', es) → ∀ x,
      (∀ y ∈ l, y.1 ≠ x ∧ ∀ u, y.2 = .start u → u ≠ x) → c'.pc x = c.pc x := by
    intro l
    induction l with
    | nil => intro c c' es h x _; cases h; rfl
    | cons y l ih =>
      intro c c' es h x hy
      obtain ⟨t, a⟩ := y
      unfold exec at h
      cases hst : step c t a with
      | none => rw [hst] at h; cases h
      | some z =>
        obtain ⟨c1, e1⟩ := z
        rw [hst] at h
        dsimp only at h
        cases hr : exec c1 l with
        | none => rw [hr] at h; cases h
        | some z =>
          obtain ⟨c2, e2⟩ := z
          rw [hr] at h
          cases h
          rw [ih _ _ _ hr x (fun y h => hy y (List.mem_cons_of_mem _ h))]
          obtain ⟨k1, k2⟩ := hy _ (List.mem_cons_self ..)
          exact step_other hst (Ne.symm k1) (fun u e => Ne.symm (k2 u e))
  intro x
  by_cases hx : x ≤ 5
  · have : x = 0 ∨ x = 1 ∨ x = 2 ∨ x = 3 ∨ x = 4 ∨ x = 5 := by omega
    rcases this with rfl | rfl | rfl | rfl | rfl | rfl
    · rw [a3]; simp [Leads]
    · rw [a4]; simp [Leads]
    · rw [a5]; simp [Leads]
    · rw [a6]; simp [Leads]
    · rw [a7]; simp [Leads]
    · rw [a2]; simp [Leads]
  · rw [others _ _ _ _ he x ?_]
    · simp [init, Leads]
    · intro y hy
      have : ∀ y ∈ orphanSchedule, y.1 ≤ 5 ∧ (∀ u, y.2 = .start u → u ≤ 5) := by
        simp [orphanSchedule]
      obtain ⟨k1, k2⟩ := this y hy
      exact ⟨by omega, fun u e => by have := k2 u e; omega⟩

end NuDB.Sched
