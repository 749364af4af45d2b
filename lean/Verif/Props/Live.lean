import Verif.Proof.Live2
import Verif.Props.Concurrent
/-
C66: calls return and flushes complete. See Spec/Live for infinite executions and fairness.
-/
namespace NuDB

open Spec Conc

section
variable {c : Cfg} {a : CreateArgs} {lf : Nat} {short : Prop} {s : Store} {fs : Fs} {m : Map} {before : List Act}
  {x : Nat → Sys} {act : Nat → Act} {e : Nat → List Ev} {tr : List Ev} {t i : Nat} {k : Bytes}

theorem execution_inv (hc : Creatable a lf) (hs : Started c a short s fs m)
    (hr : run c before (Sys.init s fs) = some (x 0, tr)) (hx : Execution c x act e) (i : Nat) :
    ∃ lo nx F tr', Inv c (a.conf lf) m lo nx F (x i) tr' ∧
      (¬ Faults before → (∀ j, ¬ Act.Faulty (act j)) → ¬ F) := by
  obtain ⟨lo, nx, h⟩ := inv_reached hc hs hr
  obtain ⟨acts, tr', h1, h2⟩ := execution_run hx i
  obtain ⟨lo', nx', h'⟩ := inv_run h h1
  refine ⟨lo', nx', _, _, h', fun n1 n2 => ?_⟩
  rintro (hf | ⟨b, hb, hf⟩)
  · exact n1 hf
  · obtain ⟨j, rfl⟩ := h2 b hb
    exact n2 j hf

/-- A thread in `fetch` returns. -/
theorem fetch_returns (hc : Creatable a lf) (hs : Started c a short s fs m)
    (hr : run c before (Sys.init s fs) = some (x 0, tr)) (hx : Execution c x act e) (hf : Fair c x act t)
    (hi : inFetch ((x i).pc t) = true) : ∃ j, i ≤ j ∧ ReturnsAt e t j := by
  refine returns_of_able hx hf (fun h => by rw [h] at hi; cases hi) fun hin _ j hj => ?_
  have hj' := keeps fetch_moves hx hi hin j hj
  obtain ⟨lo, nx, F, tr', h, -⟩ := execution_inv hc hs hr hx j
  rcases able_thread h (hin j hj) with h | ⟨k, v, h, _⟩ | ⟨k, v, h, _⟩
  · exact h
  · rw [h] at hj'; cases hj'
  · rw [h] at hj'; cases hj'

/-- C66: every `fetch` returns, whatever the other threads and the flusher do, also if they
never stop and also if file operations fail: it is enough that the scheduler is fair to the
thread that called it. -/
theorem C66 (hc : Creatable a lf) (hs : Started c a short s fs m)
    (hr : run c before (Sys.init s fs) = some (x 0, tr)) (hx : Execution c x act e) (hf : Fair c x act t)
    (hcall : act i = .call t (.fetch k)) : ∃ j, i < j ∧ ReturnsAt e t j := by
  have hi : inFetch ((x (i + 1)).pc t) = true := by
    have h := hx i
    rw [hcall] at h
    simp only [step] at h
    split at h
    · split at h
      · rw [← (Prod.mk.inj (Option.some.inj h)).1, goto_self]; rfl
      · cases h
    · cases h
  obtain ⟨j, h1, h2⟩ := fetch_returns hc hs hr hx hf hi
  exact ⟨j, h1, h2⟩

/-- C66: any call returns if its thread is given steps again and again. (A thread that waits
for a mutex is given no steps.) -/
theorem C66_steps (hx : Execution c x act e) {op : COp} (hcall : act i = .call t op)
    (hs : ∀ l, ∃ j f, l ≤ j ∧ act j = .go t f) : ∃ j, i < j ∧ ReturnsAt e t j := by
  have h := hx i
  rw [hcall] at h
  exact returns_of_steps hx (step_call h).2 hs

/-- C66: calls go on returning, however many are made: whenever some thread is in a call,
some call returns later. -/
theorem C66_some (hc : Creatable a lf) (hs : Started c a short s fs m)
    (hr : run c before (Sys.init s fs) = some (x 0, tr)) (hx : Execution c x act e) (hf : ∀ t, Fair c x act t)
    (hi : (x i).pc t ≠ .out) : ∃ j u, i ≤ j ∧ ReturnsAt e u j := by
  apply Classical.byContradiction
  intro hn
  have hn : ∀ u j, i ≤ j → ¬ ReturnsAt e u j := fun u j hj h => hn ⟨j, u, hj, h⟩
  have nofetch : ∀ u l, i ≤ l → inFetch ((x l).pc u) = false := by
    intro u l hl
    refine Bool.eq_false_iff.mpr fun h => ?_
    obtain ⟨j, h1, h2⟩ := fetch_returns hc hs hr hx (hf u) h
    exact hn u j (by omega) h2
  -- a thread that holds `u_` goes on
  have noowner : ∀ u l, i ≤ l → holdsU ((x l).pc u) = false := by
    intro u l hl
    refine Bool.eq_false_iff.mpr fun h => ?_
    have hne : (x l).pc u ≠ .out := by intro e; rw [e] at h; cases h
    have hown : inOwner ((x l).pc u) = true := by
      revert h
      cases (x l).pc u <;> intro h <;> first | rfl | cases h
    obtain ⟨j, h1, h2⟩ := returns_of_able hx (hf u) hne (by
      intro hin _ j hj
      have hj' := keeps owner_moves hx hown hin j hj
      obtain ⟨lo, nx, F, tr', h, -⟩ := execution_inv hc hs hr hx j
      rcases able_thread h (hin j hj) with h | ⟨k, v, h, _⟩ | ⟨k, v, hp, hsh⟩
      · exact h
      · rw [h] at hj'; cases hj'
      · exfalso
        obtain ⟨w, hw⟩ := List.exists_mem_of_ne_nil _ hsh
        have hC := (h.sh.iff w).mp hw
        have hnf := nofetch w j (by omega)
        have hw2 : holdsU ((x j).pc w) = true := by
          revert hC hnf
          cases (x j).pc w <;> intro hC hnf <;> first | rfl | (cases hC; done) | (cases hnf; done)
        have e1 := (h.ow w).mpr hw2
        have e2 := (h.ow u).mpr (by rw [hp]; rfl)
        have : w = u := by rw [e1] at e2; exact Option.some.inj e2
        subst this
        rw [hp] at hC
        cases hC)
    exact hn u j (by omega) h2
  obtain ⟨j, h1, h2⟩ := returns_of_able hx (hf t) hi (by
    intro hin _ j hj
    obtain ⟨lo, nx, F, tr', h, -⟩ := execution_inv hc hs hr hx j
    rcases able_thread h (hin j hj) with h | ⟨k, v, _, ho⟩ | ⟨k, v, hp, _⟩
    · exact h
    · exfalso
      obtain ⟨u, hu⟩ := Option.ne_none_iff_exists'.mp ho
      have := (h.ow u).mp hu
      rw [noowner u j hj] at this
      cases this
    · exfalso
      have := noowner t j hj
      rw [hp] at this
      cases this)
  exact hn t j h1 h2

/-- Finitely many threads are in calls. -/
theorem finitely_many (hr : run c before (Sys.init s fs) = some (x 0, tr)) (hx : Execution c x act e) (i : Nat) :
    ∃ B, ∀ u, B ≤ u → (x i).pc u = .out := by
  have one : ∀ {y z : Sys} {b : Act} {es : List Ev} {B : Nat}, step c y b = some (z, es) → (∀ u, B ≤ u → y.pc u = .out) →
      ∃ B', ∀ u, B' ≤ u → z.pc u = .out := by
    intro y z b es B h hB
    have go : ∀ B', B ≤ B' → (∀ u op, B' ≤ u → b ≠ .call u op) → ∀ u, B' ≤ u → z.pc u = .out := by
      intro B' hle hcall u hu
      rw [step_other h (fun f hb => ?_) (fun op => hcall u op hu)]
      · exact hB u (by omega)
      · subst hb
        have := step_go h
        simp [threadStep, hB u (by omega)] at this
    by_cases hcall : ∃ u op, b = .call u op
    · obtain ⟨u, op, rfl⟩ := hcall
      exact ⟨_, go (max B (u + 1)) (by omega) (fun w op' hw h => by cases h; omega)⟩
    · exact ⟨_, go B (Nat.le_refl _) (fun w op' hw h => hcall ⟨w, op', h⟩)⟩
  have many : ∀ (acts : List Act) (y z : Sys) (es : List Ev) (B : Nat), run c acts y = some (z, es) →
      (∀ u, B ≤ u → y.pc u = .out) → ∃ B', ∀ u, B' ≤ u → z.pc u = .out := by
    intro acts
    induction acts with
    | nil => intro y z es B h hB; cases h; exact ⟨B, hB⟩
    | cons b acts ih =>
      intro y z es B h hB
      obtain ⟨w, es1, es2, h1, h2, _⟩ := run_cons h
      obtain ⟨B', hB'⟩ := one h1 hB
      exact ih w z es2 B' h2 hB'
  obtain ⟨B, hB⟩ := many before _ _ _ 0 hr (fun u _ => rfl)
  obtain ⟨acts, tr', h1, _⟩ := execution_run hx i
  exact many acts _ _ _ B h1 hB

/-- C66: when no more calls are made, all calls return: from some time on no thread is in a
call. -/
theorem C66_calls (hc : Creatable a lf) (hs : Started c a short s fs m)
    (hr : run c before (Sys.init s fs) = some (x 0, tr)) (hx : Execution c x act e) (hf : ∀ t, Fair c x act t)
    (hn : NoCalls act i) : ∃ j, i ≤ j ∧ ∀ l t, j ≤ l → (x l).pc t = .out := by
  obtain ⟨B, hB⟩ := finitely_many hr hx i
  have hout : ∀ l, i ≤ l → ∀ u, B ≤ u → (x l).pc u = .out := by
    intro l
    induction l with
    | zero => intro h; rw [show i = 0 by omega] at hB; exact hB
    | succ l ih =>
      intro h u hu
      by_cases h0 : i = l + 1
      · rw [← h0]; exact hB u hu
      · have hl := ih (by omega) u hu
        rw [step_other (hx l) (fun f hb => ?_) (fun op => hn l u op (by omega))]
        · exact hl
        · have h := hx l
          rw [hb] at h
          have := step_go h
          simp [threadStep, hl] at this
  -- nobody goes on
  obtain ⟨N, hN, hstill⟩ : ∃ N, i ≤ N ∧ ∀ j, N ≤ j → ∀ u f, u < B → act j ≠ .go u f := by
    clear hB hout
    induction B with
    | zero => exact ⟨i, Nat.le_refl _, fun j _ u f h => absurd h (Nat.not_lt_zero _)⟩
    | succ B ih =>
      obtain ⟨N, n1, n2⟩ := ih
      obtain ⟨N', n1', n2'⟩ := thread_finite (t := B) (i := i) hx fun j op hj => hn j B op hj
      refine ⟨max N N', by omega, fun j hj u f hu => ?_⟩
      by_cases h : u = B
      · subst h; exact n2' j (by omega) f
      · exact n2 j (by omega) u f (by omega)
  have hno : ∀ j, N ≤ j → ∀ u f, act j ≠ .go u f := by
    intro j hj u f h
    by_cases hu : u < B
    · exact hstill j hj u f hu h
    · have hs := hx j
      rw [h] at hs
      have := step_go hs
      simp [threadStep, hout j (by omega) u (by omega)] at this
  have hsame : ∀ j, N ≤ j → (∀ u, (x j).pc u = (x N).pc u) ∧ (x j).owner = (x N).owner ∧ (x j).shared = (x N).shared := by
    intro j
    induction j with
    | zero => intro h; rw [show N = 0 by omega]; exact ⟨fun _ => rfl, rfl, rfl⟩
    | succ j ih =>
      intro h
      by_cases h0 : N = j + 1
      · rw [← h0]; exact ⟨fun _ => rfl, rfl, rfl⟩
      · obtain ⟨h1, h2, h3⟩ := ih (by omega)
        obtain ⟨g2, g3⟩ := step_locks (hx j) (hno j (by omega))
        refine ⟨fun u => ?_, by rw [g2, h2], by rw [g3, h3]⟩
        rw [step_other (hx j) (hno j (by omega) u) (fun op => hn j u op (by omega)), h1]
  -- everybody waits
  have hwait : ∀ u, (x N).pc u ≠ .out → (∃ k v, (x N).pc u = .ins1 k v ∧ (x N).owner ≠ none) ∨
      (∃ k v, (x N).pc u = .ins3 k v ∧ (x N).shared ≠ []) := by
    intro u hu
    apply Classical.byContradiction
    intro hcon
    obtain ⟨j, f, hj, h⟩ := hf u N (by
      intro j hj
      obtain ⟨h1, h2, h3⟩ := hsame j hj
      obtain ⟨lo, nx, F, tr', h, -⟩ := execution_inv hc hs hr hx j
      rcases able_thread h (by rw [h1]; exact hu) with h | h | h
      · exact h
      · rw [h1, h2] at h; exact absurd (.inl h) hcon
      · rw [h1, h3] at h; exact absurd (.inr h) hcon)
    exact hno j hj u f h
  obtain ⟨lo, nx, F, tr', hinv, -⟩ := execution_inv hc hs hr hx N
  have hsh : (x N).shared = [] := by
    apply Classical.byContradiction
    intro h
    obtain ⟨w, hw⟩ := List.exists_mem_of_ne_nil _ h
    have hC := (hinv.sh.iff w).mp hw
    rcases hwait w (by intro e; rw [e] at hC; cases hC) with ⟨k, v, h, _⟩ | ⟨k, v, h, _⟩ <;> (rw [h] at hC; cases hC)
  have hall : ∀ u, (x N).pc u = .out := by
    intro u
    apply Classical.byContradiction
    intro hu
    rcases hwait u hu with ⟨k, v, _, ho⟩ | ⟨k, v, _, h⟩
    · obtain ⟨w, hw⟩ := Option.ne_none_iff_exists'.mp ho
      have hU := (hinv.ow w).mp hw
      rcases hwait w (by intro e; rw [e] at hU; cases hU) with ⟨k, v, h, _⟩ | ⟨k, v, _, h⟩
      · rw [h] at hU; cases hU
      · exact h hsh
    · exact h hsh
  exact ⟨N, hN, fun l u hl => by rw [(hsame l hl).1]; exact hall u⟩

/-- C66: a flush completes. When no more calls are made and no more flushes are started, and
no file operation fails, then from some time on no flush is running; or a flush has reached
the limits of the file format (see C51_flusher). -/
theorem C66_flush (hc : Creatable a lf) (hs : Started c a short s fs m)
    (hr : run c before (Sys.init s fs) = some (x 0, tr)) (hx : Execution c x act e) (hf : ∀ t, Fair c x act t)
    (hfl : FairFlusher c x act) (hn : NoCalls act i) (hn' : NoFlushes act i)
    (hok : ¬ Faults before) (hok' : ∀ j, ¬ Act.Faulty (act j)) :
    (∃ j, i ≤ j ∧ ∀ l, j ≤ l → (x l).fl = .idle) ∨
    ∃ j, 2 ^ 32 < (x j).s.buckets + (x j).s.p0.length ∨ Big (x j).fs := by
  obtain ⟨N, n1, n2⟩ := C66_calls hc hs hr hx hf hn
  obtain ⟨M, m1, m2⟩ := flusher_finite hx hn'
  have hsame : ∀ j, max N M ≤ j → (x j).fl = (x (max N M)).fl := by
    intro j
    induction j with
    | zero => intro h; rw [show max N M = 0 by omega]
    | succ j ih =>
      intro h
      by_cases h0 : max N M = j + 1
      · rw [← h0]
      · rw [step_fl (hx j) (m2 j (by omega)) (hn' j (by omega)), ih (by omega)]
  by_cases hidle : (x (max N M)).fl = .idle
  · exact .inl ⟨max N M, by omega, fun l hl => by rw [hsame l hl, hidle]⟩
  · apply Classical.byContradiction
    intro hcon
    obtain ⟨j, f, hj, h⟩ := hfl (max N M) (by
      intro j hj
      obtain ⟨lo, nx, F, tr', h, hF⟩ := execution_inv hc hs hr hx j
      rcases able_flusher h (hF hok hok') (by rw [hsame j hj]; exact hidle) with h | hsh | hw | hlim
      · exact h
      · exfalso
        obtain ⟨w, hw⟩ := List.exists_mem_of_ne_nil _ hsh
        have hC := (h.sh.iff w).mp hw
        rw [n2 j w (by omega)] at hC
        cases hC
      · exfalso
        obtain ⟨w, g, hg, _⟩ := waiting_old h hw
        rw [n2 j w (by omega)] at hg
        cases hg
      · exact absurd (.inr ⟨j, hlim⟩) hcon)
    exact m2 j (by omega) f h

/-- A thread does not hold a generation forever. -/
theorem generation_left (hc : Creatable a lf) (hs : Started c a short s fs m)
    (hr : run c before (Sys.init s fs) = some (x 0, tr)) (hx : Execution c x act e) (hf : Fair c x act t) (i g : Nat) :
    ∃ j, i ≤ j ∧ genOf ((x j).pc t) ≠ some g := by
  apply Classical.byContradiction
  intro hn
  have hn : ∀ j, i ≤ j → genOf ((x j).pc t) = some g := fun j hj =>
    Classical.byContradiction fun h => hn ⟨j, hj, h⟩
  have hin : ∀ j, i ≤ j → (x j).pc t ≠ .out := by
    intro j hj h
    have := hn j hj
    rw [h] at this
    cases this
  obtain ⟨N, n1, n2⟩ := thread_finite (t := t) (i := i) hx fun j op hj h => by
    have hs := hx j
    rw [h] at hs
    exact hin j hj (step_call hs).1
  obtain ⟨j, f, hj, h⟩ := hf N (by
    intro j hj
    obtain ⟨lo, nx, F, tr', h, -⟩ := execution_inv hc hs hr hx j
    have hg := hn j (by omega)
    rcases able_thread h (hin j (by omega)) with h | ⟨k, v, h, _⟩ | ⟨k, v, h, _⟩
    · exact h
    · rw [h] at hg; cases hg
    · rw [h] at hg; cases hg)
  exact n2 j hj f h

/-- C66: a flush completes also while calls are made without end. Besides fairness this needs
moments when no thread holds the mutex shared, and that the flusher is not overtaken at
these forever. As long as no file operation fails, a flush that is running at time `i`
completes later, or has reached the limits of the file format. -/
theorem C66_flush_busy (hc : Creatable a lf) (hs : Started c a short s fs m)
    (hr : run c before (Sys.init s fs) = some (x 0, tr)) (hx : Execution c x act e) (hf : ∀ t, Fair c x act t)
    (hfl : StrongFlusher c x act) (hgap : Gaps x) (hok : ¬ Faults before) (hok' : ∀ j, ¬ Act.Faulty (act j)) (i : Nat) :
    (∃ j, i ≤ j ∧ (x j).fl = .idle) ∨ ∃ j, 2 ^ 32 < (x j).s.buckets + (x j).s.p0.length ∨ Big (x j).fs := by
  apply Classical.byContradiction
  intro hcon
  have hrun : ∀ j, i ≤ j → (x j).fl ≠ .idle := fun j hj h => hcon (.inl ⟨j, hj, h⟩)
  have hlim : ∀ j, ¬ AtLimit (x j) := fun j h => hcon (.inr ⟨j, h⟩)
  have hn' : NoFlushes act i := by
    intro j hj h
    have hs := hx j
    rw [h] at hs
    simp only [step, flushStart] at hs
    obtain ⟨z, hz, _⟩ := Option.map_eq_some_iff.mp hs
    split at hz
    · rename_i h; exact hrun j hj h
    · cases hz
  obtain ⟨M, m1, m2⟩ := flusher_finite hx hn'
  have hsame : ∀ l j, M ≤ l → l ≤ j → (x j).fl = (x l).fl := by
    intro l j hl
    induction j with
    | zero => intro h; rw [show l = 0 by omega]
    | succ j ih =>
      intro h
      by_cases h0 : l = j + 1
      · rw [← h0]
      · rw [step_fl (hx j) (m2 j (by omega)) (hn' j (by omega)), ih (by omega)]
  suffices hall : ∀ l, M ≤ l → ∃ j, l ≤ j ∧ ∃ z, step c (x j) (.goF .none) = some z by
    obtain ⟨j, f, hj, h⟩ := hfl M hall
    exact m2 j hj f h
  intro l hl
  apply Classical.byContradiction
  intro hno
  -- the flusher waits for readers
  have hwait : ∀ j, l ≤ j → (x j).shared = [] → Waiting c (x j) := by
    intro j hj hsh
    obtain ⟨lo, nx, F, tr', h, hF⟩ := execution_inv hc hs hr hx j
    rcases able_flusher h (hF hok hok') (hrun j (by omega)) with h | h | h | h
    · exact absurd ⟨j, hj, h⟩ hno
    · exact absurd hsh h
    · exact h
    · exact absurd h (hlim j)
  obtain ⟨j0, g1, g2⟩ := hgap l
  obtain ⟨⟨u, hu⟩, _⟩ := hwait j0 g1 g2
  have hann : ∀ j, l ≤ j → Announced (x j).fl := by
    intro j hj
    rw [hsame l j hl hj, ← hsame l j0 hl g1, hu]
    trivial
  have hold : ∀ j j', l ≤ j → j ≤ j' → (x j').g.gen = (x j).g.gen ∧
      ∀ u g, genOf ((x j').pc u) = some g → genOf ((x j).pc u) = some g ∨ g = (x j).g.gen := by
    intro j j' h1 h2
    obtain ⟨acts, tr', h3, h4⟩ := execution_from hx (j' - j) j
    rw [show j + (j' - j) = j' by omega] at h3
    refine announced_run (hann j h1) (fun hb => ?_) h3
    obtain ⟨q, hq, e⟩ := h4 _ hb
    exact hn' q (by omega) e.symm
  obtain ⟨B, hB⟩ := finitely_many hr hx l
  -- they leave
  have hleave : ∀ t, ∃ L, l ≤ L ∧ ∀ j g, L ≤ j → g < (x j).g.gen → genOf ((x j).pc t) ≠ some g := by
    intro t
    by_cases hg : ∃ g, genOf ((x l).pc t) = some g
    · obtain ⟨g, hg⟩ := hg
      obtain ⟨L, l1, l2⟩ := generation_left hc hs hr hx (hf t) l g
      refine ⟨L, l1, fun j g' hj hlt h => ?_⟩
      obtain ⟨a1, a2⟩ := hold L j l1 hj
      obtain ⟨b1, b2⟩ := hold l L (Nat.le_refl _) l1
      rcases a2 t g' h with h | h
      · rcases b2 t g' h with h' | h'
        · rw [hg] at h'
          cases h'
          exact l2 h
        · omega
      · omega
    · refine ⟨l, Nat.le_refl _, fun j g hj hlt h => ?_⟩
      obtain ⟨a1, a2⟩ := hold l j (Nat.le_refl _) hj
      rcases a2 t g h with h | h
      · exact hg ⟨g, h⟩
      · omega
  obtain ⟨L, hL, hgone⟩ : ∃ L, l ≤ L ∧ ∀ t, t < B → ∀ j g, L ≤ j → g < (x j).g.gen → genOf ((x j).pc t) ≠ some g := by
    clear hB
    induction B with
    | zero => exact ⟨l, Nat.le_refl _, fun t h => absurd h (Nat.not_lt_zero _)⟩
    | succ B ih =>
      obtain ⟨L, l1, l2⟩ := ih
      obtain ⟨L', l1', l2'⟩ := hleave B
      refine ⟨max L L', by omega, fun t ht j g hj => ?_⟩
      by_cases h : t = B
      · subst h; exact l2' j g (by omega)
      · exact l2 t (by omega) j g (by omega)
  obtain ⟨j, hj, hsh⟩ := hgap L
  obtain ⟨lo, nx, F, tr', hinv, -⟩ := execution_inv hc hs hr hx j
  obtain ⟨t, g, h1, h2⟩ := waiting_old hinv (hwait j (by omega) hsh)
  by_cases ht : t < B
  · exact hgone t ht j g hj h2 h1
  · obtain ⟨a1, a2⟩ := hold l j (Nat.le_refl _) (by omega)
    rcases a2 t g h1 with h | h
    · rw [hB t (by omega)] at h; cases h
    · omega

end

/- Examples. -/

/-- A finite execution, followed by nothing. -/
theorem execution_of_run {c : Cfg} : ∀ {acts : List Act} {y z : Sys} {tr : List Ev}, run c acts y = some (z, tr) →
    ∃ (x : Nat → Sys) (e : Nat → List Ev), Execution c x (fun i => acts.getD i (.part z.wr)) e ∧ x 0 = y ∧
      ∀ i, acts.length ≤ i → x i = z := by
  intro acts
  induction acts with
  | nil =>
    intro y z tr h
    cases h
    refine ⟨fun _ => y, fun _ => [], fun i => ?_, rfl, fun _ _ => rfl⟩
    simp [step]
  | cons b acts ih =>
    intro y z tr h
    obtain ⟨w, es1, es2, h1, h2, _⟩ := run_cons h
    obtain ⟨x, e, h3, h4, h5⟩ := ih h2
    refine ⟨fun i => if i = 0 then y else x (i - 1), fun i => if i = 0 then es1 else e (i - 1), fun i => ?_, by simp,
      fun i hi => ?_⟩
    · cases i with
      | zero => simp [h1, h4]
      | succ i => simpa using h3 i
    · cases i with
      | zero => simp at hi
      | succ i => simpa using h5 i (by simpa using hi)

/-- Threads that do not occur stay where they are. -/
theorem run_other {c : Cfg} {u : Nat} : ∀ {acts : List Act} {y z : Sys} {tr : List Ev}, run c acts y = some (z, tr) →
    (∀ b ∈ acts, (∀ f, b ≠ .go u f) ∧ ∀ op, b ≠ .call u op) → z.pc u = y.pc u := by
  intro acts
  induction acts with
  | nil => intro y z tr h _; cases h; rfl
  | cons b acts ih =>
    intro y z tr h hn
    obtain ⟨w, es1, es2, h1, h2, _⟩ := run_cons h
    rw [ih h2 (fun b hb => hn b (List.mem_cons_of_mem _ hb))]
    exact step_other h1 (hn b (by simp)).1 (hn b (by simp)).2

def isOut : Pc → Bool
  | .out => true
  | _ => false

theorem isOut_eq {p : Pc} (h : isOut p = true) : p = .out := by
  cases p <;> first | rfl | cases h

/-- Threads 1, 2 and 3 insert and fetch during a flush, and all of this completes. -/
def calmActs : List Act :=
  actsA ++ actsB ++ actsC ++ List.replicate 5 (.go 2 .none) ++ List.replicate 6 (.goF .none)

def calmTest (x : Sys) : Bool :=
  match run sharedCfg calmActs x with
  | none => false
  | some (x, _) => isOut (x.pc 1) && isOut (x.pc 2) && isOut (x.pc 3) && match x.fl with | .idle => true | _ => false

/-- An execution that comes to rest. -/
theorem calm_runs : ∃ s fs m z tr, Started sharedCfg demoArgs False s fs m ∧
    run sharedCfg calmActs (Sys.init s fs) = some (z, tr) ∧ (∀ t, z.pc t = .out) ∧ z.fl = .idle := by
  obtain ⟨s, fs, m, h, ht⟩ := demo_shared (P := calmTest) (by decide +kernel)
  unfold calmTest at ht
  split at ht
  · cases ht
  · rename_i z tr h1
    simp only [Bool.and_eq_true] at ht
    obtain ⟨⟨⟨t1, t2⟩, t3⟩, tf⟩ := ht
    refine ⟨s, fs, m, z, tr, h, h1, fun t => ?_, ?_⟩
    · by_cases e1 : t = 1
      · subst e1; exact isOut_eq t1
      by_cases e2 : t = 2
      · subst e2; exact isOut_eq t2
      by_cases e3 : t = 3
      · subst e3; exact isOut_eq t3
      refine run_other (u := t) h1 fun b hb => ?_
      simp only [calmActs, actsA, actsB, actsC, List.mem_append, List.mem_replicate, List.mem_cons, List.not_mem_nil,
        or_false] at hb
      constructor
      · rintro f rfl
        simp at hb
        omega
      · rintro op rfl
        simp at hb
        omega
    · revert tf
      cases z.fl <;> intro h <;> first | rfl | cases h

/- The hypotheses of C66, C66_some (at time 1), C66_calls, C66_flush and
C66_flush_busy (a flush is running at time 18). -/
example : ∃ s fs m, Started sharedCfg demoArgs False s fs m ∧ ∃ (x : Nat → Sys) (act : Nat → Act) (e : Nat → List Ev),
    run sharedCfg [] (Sys.init s fs) = some (x 0, []) ∧ Execution sharedCfg x act e ∧ (∀ t, Fair sharedCfg x act t) ∧
    FairFlusher sharedCfg x act ∧ StrongFlusher sharedCfg x act ∧ Gaps x ∧ act 13 = .call 3 (.fetch [6, 1]) ∧ (x 1).pc 1 ≠ .out ∧ NoCalls act 60 ∧
    NoFlushes act 60 ∧ ∀ j, ¬ Act.Faulty (act j) := by
  obtain ⟨s, fs, m, z, tr, h, h1, h2, h3⟩ := calm_runs
  obtain ⟨x, e, h4, h5, h6⟩ := execution_of_run h1
  have hlen : calmActs.length = 53 := by decide
  have hlast : ∀ j, 53 ≤ j → calmActs.getD j (.part z.wr) = .part z.wr := by
    intro j hj
    rw [List.getD_eq_getElem?_getD, List.getElem?_eq_none (by omega)]
    rfl
  refine ⟨s, fs, m, h, x, _, e, by rw [h5]; rfl, h4, ?_, ?_, ?_, ?_, rfl, ?_, ?_, ?_, ?_⟩
  · intro t i hi
    obtain ⟨w, hw⟩ := hi (max i 53) (by omega)
    rw [h6 _ (by omega)] at hw
    simp [step, Fault.mild, threadStep, h2] at hw
  · intro i hi
    obtain ⟨w, hw⟩ := hi (max i 53) (by omega)
    rw [h6 _ (by omega)] at hw
    simp [step, Fault.mild, flusherStep, h3] at hw
  · intro i hi
    obtain ⟨j, hj, w, hw⟩ := hi (max i 53) (by omega)
    rw [h6 _ (by omega)] at hw
    simp [step, Fault.mild, flusherStep, h3] at hw
  · intro l
    refine ⟨max l 53, by omega, ?_⟩
    obtain ⟨lo, nx, hinv⟩ := inv_reached demo_creatable h h1
    rw [h6 _ (by omega)]
    refine List.eq_nil_iff_forall_not_mem.mpr fun u hu => ?_
    have := (hinv.sh.iff u).mp hu
    rw [h2] at this
    cases this
  · have := h4 0
    exact (step_call (t := 1) (op := .insert [6, 6] [61]) this).2
  · intro j t op hj
    simp only [hlast j (by omega)]
    intro hb; cases hb
  · intro j hj
    simp only [hlast j (by omega)]
    intro hb; cases hb
  · intro j hf
    by_cases hj : 53 ≤ j
    · simp only [hlast j hj] at hf
      exact hf
    · have hm : calmActs.getD j (.part z.wr) ∈ calmActs := by
        rw [List.getD_eq_getElem?_getD, List.getElem?_eq_getElem (by omega)]
        exact List.getElem_mem _
      generalize calmActs.getD j (.part z.wr) = b at hf hm
      simp only [calmActs, actsA, actsB, actsC, List.mem_append, List.mem_replicate, List.mem_cons, List.not_mem_nil,
        or_false] at hm
      cases b with
      | go t f => simp at hm; simp only [Act.Faulty] at hf; exact hf (by rcases hm with h | h | h | h | h <;> simp_all)
      | goF f => simp at hm; simp only [Act.Faulty] at hf; exact hf hm
      | _ => exact hf

/-- Thread 2 inserts the same pair again and again. -/
def againAct (k v : Bytes) (i : Nat) : Act := if i % 5 = 0 then .call 2 (.insert k v) else .go 2 .none

def againSys (y : Sys) (k v : Bytes) (i : Nat) : Sys :=
  if i % 5 = 0 then y
  else if i % 5 = 1 then y.goto 2 (.ins0 k v)
  else if i % 5 = 2 then y.goto 2 (.ins1 k v)
  else if i % 5 = 3 then { y with owner := some 2 }.goto 2 (.ins2 k v)
  else y.goto 2 (.ret (.error .key_exists))

def againEv (k v : Bytes) (i : Nat) : List Ev :=
  if i % 5 = 0 then [.call 2 (.insert k v)] else if i % 5 = 4 then [.ret 2 (.error .key_exists)] else []

theorem goto_goto {x : Sys} {t : Nat} {p q : Pc} : (x.goto t p).goto t q = x.goto t q := by
  simp only [Sys.goto, Sys.mk.injEq, true_and]
  funext u
  split <;> rfl

theorem again_execution {c : Cfg} {y : Sys} {k v : Bytes} (h1 : y.pc 2 = .out) (h2 : y.owner = none) (h3 : y.s.ec = none)
    (h4 : (y.s.p1.find k).isSome = true) (h5 : Legal y.s (.insert k v) = true) :
    Execution c (againSys y k v) (againAct k v) (againEv k v) := by
  have hout : y.goto 2 .out = y := by
    obtain ⟨_, _, _, _, _, _, _, pc⟩ := y
    simp only [Sys.goto, Sys.mk.injEq, true_and]
    funext u
    split
    · rename_i h; subst h; exact h1.symm
    · rfl
  have hown : ({ y with owner := some 2 } : Sys).release = y := by
    obtain ⟨_, _, _, _, _, _, _, pc⟩ := y
    simp only at h2
    subst h2
    rfl
  have s1 : step c (y.goto 2 (.ins0 k v)) (.go 2 .none) = some (y.goto 2 (.ins1 k v), []) := by
    simp only [step, Fault.mild, if_true, threadStep, goto_self]
    rw [show (y.goto 2 (.ins0 k v)).s.ec = none from h3]
    simp only [goto_goto]
  have s2 : step c (y.goto 2 (.ins1 k v)) (.go 2 .none) =
      some (({ y with owner := some 2 } : Sys).goto 2 (.ins2 k v), []) := by
    simp only [step, Fault.mild, if_true, threadStep, goto_self]
    rw [show (y.goto 2 (.ins1 k v)).owner = none from h2]
    simp only
    rw [show ({ y.goto 2 (.ins1 k v) with owner := some 2 } : Sys) =
      ({ y with owner := some 2 } : Sys).goto 2 (.ins1 k v) from rfl, goto_goto]
  have s3 : step c (({ y with owner := some 2 } : Sys).goto 2 (.ins2 k v)) (.go 2 .none) =
      some (y.goto 2 (.ret (.error .key_exists)), []) := by
    simp only [step, Fault.mild, if_true, threadStep, goto_self, insertLocked]
    rw [show ((({ y with owner := some 2 } : Sys).goto 2 (.ins2 k v)).s.p1.find k).isSome = true from h4,
      show (({ y with owner := some 2 } : Sys).goto 2 (.ins2 k v)).release =
        (({ y with owner := some 2 } : Sys).release).goto 2 (.ins2 k v) from rfl, hown, goto_goto]
    rfl
  have s4 : step c (y.goto 2 (.ret (.error .key_exists))) (.go 2 .none) = some (y, [.ret 2 (.error .key_exists)]) := by
    simp only [step, Fault.mild, if_true, threadStep, goto_self, goto_goto, hout]
  intro i
  have hi : i % 5 = 0 ∨ i % 5 = 1 ∨ i % 5 = 2 ∨ i % 5 = 3 ∨ i % 5 = 4 := by omega
  rcases hi with h | h | h | h | h
  · have h' : (i + 1) % 5 = 1 := by omega
    simp [againSys, againAct, againEv, h, h', step, h1, h5]
  · have h' : (i + 1) % 5 = 2 := by omega
    simp [againSys, againAct, againEv, h, h', s1]
  · have h' : (i + 1) % 5 = 3 := by omega
    simp [againSys, againAct, againEv, h, h', s2]
  · have h' : (i + 1) % 5 = 4 := by omega
    simp [againSys, againAct, againEv, h, h', s3]
  · have h' : (i + 1) % 5 = 0 := by omega
    simp [againSys, againAct, againEv, h, h', s4]

/-- Thread 2 inserts a pair, thread 1 is about to insert another one. -/
def starveActs : List Act := actsA ++ [.call 1 (.insert [6, 7] [61]), .go 1 .none]

def starveTest (x : Sys) : Bool :=
  match run sharedCfg starveActs x with
  | none => false
  | some (y, _) => isOut (y.pc 2) && y.owner == none && y.s.ec == none && (y.s.p1.find [6, 6]).isSome &&
    Legal y.s (.insert [6, 6] [62]) && (match y.pc 1 with | .ins1 _ _ => true | _ => false) &&
    match y.fl with | .idle => true | _ => false

theorem starve_runs : ∃ s fs m y tr, Started sharedCfg demoArgs False s fs m ∧
    run sharedCfg starveActs (Sys.init s fs) = some (y, tr) ∧ y.pc 2 = .out ∧ y.owner = none ∧ y.s.ec = none ∧
    (y.s.p1.find [6, 6]).isSome = true ∧ Legal y.s (.insert [6, 6] [62]) = true ∧
    (∃ k v, y.pc 1 = .ins1 k v) ∧ y.fl = .idle ∧ ∀ t, t ≠ 1 → y.pc t = .out := by
  obtain ⟨s, fs, m, h, ht⟩ := demo_shared (P := starveTest) (by decide +kernel)
  unfold starveTest at ht
  split at ht
  · cases ht
  · rename_i z tr h1
    simp only [Bool.and_eq_true, beq_iff_eq] at ht
    obtain ⟨⟨⟨⟨⟨⟨t1, t2⟩, t3⟩, t4⟩, t5⟩, t6⟩, t7⟩ := ht
    refine ⟨s, fs, m, z, tr, h, h1, isOut_eq t1, t2, t3, t4, t5, ?_, ?_, fun t ht => ?_⟩
    · split at t6
      · rename_i k v e; exact ⟨k, v, e⟩
      · cases t6
    · revert t7
      cases z.fl <;> intro h <;> first | rfl | cases h
    · by_cases e2 : t = 2
      · subst e2; exact isOut_eq t1
      refine run_other (u := t) h1 fun b hb => ?_
      simp only [starveActs, actsA, List.mem_append, List.mem_replicate, List.mem_cons, List.not_mem_nil, or_false] at hb
      constructor
      · rintro f rfl
        simp at hb
        omega
      · rintro op rfl
        simp at hb
        omega

/-- C66: fairness of the scheduler is not enough for a single `insert`. There is an execution
in which the scheduler is fair to every thread and to the flusher and nothing fails, but a
call of `insert` never returns: another thread that inserts again and again gets the mutex
every time. -/
theorem C66_starves : ∃ s fs m, Started sharedCfg demoArgs False s fs m ∧
    ∃ (x : Nat → Sys) (act : Nat → Act) (e : Nat → List Ev) (tr : List Ev),
    run sharedCfg starveActs (Sys.init s fs) = some (x 0, tr) ∧ Execution sharedCfg x act e ∧
    (∀ t, Fair sharedCfg x act t) ∧ FairFlusher sharedCfg x act ∧ (∀ j, ¬ Act.Faulty (act j)) ∧
    (x 0).pc 1 ≠ .out ∧ ∀ j, ¬ ReturnsAt e 1 j := by
  obtain ⟨s, fs, m, y, tr, h, h1, h2, h3, h4, h5, h6, ⟨k1, v1, h7⟩, hfl, h8⟩ := starve_runs
  have hrun := again_execution (c := sharedCfg) h2 h3 h4 h5 h6
  refine ⟨s, fs, m, h, againSys y [6, 6] [62], againAct [6, 6] [62], againEv [6, 6] [62], tr, h1, hrun, ?_, ?_, ?_, ?_, ?_⟩
  · intro t i hi
    by_cases e2 : t = 2
    · subst e2
      refine ⟨5 * i + 1, .none, by omega, ?_⟩
      have : (5 * i + 1) % 5 = 1 := by omega
      simp [againAct, this]
    · exfalso
      -- when thread 2 holds the mutex no other thread can go on
      obtain ⟨w, hw⟩ := hi (5 * i + 3) (by omega)
      have h3' : (5 * i + 3) % 5 = 3 := by omega
      have hs := step_go hw
      simp only [againSys, h3'] at hs
      by_cases e1 : t = 1
      · subst e1
        simp [threadStep, Sys.goto, h7] at hs
      · simp [threadStep, Sys.goto, e2, h8 t e1] at hs
  · intro i hi
    exfalso
    obtain ⟨w, hw⟩ := hi (5 * i) (by omega)
    have h0 : (5 * i) % 5 = 0 := by omega
    have hs := step_goF hw
    simp [againSys, h0, flusherStep, hfl] at hs
  · intro j
    unfold againAct
    split <;> simp [Act.Faulty]
  · simp [againSys, h7]
  · rintro j ⟨r, hr⟩
    unfold againEv at hr
    split at hr
    · simp at hr
    · split at hr <;> simp at hr

/- The hypotheses of C66_steps: thread 2 is given steps again and again. -/
example : ∃ (x : Nat → Sys) (act : Nat → Act) (e : Nat → List Ev), Execution sharedCfg x act e ∧
    act 5 = .call 2 (.insert [6, 6] [62]) ∧ ∀ l, ∃ j f, l ≤ j ∧ act j = .go 2 f := by
  obtain ⟨s, fs, m, y, tr, h, h1, h2, h3, h4, h5, h6, -⟩ := starve_runs
  refine ⟨_, _, _, again_execution (c := sharedCfg) h2 h3 h4 h5 h6, rfl, fun l => ⟨5 * l + 1, .none, by omega, ?_⟩⟩
  have : (5 * l + 1) % 5 = 1 := by omega
  simp [againAct, this]

end NuDB
