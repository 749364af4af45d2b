import Verif.Proof.Live
/- What threads do in infinite executions. -/
namespace NuDB

open Spec Conc

section
variable {c : Cfg} {x y : Sys} {a : Act} {es : List Ev} {t u : Nat} {f : Fault}

theorem goto_other {q : Pc} (h : u ≠ t) : (x.goto t q).pc u = x.pc u := by simp [Sys.goto, h]

/-- What a step of a thread leaves alone, and that it returns only with an event. -/
structure Local (x : Sys) (t : Nat) (y : Sys) (es : List Ev) : Prop where
  pc : ∀ u, u ≠ t → y.pc u = x.pc u
  fl : y.fl = x.fl
  ret : y.pc t = .out → ∃ r, Ev.ret t r ∈ es

theorem thread_local (h : threadStep c x t f = some (y, es)) : Local x t y es := by
  have easy : ∀ {z : Sys} {q : Pc}, z.pc = x.pc → z.fl = x.fl → q ≠ .out → y = z.goto t q → Local x t y es := by
    rintro z q h1 h2 h3 rfl
    refine ⟨fun u hu => ?_, h2, fun e => ?_⟩
    · rw [goto_other hu, h1]
    · rw [goto_self] at e; exact absurd e h3
  unfold threadStep at h
  split at h
  · cases h
  · cases h
    exact ⟨fun u hu => goto_other hu, rfl, fun _ => ⟨_, List.mem_singleton.mpr rfl⟩⟩
  · split at h <;> (cases h; exact easy rfl rfl (by intro e; cases e) rfl)
  · obtain ⟨z, hz, e⟩ := Option.map_eq_some_iff.mp h
    cases e
    unfold fetchLocked at hz
    split at hz
    · cases hz; exact easy rfl rfl (by intro e; cases e) rfl
    · split at hz
      · cases hz; exact easy rfl rfl (by intro e; cases e) rfl
      · split at hz
        · cases hz
        · split at hz
          · cases hz; exact easy (z := { x with shared := t :: x.shared }) rfl rfl (by intro e; cases e) rfl
          · cases hz; exact easy (z := { x with g := x.g.lock }) rfl rfl (by intro e; cases e) rfl
  · split at h
    · cases h; exact easy (z := x.unshare t) rfl rfl (by intro e; cases e) rfl
    · cases h; exact easy (z := x.unshare t) rfl rfl (by intro e; cases e) rfl
    · obtain ⟨z, hz, e⟩ := Option.map_eq_some_iff.mp h
      cases e; exact easy rfl rfl (by intro e; cases e) rfl
  · split at h
    · cases h; exact easy (z := x.leave _) rfl rfl (by intro e; cases e) rfl
    · cases h; exact easy (z := x.leave _) rfl rfl (by intro e; cases e) rfl
    · obtain ⟨z, hz, e⟩ := Option.map_eq_some_iff.mp h
      cases e; exact easy rfl rfl (by intro e; cases e) rfl
  · split at h <;> (cases h; exact easy rfl rfl (by intro e; cases e) rfl)
  · split at h
    · cases h
    · cases h; exact easy (z := { x with owner := some t }) rfl rfl (by intro e; cases e) rfl
  · obtain ⟨z, hz, e⟩ := Option.map_eq_some_iff.mp h
    cases e
    unfold insertLocked at hz
    split at hz
    · cases hz; exact easy (z := x.release) rfl rfl (by intro e; cases e) rfl
    · split at hz
      · cases hz
      · split at hz
        · cases hz; exact easy (z := { x with shared := t :: x.shared }) rfl rfl (by intro e; cases e) rfl
        · cases hz; exact easy (z := { x with g := x.g.lock }) rfl rfl (by intro e; cases e) rfl
  · split at h
    · cases h; exact easy (z := (x.unshare t).release) rfl rfl (by intro e; cases e) rfl
    · cases h; exact easy (z := x.unshare t) rfl rfl (by intro e; cases e) rfl
    · cases h; exact easy (z := (x.unshare t).release) rfl rfl (by intro e; cases e) rfl
    · obtain ⟨z, hz, e⟩ := Option.map_eq_some_iff.mp h
      cases e; exact easy rfl rfl (by intro e; cases e) rfl
  · split at h
    · cases h; exact easy (z := x.release) rfl rfl (by intro e; cases e) rfl
    · cases h; exact easy rfl rfl (by intro e; cases e) rfl
    · cases h; exact easy (z := x.release) rfl rfl (by intro e; cases e) rfl
    · obtain ⟨z, hz, e⟩ := Option.map_eq_some_iff.mp h
      cases e; exact easy rfl rfl (by intro e; cases e) rfl
  · split at h
    · cases h; exact easy (z := (x.leave _).release) rfl rfl (by intro e; cases e) rfl
    · cases h; exact easy (z := x.leave _) rfl rfl (by intro e; cases e) rfl
    · cases h; exact easy (z := (x.leave _).release) rfl rfl (by intro e; cases e) rfl
    · obtain ⟨z, hz, e⟩ := Option.map_eq_some_iff.mp h
      cases e; exact easy rfl rfl (by intro e; cases e) rfl
  · split at h
    · split at h
      · cases h
      · cases h
        exact easy (z := { x with s := { x.s with p1 := _ } }.release) rfl rfl (by intro e; cases e) rfl
    · cases h

/-- Steps of the flusher. -/
theorem flusher_local (h : flusherStep c x f = some y) : y.pc = x.pc ∧ y.owner = x.owner ∧ y.shared = x.shared := by
  unfold flusherStep at h
  split at h
  · cases h
  all_goals
    split at h
    · split at h
      · cases h; exact ⟨rfl, rfl, rfl⟩
      · cases h
    · cases h; exact ⟨rfl, rfl, rfl⟩
    · cases h
    · cases h; exact ⟨rfl, rfl, rfl⟩

/-- Steps of others. -/
theorem step_other (h : step c x a = some (y, es)) (h1 : ∀ f, a ≠ .go t f) (h2 : ∀ op, a ≠ .call t op) :
    y.pc t = x.pc t := by
  cases a with
  | call u op =>
    have hu : t ≠ u := by rintro rfl; exact h2 op rfl
    simp only [step] at h
    split at h
    · split at h
      · split at h <;> (cases h; exact goto_other hu)
      · cases h
    · cases h
  | go u f =>
    have hu : t ≠ u := by rintro rfl; exact h1 f rfl
    simp only [step] at h
    split at h
    · exact (thread_local h).pc t hu
    · cases h
  | flush =>
    simp only [step, flushStart] at h
    obtain ⟨z, hz, e⟩ := Option.map_eq_some_iff.mp h
    cases e
    split at hz
    · split at hz
      · split at hz <;> (cases hz; rfl)
      · cases hz
    · cases hz
  | goF f =>
    simp only [step] at h
    split at h
    · obtain ⟨z, hz, e⟩ := Option.map_eq_some_iff.mp h
      cases e
      rw [(flusher_local hz).1]
    · cases h
  | part j =>
    simp only [step] at h
    split at h
    · cases h; rfl
    · cases h

/-- Only threads take and release mutexes. -/
theorem step_locks (h : step c x a = some (y, es)) (h1 : ∀ t f, a ≠ .go t f) :
    y.owner = x.owner ∧ y.shared = x.shared := by
  cases a with
  | call u op =>
    simp only [step] at h
    split at h
    · split at h
      · split at h <;> (cases h; exact ⟨rfl, rfl⟩)
      · cases h
    · cases h
  | go u f => exact absurd rfl (h1 u f)
  | flush =>
    simp only [step, flushStart] at h
    obtain ⟨z, hz, e⟩ := Option.map_eq_some_iff.mp h
    cases e
    split at hz
    · split at hz
      · split at hz <;> (cases hz; exact ⟨rfl, rfl⟩)
      · cases hz
    · cases hz
  | goF f =>
    simp only [step] at h
    split at h
    · obtain ⟨z, hz, e⟩ := Option.map_eq_some_iff.mp h
      cases e
      exact (flusher_local hz).2
    · cases h
  | part j =>
    simp only [step] at h
    split at h
    · cases h; exact ⟨rfl, rfl⟩
    · cases h

/-- Only the flusher changes what it does. -/
theorem step_fl (h : step c x a = some (y, es)) (h1 : ∀ f, a ≠ .goF f) (h2 : a ≠ .flush) : y.fl = x.fl := by
  cases a with
  | call u op =>
    simp only [step] at h
    split at h
    · split at h
      · split at h <;> (cases h; rfl)
      · cases h
    · cases h
  | go u f =>
    simp only [step] at h
    split at h
    · exact (thread_local h).fl
    · cases h
  | flush => exact absurd rfl h2
  | goF f => exact absurd rfl (h1 f)
  | part j =>
    simp only [step] at h
    split at h
    · cases h; rfl
    · cases h

theorem step_go (h : step c x (.go t f) = some (y, es)) : threadStep c x t f = some (y, es) := by
  simp only [step] at h
  split at h
  · exact h
  · cases h

theorem step_goF (h : step c x (.goF f) = some (y, es)) : flusherStep c x f = some y := by
  simp only [step] at h
  split at h
  · obtain ⟨z, hz, e⟩ := Option.map_eq_some_iff.mp h
    cases e
    exact hz
  · cases h

/-- A thread in a call does not call. -/
theorem step_call (h : step c x (.call t op) = some (y, es)) : x.pc t = .out ∧ y.pc t ≠ .out := by
  simp only [step] at h
  split at h
  · refine ⟨by assumption, ?_⟩
    split at h
    · split at h <;> (cases h; rw [goto_self]; intro e; cases e)
    · cases h
  · cases h

/-- A thread leaves a call only by returning. -/
theorem step_leaves (h : step c x a = some (y, es)) (hx : x.pc t ≠ .out) (hy : y.pc t = .out) :
    ∃ r, Ev.ret t r ∈ es := by
  by_cases h1 : ∃ f, a = .go t f
  · obtain ⟨f, rfl⟩ := h1
    exact (thread_local (step_go h)).ret hy
  · rw [step_other h (fun f e => h1 ⟨f, e⟩) (fun op e => ?_)] at hy
    · exact absurd hy hx
    · subst e; exact hx (step_call h).1

end

section
variable {c : Cfg} {x : Nat → Sys} {a : Nat → Act} {e : Nat → List Ev} {t i : Nat}

/-- Until it returns, a thread is in its call. -/
theorem stays_in (hx : Execution c x a e) (hi : (x i).pc t ≠ .out) (hn : ∀ j, i ≤ j → ¬ ReturnsAt e t j) :
    ∀ j, i ≤ j → (x j).pc t ≠ .out := by
  intro j
  induction j with
  | zero => intro h; rw [show i = 0 by omega] at hi; exact hi
  | succ j ih =>
    intro h
    by_cases h0 : i = j + 1
    · rw [← h0]; exact hi
    · intro ho
      obtain ⟨r, hr⟩ := step_leaves (hx j) (ih (by omega)) ho
      exact hn j (by omega) ⟨r, hr⟩

/-- Without calls, a thread makes finitely many steps. -/
theorem thread_finite (hx : Execution c x a e) (hn : ∀ j op, i ≤ j → a j ≠ .call t op) :
    ∃ N, i ≤ N ∧ ∀ j, N ≤ j → ∀ f, a j ≠ .go t f := by
  obtain ⟨N, n1, n2⟩ := finitely (R := Moves c) (P := fun j => (x j).pc t) (own := fun j => ∃ f, a j = .go t f) i
    (acc_thread _)
    (by
      rintro j hj ⟨f, hf⟩
      have hs := hx j
      rw [hf] at hs
      exact ⟨x j, t, f, x (j + 1), e j, rfl, step_go hs, rfl⟩)
    (fun j hj ho => step_other (hx j) (fun f h => ho ⟨f, h⟩) (fun op => hn j op hj))
  exact ⟨N, n1, fun j hj f h => n2 j hj ⟨f, h⟩⟩

/-- Without new flushes, the flusher makes finitely many steps. -/
theorem flusher_finite (hx : Execution c x a e) (hn : NoFlushes a i) :
    ∃ N, i ≤ N ∧ ∀ j, N ≤ j → ∀ f, a j ≠ .goF f := by
  obtain ⟨N, n1, n2⟩ := finitely (R := FMoves c) (P := fun j => (x j).fl) (own := fun j => ∃ f, a j = .goF f) i
    (acc_flusher _)
    (by
      rintro j hj ⟨f, hf⟩
      have hs := hx j
      rw [hf] at hs
      exact ⟨x j, f, x (j + 1), rfl, step_goF hs, rfl⟩)
    (fun j hj ho => step_fl (hx j) (fun f h => ho ⟨f, h⟩) (hn j hj))
  exact ⟨N, n1, fun j hj f h => n2 j hj ⟨f, h⟩⟩

/-- A thread that is given steps again and again returns. -/
theorem returns_of_steps (hx : Execution c x a e) (hi : (x i).pc t ≠ .out)
    (hs : ∀ l, ∃ j f, l ≤ j ∧ a j = .go t f) : ∃ j, i ≤ j ∧ ReturnsAt e t j := by
  apply Classical.byContradiction
  intro hn
  have hn : ∀ j, i ≤ j → ¬ ReturnsAt e t j := fun j hj h => hn ⟨j, hj, h⟩
  have hin := stays_in hx hi hn
  obtain ⟨N, n1, n2⟩ := thread_finite (t := t) (i := i) hx fun j op hj h => by
    have hs := hx j
    rw [h] at hs
    exact hin j hj (step_call hs).1
  obtain ⟨j, f, hj, h⟩ := hs N
  exact n2 j hj f h

/-- A thread that can always go on returns. -/
theorem returns_of_able (hx : Execution c x a e) (hf : Fair c x a t) (hi : (x i).pc t ≠ .out)
    (hs : (∀ j, i ≤ j → (x j).pc t ≠ .out) → (∀ j, i ≤ j → ¬ ReturnsAt e t j) →
      ∀ j, i ≤ j → ∃ z, step c (x j) (.go t .none) = some z) :
    ∃ j, i ≤ j ∧ ReturnsAt e t j := by
  apply Classical.byContradiction
  intro hn
  have hn' : ∀ j, i ≤ j → ¬ ReturnsAt e t j := fun j hj h => hn ⟨j, hj, h⟩
  refine hn (returns_of_steps hx hi fun l => ?_)
  obtain ⟨j, f, h1, h2⟩ := hf (max i l) fun j hj => hs (stays_in hx hi hn') hn' j (by omega)
  exact ⟨j, f, by omega, h2⟩

/-- A piece of an execution. -/
theorem execution_from (hx : Execution c x a e) : ∀ k l, ∃ acts tr, run c acts (x l) = some (x (l + k), tr) ∧
    ∀ b ∈ acts, ∃ j, l ≤ j ∧ b = a j := by
  intro k
  induction k with
  | zero => intro l; exact ⟨[], [], rfl, fun b hb => by cases hb⟩
  | succ k ih =>
    intro l
    obtain ⟨acts, tr, h1, h2⟩ := ih (l + 1)
    refine ⟨a l :: acts, e l ++ tr, ?_, ?_⟩
    · simp only [run]
      rw [hx l]
      simp only [h1, Option.map_some]
      rw [show l + 1 + k = l + (k + 1) by omega]
    · intro b hb
      rcases List.mem_cons.mp hb with rfl | hb
      · exact ⟨l, Nat.le_refl _, rfl⟩
      · obtain ⟨j, h3, h4⟩ := h2 b hb
        exact ⟨j, by omega, h4⟩

/-- The states of an execution are reached. -/
theorem execution_run (hx : Execution c x a e) (i : Nat) :
    ∃ acts tr, run c acts (x 0) = some (x i, tr) ∧ ∀ b ∈ acts, ∃ j, b = a j := by
  obtain ⟨acts, tr, h1, h2⟩ := execution_from hx i 0
  rw [Nat.zero_add] at h1
  exact ⟨acts, tr, h1, fun b hb => let ⟨j, _, h⟩ := h2 b hb; ⟨j, h⟩⟩

/-- The thread is in `fetch`. -/
def inFetch : Pc → Bool
  | .fetch0 .. => true
  | .fetch1 .. => true
  | .fetchC .. => true
  | .fetchK .. => true
  | .ret .. => true
  | _ => false

theorem fetch_moves {p q : Pc} (hp : inFetch p = true) (h : Moves c q p) : q = .out ∨ inFetch q = true := by
  obtain ⟨x, t, f, y, es, h1, h2, rfl⟩ := h
  simp only [threadStep, h1] at h2
  cases p <;> try (cases hp; done)
  · cases h2; rw [goto_self]; exact .inl rfl
  · simp only at h2
    split at h2 <;> (cases h2; rw [goto_self]; exact .inr rfl)
  · simp only at h2
    obtain ⟨z, hz, e⟩ := Option.map_eq_some_iff.mp h2
    cases e
    unfold fetchLocked at hz
    split at hz
    · cases hz; rw [goto_self]; exact .inr rfl
    · split at hz
      · cases hz; rw [goto_self]; exact .inr rfl
      · split at hz
        · cases hz
        · split at hz <;> (cases hz; rw [goto_self]; exact .inr rfl)
  · simp only at h2
    split at h2
    · cases h2; rw [goto_self]; exact .inr rfl
    · cases h2; rw [goto_self]; exact .inr rfl
    · obtain ⟨z, hz, e⟩ := Option.map_eq_some_iff.mp h2
      cases e; rw [goto_self]; exact .inr rfl
  · simp only at h2
    split at h2
    · cases h2; rw [goto_self]; exact .inr rfl
    · cases h2; rw [goto_self]; exact .inr rfl
    · obtain ⟨z, hz, e⟩ := Option.map_eq_some_iff.mp h2
      cases e; rw [goto_self]; exact .inr rfl

/-- The thread holds `u_` or has released it and returns. -/
def inOwner : Pc → Bool
  | .ret .. => true
  | p => holdsU p

theorem owner_moves {p q : Pc} (hp : inOwner p = true) (h : Moves c q p) : q = .out ∨ inOwner q = true := by
  obtain ⟨x, t, f, y, es, h1, h2, rfl⟩ := h
  simp only [threadStep, h1] at h2
  cases p <;> try (cases hp; done)
  · cases h2; rw [goto_self]; exact .inl rfl
  · simp only at h2
    obtain ⟨z, hz, e⟩ := Option.map_eq_some_iff.mp h2
    cases e
    unfold insertLocked at hz
    split at hz
    · cases hz; rw [goto_self]; exact .inr rfl
    · split at hz
      · cases hz
      · split at hz <;> (cases hz; rw [goto_self]; exact .inr rfl)
  · simp only at h2
    split at h2
    · cases h2; rw [goto_self]; exact .inr rfl
    · cases h2; rw [goto_self]; exact .inr rfl
    · cases h2; rw [goto_self]; exact .inr rfl
    · obtain ⟨z, hz, e⟩ := Option.map_eq_some_iff.mp h2
      cases e; rw [goto_self]; exact .inr rfl
  · simp only at h2
    split at h2
    · cases h2; rw [goto_self]; exact .inr rfl
    · cases h2; rw [goto_self]; exact .inr rfl
    · cases h2; rw [goto_self]; exact .inr rfl
    · obtain ⟨z, hz, e⟩ := Option.map_eq_some_iff.mp h2
      cases e; rw [goto_self]; exact .inr rfl
  · simp only at h2
    split at h2
    · cases h2; rw [goto_self]; exact .inr rfl
    · cases h2; rw [goto_self]; exact .inr rfl
    · cases h2; rw [goto_self]; exact .inr rfl
    · obtain ⟨z, hz, e⟩ := Option.map_eq_some_iff.mp h2
      cases e; rw [goto_self]; exact .inr rfl
  · simp only at h2
    split at h2
    · split at h2
      · cases h2
      · cases h2; rw [goto_self]; exact .inr rfl
    · cases h2

/-- A property of places that own steps keep. -/
theorem keeps {P : Pc → Bool} (hP : ∀ {p q : Pc}, P p = true → Moves c q p → q = .out ∨ P q = true)
    (hx : Execution c x a e) (hi : P ((x i).pc t) = true) (hin : ∀ j, i ≤ j → (x j).pc t ≠ .out) :
    ∀ j, i ≤ j → P ((x j).pc t) = true := by
  intro j
  induction j with
  | zero => intro h; rw [show i = 0 by omega] at hi; exact hi
  | succ j ih =>
    intro h
    by_cases h0 : i = j + 1
    · rw [← h0]; exact hi
    · have hj := ih (by omega)
      have hs := hx j
      by_cases hg : ∃ f, a j = .go t f
      · obtain ⟨f, hf⟩ := hg
        rw [hf] at hs
        rcases hP hj ⟨x j, t, f, x (j + 1), e j, rfl, step_go hs, rfl⟩ with ho | h
        · exact absurd ho (hin _ h)
        · exact h
      · rw [step_other hs (fun f h => hg ⟨f, h⟩) (fun op h => ?_)]
        · exact hj
        · rw [h] at hs; exact hin j (by omega) (step_call hs).1

end

end NuDB
