import Verif.Proof.ContextThrow
import Verif.Proof.Sched2
/-
C74: exceptions thrown by a flush.
-/
namespace NuDB.Sched
open Spec

private theorem runX_life0 {xs : List EvX} {c : Ctx} (r : RunX init xs c) (s : Nat) :
    life s (plain xs) = some (toLife (c.st s)) := runX_life r (hat_nil inv_init) s

private theorem runX_inv0 {xs : List EvX} {c : Ctx} (r : RunX init xs c) : Inv (c.core.hat (lostOf xs)) := by
  have := runX_inv r (hat_nil inv_init)
  rwa [List.nil_append] at this

private theorem busy_iff {x : St} : toLife x = .busy ↔ x = .intermediate := by cases x <;> simp [toLife]

private theorem hat_even (k : Core) (lost : List Nat) (t : Nat) : (k.hat lost).fl (2 * t) = k.fl t := by
  show (if 2 * t % 2 = 0 then k.fl (2 * t / 2) else _) = _
  rw [if_pos (by omega), Nat.mul_div_cancel_left _ (by omega)]

private theorem hat_odd (k : Core) (lost : List Nat) (i : Nat) : (k.hat lost).fl (2 * i + 1) = lost[i]? := by
  show (if (2 * i + 1) % 2 = 0 then _ else lost[(2 * i + 1) / 2]?) = _
  rw [if_neg (by omega), show (2 * i + 1) / 2 = i by omega]

/-- C74, as far as it holds: in every execution, whatever flushes throw, every store lives by the rules of `Spec.advance`
as in C40; in particular no store is flushed by two threads, and the flush of a store that has not thrown is running exactly
if the rules say so. Missing: a store whose flush has thrown counts as being flushed forever, see `C74_close_violated`. -/
theorem C74_partial {xs : List EvX} {c : Ctx} (r : RunX init xs c) (s : Nat) :
    ∃ l, life s (plain xs) = some l ∧ (l = .busy ↔ (∃ t, InFlush c t s) ∨ ∃ b, EvX.threw s b ∈ xs) ∧
      (∀ t t', InFlush c t s → InFlush c t' s → t = t') ∧ ((∃ b, EvX.threw s b ∈ xs) → ∀ t, ¬ InFlush c t s) := by
  have inv := runX_inv0 r
  refine ⟨_, runX_life0 r s, ?_, fun t t' h h' => ?_, fun hx t ht => ?_⟩
  · rw [busy_iff]
    refine (inv.busy s).trans ⟨fun ⟨i, h⟩ => ?_, fun h => ?_⟩
    · rcases Nat.mod_two_eq_zero_or_one i with hi | hi
      · refine .inl ⟨i / 2, inFlush_iff.2 ?_⟩
        have e := hat_even c.core (lostOf xs) (i / 2)
        rw [show 2 * (i / 2) = i by omega, h] at e
        exact e.symm
      · have e := hat_odd c.core (lostOf xs) (i / 2)
        rw [show 2 * (i / 2) + 1 = i by omega, h] at e
        exact .inr (mem_lostOf.1 (List.mem_of_getElem? e.symm))
    · rcases h with ⟨t, h⟩ | h
      · exact ⟨2 * t, (hat_even ..).trans (inFlush_iff.1 h)⟩
      · obtain ⟨i, hi⟩ := List.mem_iff_getElem?.1 (mem_lostOf.2 h)
        exact ⟨2 * i + 1, (hat_odd ..).trans hi⟩
  · have := inv.uniq s (2 * t) (2 * t') ((hat_even ..).trans (inFlush_iff.1 h)) ((hat_even ..).trans (inFlush_iff.1 h'))
    omega
  · obtain ⟨i, hi⟩ := List.mem_iff_getElem?.1 (mem_lostOf.2 hx)
    have := inv.uniq s (2 * t) (2 * i + 1) ((hat_even ..).trans (inFlush_iff.1 ht)) ((hat_odd ..).trans hi)
    omega

/-- C74: the number of threads that the context believes to be in `run` is the number of those that are, and of the exceptions
thrown there so far. So it is right if all exceptions were thrown in `flush`. -/
theorem C74_threads {xs : List EvX} {c : Ctx} (r : RunX init xs c) :
    ∃ L : List Nat, L.Nodup ∧ (∀ t, t ∈ L ↔ InRun (c.pc t) = true) ∧
      c.num = L.length + xs.countP (fun | .threw _ r => r | _ => false) := by
  have m : Missing init 0 := ⟨0, ⟨[], List.nodup_nil, fun t => by simp [init, InRun], rfl⟩, rfl⟩
  obtain ⟨n, ⟨L, h1, h2, h3⟩, h4⟩ := runX_missing r m
  refine ⟨L, h1, h2, ?_⟩
  rw [h4, h3, Nat.zero_add]
  rfl

private theorem core_events {k k' : Core} {es : List Ev} (h : CoreStep k es k') : es.length ≤ 1 := by
  cases h <;> simp

private theorem runX_append {c d e : Ctx} {xs ys : List EvX} (r : RunX c xs d) (r' : RunX d ys e) : RunX c (xs ++ ys) e := by
  induction r' with
  | refl => simpa using r
  | step _ hs ih => rw [← List.append_assoc]; exact .step ih hs

/-- One step after the flush of `s` has thrown. -/
private theorem stuck_step {xs ys : List EvX} {c d : Ctx} {s t : Nat} {a : ActX} (r : RunX init xs c)
    (hx : ∃ b, EvX.threw s b ∈ xs) (h : stepX c t a = some (d, ys)) :
    c.st s = .intermediate ∧ Ev.unregistered s ∉ plain ys ∧ Ev.started s ∉ plain ys ∧ Ev.finished s ∉ plain ys ∧
      Ev.registered s ∉ plain ys := by
  have st : ∀ {zs : List EvX} {e : Ctx}, RunX init zs e → (∃ b, EvX.threw s b ∈ zs) → e.st s = .intermediate := by
    intro zs e r hz
    obtain ⟨l, h1, h2, _⟩ := C74_partial r s
    rw [runX_life0 r s] at h1
    cases h1
    exact busy_iff.1 (h2.2 (.inr hz))
  have h0 := st r hx
  have h1 := st (.step r h) (hx.imp fun b hb => List.mem_append_left _ hb)
  refine ⟨h0, ?_⟩
  have hf := (stepX_core h (runX_inv0 r)).2 s
  rw [h0, h1] at hf
  have hlen : (plain ys).length ≤ 1 := by
    cases a with
    | act a =>
      simp only [stepX] at h
      cases hs : step c t a with
      | none => rw [hs] at h; cases h
      | some x =>
        obtain ⟨d', es⟩ := x
        rw [hs] at h
        simp only [Option.map_some, Option.some.injEq, Prod.mk.injEq] at h
        obtain ⟨rfl, rfl⟩ := h
        rw [plain_ev]
        exact core_events (core_step hs)
    | throw =>
      simp only [stepX] at h
      split at h
      · split at h <;> cases h; simp [plain]
      · cases h; simp [plain]
      · cases h
  match e : plain ys, hlen with
  | [], _ => simp
  | [x], _ =>
    rw [e] at hf
    have hf : advance s .busy x = some .busy := by
      simp only [List.foldlM_cons, List.foldlM_nil, toLife] at hf
      cases ha : advance s .busy x with
      | none => rw [ha] at hf; cases hf
      | some l => rw [ha] at hf; exact hf
    refine ⟨?_, ?_, ?_, ?_⟩ <;> intro hm <;> rcases List.mem_singleton.1 hm with rfl <;> simp [advance] at hf

/-- C74 is false for the store: once its flush has thrown, it is never flushed again, and `erase`, hence `close` and the
destructor of the store, never returns. -/
theorem C74_close_violated {xs ys : List EvX} {c d : Ctx} {s : Nat} (r : RunX init xs c) (hx : ∃ b, EvX.threw s b ∈ xs)
    (r' : RunX c ys d) : Ev.unregistered s ∉ plain ys ∧ Ev.started s ∉ plain ys ∧ Ev.finished s ∉ plain ys ∧
      ∀ u, c.pc u = .erWait s → d.pc u = .erWait s := by
  induction r' with
  | refl => exact ⟨by simp [plain], by simp [plain], by simp [plain], fun _ h => h⟩
  | @step ys c' t a zs c'' r' hs ih =>
    obtain ⟨i1, i2, i3, i4⟩ := ih
    obtain ⟨j0, j1, j2, j3, j4⟩ := stuck_step (runX_append r r') (hx.imp fun b hb => List.mem_append_left _ hb) hs
    rw [plain_append]
    refine ⟨?_, ?_, ?_, fun u hu => ?_⟩
    · exact fun h => (List.mem_append.1 h).elim i1 j1
    · exact fun h => (List.mem_append.1 h).elim i2 j2
    · exact fun h => (List.mem_append.1 h).elim i3 j3
    · have hp := i4 u hu
      cases a with
      | act a =>
        simp only [stepX] at hs
        cases h : step c' t a with
        | none => rw [h] at hs; cases hs
        | some x =>
          obtain ⟨d', es⟩ := x
          rw [h] at hs
          simp only [Option.map_some, Option.some.injEq, Prod.mk.injEq] at hs
          obtain ⟨rfl, rfl⟩ := hs
          by_cases ht : u = t
          · subst ht
            unfold step at h
            rw [hp] at h
            cases a <;> simp [j0] at h
            rw [← h.1]
            simp [Ctx.at]
          · by_cases hst : a = .start u
            · subst hst
              unfold step at h
              split at h <;> try (rename_i heq; cases heq)
              split at h
              · rename_i hu'; rw [hp] at hu'; cases hu'.2
              · cases h
              · cases h
            · rw [step_other h ht (fun v hv e => hst (by rw [hv, e]))]; exact hp
      | throw =>
        simp only [stepX] at hs
        have key : ∀ q, c'.pc t = q → q ≠ .erWait s → (c'.at t .out).pc u = .erWait s := by
          intro q hq hne
          simp only [Ctx.at]
          rw [if_neg (fun e => hne (by rw [← hq, ← e]; exact hp))]; exact hp
        split at hs
        · rename_i hq
          split at hs
          · cases hs
          · cases hs; exact key _ hq (by simp)
        · rename_i hq
          cases hs; exact key _ hq (by simp)
        · cases hs

/-- A call of `erase` for such a store arrives where `C74_close_violated` holds it. -/
theorem C74_close_call {xs : List EvX} {c : Ctx} {s t : Nat} (r : RunX init xs c) (hx : ∃ b, EvX.threw s b ∈ xs)
    (ht : c.pc t = .out) : ∃ d, step c t (.erase s) = some (d, []) ∧ d.pc t = .erWait s := by
  obtain ⟨l, h1, h2, _⟩ := C74_partial r s
  rw [runX_life0 r s] at h1
  cases h1
  have h3 := busy_iff.1 (h2.2 (.inr hx))
  refine ⟨c.at t (.erWait s), ?_, by simp [Ctx.at]⟩
  unfold step
  rw [ht]
  simp only [h3]

private theorem num_pos {xs : List EvX} {c : Ctx} {s : Nat} (r : RunX init xs c) (hx : EvX.threw s true ∈ xs) : c.num ≠ 0 := by
  obtain ⟨L, _, _, h⟩ := C74_threads r
  have : 0 < xs.countP (fun | .threw _ r => r | _ => false) := List.countP_pos_iff.2 ⟨_, hx, rfl⟩
  omega

/-- C74 is false for the context: once an exception has left `run`, a thread that has entered `stop_all` (with `stop_` not set) stays there
forever, so the context cannot be stopped nor destroyed. -/
theorem C74_stop_violated {xs ys : List EvX} {c d : Ctx} {s u : Nat} (r : RunX init xs c) (hx : EvX.threw s true ∈ xs) :
    (c.pc u = .out → c.stop = false → ∃ e, step c u .stopAll = some (e, []) ∧ e.pc u = .stWait) ∧
    (c.pc u = .stWait → RunX c ys d → d.pc u = .stWait) := by
  constructor
  · intro hp hs
    refine ⟨(({ c with stop := true }.notifyF).notifyW).at u .stWait, ?_, ?_⟩
    · unfold step
      rw [hp]
      dsimp only
      rw [hs, if_neg (by simp)]
      exact if_neg (num_pos r hx)
    · simp [Ctx.at]
  · intro hu r'
    induction r' with
    | refl => exact hu
    | @step ys c' t a zs c'' r' hs ih =>
      exact stepX_stop hs (num_pos (runX_append r r') (List.mem_append_left _ hx)) ih

/-- C74 is false for the other stores: if the thread that starts the rounds is gone after an exception has left `run`, no round is ever
started again, whatever is called (`run` by other threads, `start`, `flush`), so nothing is flushed any more except what is
already queued. -/
theorem C74_rounds_violated {xs ys : List EvX} {c d : Ctx} {s : Nat} (r : RunX init xs c) (hx : EvX.threw s true ∈ xs)
    (hl : ∀ t, Leads (c.pc t) = false) (r' : RunX c ys d) : ∀ l, EvX.ev (.round l) ∉ ys := by
  have : (∀ t, Leads (d.pc t) = false) ∧ ∀ l, EvX.ev (.round l) ∉ ys := by
    induction r' with
    | refl => exact ⟨hl, by simp⟩
    | @step ys c' t a zs c'' r' hs ih =>
      obtain ⟨i1, i2⟩ := ih
      obtain ⟨j1, j2⟩ := stepX_rounds hs (num_pos (runX_append r r') (List.mem_append_left _ hx)) i1
      exact ⟨j1, fun l h => (List.mem_append.1 h).elim (i2 l) (j2 l)⟩
  exact this.2

/-! ### The premises are satisfiable -/

private theorem execX_run {l : List (Nat × ActX)} {c d : Ctx} {xs ys : List EvX} {b : Ctx} (r : RunX b xs c)
    (h : execX c l = some (d, ys)) : RunX b (xs ++ ys) d := by
  induction l generalizing c xs ys with
  | nil => cases h; simpa using r
  | cons x l ih =>
    obtain ⟨t, a⟩ := x
    unfold execX at h
    cases hs : stepX c t a with
    | none => rw [hs] at h; cases h
    | some y =>
      obtain ⟨c1, e1⟩ := y
      rw [hs] at h
      dsimp only at h
      cases he : execX c1 l with
      | none => rw [he] at h; cases h
      | some y =>
        obtain ⟨c2, e2⟩ := y
        rw [he] at h
        cases h
        rw [← List.append_assoc]
        exact ih (.step r hs) he

private theorem execX_other {l : List (Nat × ActX)} {c d : Ctx} {ys : List EvX} {t : Nat}
    (hl : ∀ x ∈ l, x.1 ≠ t ∧ x.2 ≠ .act (.start t)) (h : execX c l = some (d, ys)) : d.pc t = c.pc t := by
  induction l generalizing c ys with
  | nil => cases h; rfl
  | cons x l ih =>
    obtain ⟨u, a⟩ := x
    obtain ⟨n1, n2⟩ := hl _ List.mem_cons_self
    unfold execX at h
    cases hs : stepX c u a with
    | none => rw [hs] at h; cases h
    | some y =>
      obtain ⟨c1, e1⟩ := y
      rw [hs] at h
      dsimp only at h
      cases he : execX c1 l with
      | none => rw [he] at h; cases h
      | some y =>
        obtain ⟨c2, e2⟩ := y
        rw [he] at h
        cases h
        rw [ih (fun x hx => hl x (List.mem_cons_of_mem _ hx)) he]
        have at_ : (c.at u .out).pc t = c.pc t := by simp only [Ctx.at]; rw [if_neg (fun e => n1 e.symm)]
        cases a with
        | act a =>
          simp only [stepX] at hs
          cases h : step c u a with
          | none => rw [h] at hs; cases hs
          | some x =>
            obtain ⟨d', es⟩ := x
            rw [h] at hs
            simp only [Option.map_some, Option.some.injEq, Prod.mk.injEq] at hs
            obtain ⟨rfl, rfl⟩ := hs
            exact step_other h (fun e => n1 e.symm) (fun v hv e => n2 (by rw [hv, e]))
        | throw =>
          simp only [stepX] at hs
          split at hs
          · split at hs
            · cases hs
            · cases hs; exact at_
          · cases hs; exact at_
          · cases hs

/-- Two stores; the only thread in `run` flushes the first, which throws. Then one thread closes that store, another stops the
context. -/
def throwSchedule : List (Nat × ActX) :=
  [(0, .act (.insert 10)), (0, .act (.insert 11)), (1, .act .run), (1, .act .go), (1, .act .go), (1, .act .go), (1, .throw)]

/-- The flush of the second store is not started, although the store is queued: no thread looks at the queue. -/
theorem C74_witness : ∃ c xs, RunX init xs c ∧ EvX.threw 10 true ∈ xs ∧ (∀ t, Leads (c.pc t) = false) ∧
    (∀ t, c.pc t = .out) ∧ c.num = 1 ∧ c.stop = false ∧ life 11 (plain xs) = some .queued := by
  have h : (execX init throwSchedule).map (·.2) = some [.ev (.registered 10), .ev (.registered 11), .ev (.round [10, 11]),
      .ev (.started 10), .threw 10 true] := by decide
  cases e : execX init throwSchedule with
  | none => rw [e] at h; cases h
  | some x =>
    obtain ⟨c, xs⟩ := x
    rw [e] at h
    simp only [Option.map_some, Option.some.injEq] at h
    subst h
    have r := execX_run (RunX.refl init) e
    rw [List.nil_append] at r
    have hp : ∀ t, c.pc t = .out := by
      intro t
      by_cases h1 : t = 1
      · subst h1
        have : (execX init throwSchedule).map (·.1.pc 1) = some .out := by decide
        rw [e] at this; exact Option.some.inj this
      · by_cases h0 : t = 0
        · subst h0
          have : (execX init throwSchedule).map (·.1.pc 0) = some .out := by decide
          rw [e] at this; exact Option.some.inj this
        · refine (execX_other (t := t) ?_ e).trans rfl
          intro x hx
          simp only [throwSchedule, List.mem_cons, List.not_mem_nil, or_false] at hx
          rcases hx with rfl | rfl | rfl | rfl | rfl | rfl | rfl <;> exact ⟨by simpa using Ne.symm (by assumption), by simp⟩
    refine ⟨c, _, r, by decide, fun t => by rw [hp t]; rfl, hp, ?_, ?_, by decide⟩
    · have : (execX init throwSchedule).map (·.1.num) = some 1 := by decide
      rw [e] at this; exact Option.some.inj this
    · have : (execX init throwSchedule).map (·.1.stop) = some false := by decide
      rw [e] at this; exact Option.some.inj this

/-- Afterwards `erase` of the first store and `stop_all` wait; the second store can be closed; `run` by another thread flushes
what is queued, but starts no rounds. -/
example : (execX init (throwSchedule ++ [(2, .act .run), (2, .act .go), (2, .act .go), (2, .act .go), (2, .act .go), (2, .act .go),
      (4, .act .flush), (0, .act (.erase 11)), (0, .act (.erase 10)), (3, .act .stopAll), (2, .act .go), (2, .act .go), (3, .act .go), (0, .act .go)])).map
      (fun x => (x.1.pc 0, x.1.pc 3, x.1.num, x.2.drop 5)) =
    some (.erWait 10, .stWait, 1, [.ev (.started 11), .ev (.finished 11), .ev (.unregistered 11)]) := by decide

/-- An exception in `flush` leaves the number of threads right, and the other stores are flushed by the next call. -/
example : (execX init [(0, .act (.insert 10)), (0, .act (.insert 11)), (1, .act .flush), (1, .act .go), (1, .throw), (1, .act .flush), (1, .act .go),
      (1, .act .go), (3, .act .stopAll)]).map (fun x => (x.1.pc 3, x.1.num, x.2.drop 5)) =
    some (.out, 0, [.ev (.round []), .ev (.started 11), .ev (.finished 11)]) := by decide

end NuDB.Sched
