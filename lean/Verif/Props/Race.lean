import Verif.Proof.RaceFree
import Verif.Proof.RaceEc
import Verif.Props.Concurrent
/-
C59: `fetch`, `insert`, `set_burst`, the observers and the flushes of a context may run at the same time
without data races, whatever number of threads call them or run the context. `Spec/Race` has the
definition of data races, `Model/Race` the accesses of memory.
-/
namespace NuDB.Race

/-- No execution has a data race, except at `ec_`. -/
theorem C59_others {tr : Trace Loc Mu} {x : Sys} (h : Exec tr x) (l : Loc) (hl : l ≠ .fld .ec) : ¬ RaceAt tr l := by
  rintro ⟨i, j, t, u, a, b, hij, hi, hj, hc, hn⟩
  obtain ⟨st, hq, -⟩ := h.seq
  exact hn (hb_conflict hq (fun h => absurd h hl) hij hi hj hc)

/-- At `ec_` there is none either if it is not written after a failed flush. Full claim: no execution has a
data race; this is false (`C59_violated`). -/
theorem C59_partial {tr : Trace Loc Mu} {x : Sys} (h : Exec tr x) (hone : Once tr) (l : Loc) : ¬ RaceAt tr l := by
  rintro ⟨i, j, t, u, a, b, hij, hi, hj, hc, hn⟩
  obtain ⟨st, hq, -⟩ := h.seq
  exact hn (hb_conflict hq (fun _ => hone) hij hi hj hc)

/-- Who writes `ec_` after a failed flush: a later flush that cannot determine the size of the key file. -/
theorem C59_only {tr : Trace Loc Mu} {x y : Sys} {t : Nat} (h : Exec tr x) (hs : Step x t y (.write (.fld .ec)))
    (hb : x.ecb = true) : x.pc t = sizeFailed := write_ec h hs hb

/-! Examples, by execution. -/

/-- Can the lock be acquired, if only the first four threads hold locks? -/
def freeB (x : Sys) (m : Mu) : Mode → Bool
  | .excl => (List.range 4).all (fun u => (x.held u m).isNone)
  | .shared => (List.range 4).all (fun u => x.held u m != some .excl)

/-- Possible steps. -/
def canB (x : Sys) (t : Nat) : Op → Bool
  | .lock m k => freeB x m k
  | .unlock m k => x.held t m == some k
  | .take => x.token == none
  | .put => x.token == some t
  | _ => true

/-- The call with a number. -/
def callOf : Nat → Call
  | 0 => .fetch
  | 1 => .insert
  | 2 => .setBurst
  | 3 => .observe
  | _ => .flushOne

/-- One step with decision `n`. -/
def go (x : Sys) (t n : Nat) : Option (Sys × Ev Loc Mu) :=
  match x.pc t with
  | .done => some ({ x with saw := fun u => if u = t then false else x.saw u }.goto t (callOf n).sk, .other)
  | .op o k => if canB x t o then some ((o.run x t).2.1.goto t k, (o.run x t).2.2) else none
  | .load k => some ({ x with saw := fun u => if u = t then x.ecb else x.saw u }.goto t (k x.ecb), .load)
  | .test k => some (x.goto t (k x.ec), .read (.fld .ec))
  | .pick k => some (x.goto t (k n), .other)

/-- Several steps of the threads 0 to 3, each with a decision. -/
def gos : List (Nat × Nat) → Sys → Option (Sys × Trace Loc Mu)
  | [], x => some (x, [])
  | (t, n) :: l, x =>
    if t < 4 then
      match go x t n with
      | none => none
      | some (y, e) => (gos l y).map (fun r => (r.1, (t, e) :: r.2))
    else none

/-- Only the first four threads hold locks. -/
def Four (x : Sys) : Prop := ∀ u m, 4 ≤ u → x.held u m = none

theorem free_iff {x : Sys} (h : Four x) {m : Mu} {k : Mode} (hb : freeB x m k = true) : x.Free m k := by
  cases k with
  | excl =>
    intro u
    by_cases hu : u < 4
    · have := List.all_eq_true.mp hb u (List.mem_range.mpr hu)
      simpa using this
    · exact h u m (by omega)
  | shared =>
    intro u
    by_cases hu : u < 4
    · have := List.all_eq_true.mp hb u (List.mem_range.mpr hu)
      simpa using this
    · rw [h u m (by omega)]; intro h; cases h

theorem can_iff {x : Sys} {t : Nat} (h : Four x) {o : Op} (hb : canB x t o = true) : (o.run x t).1 := by
  cases o with
  | lock m k => exact free_iff h hb
  | unlock m k => exact beq_iff_eq.mp hb
  | take => exact beq_iff_eq.mp hb
  | put => exact beq_iff_eq.mp hb
  | _ => trivial

theorem four_run {x : Sys} {t : Nat} (ht : t < 4) (h : Four x) (o : Op) : Four (o.run x t).2.1 := by
  intro u m hu
  have hut : u ≠ t := by omega
  cases o with
  | lock n k => simp only [Op.run, Sys.hold, hut, false_and, if_false]; exact h u m hu
  | unlock n k => simp only [Op.run, Sys.hold, hut, false_and, if_false]; exact h u m hu
  | _ => exact h u m hu

theorem go_step {x y : Sys} {t n : Nat} {e} (ht : t < 4) (h : Four x) (hg : go x t n = some (y, e)) : Step x t y e ∧ Four y := by
  unfold go at hg
  cases hp : x.pc t with
  | done => rw [hp] at hg; cases hg; exact ⟨.call _ hp, h⟩
  | op o k =>
    rw [hp] at hg
    by_cases hc : canB x t o = true
    · simp only [if_pos hc, Option.some.injEq, Prod.mk.injEq] at hg
      obtain ⟨rfl, rfl⟩ := hg
      exact ⟨.op hp (can_iff h hc), four_run ht h o⟩
    · simp only [if_neg hc] at hg; cases hg
  | load k => rw [hp] at hg; cases hg; exact ⟨.load hp, h⟩
  | test k => rw [hp] at hg; cases hg; exact ⟨.test hp, h⟩
  | pick k => rw [hp] at hg; cases hg; exact ⟨.pick n hp, h⟩

theorem gos_exec : ∀ {l : List (Nat × Nat)} {x y : Sys} {tr tr' : Trace Loc Mu}, Exec tr x → Four x →
    gos l x = some (y, tr') → Exec (tr ++ tr') y
  | [], x, y, tr, tr', he, _, h => by cases h; simpa using he
  | (t, n) :: l, x, y, tr, tr', he, hf, h => by
    rw [gos] at h
    by_cases ht : t < 4
    · rw [if_pos ht] at h
      cases hg : go x t n with
      | none => rw [hg] at h; cases h
      | some p =>
        obtain ⟨z, e⟩ := p
        rw [hg] at h
        simp only [Option.map_eq_some_iff] at h
        obtain ⟨⟨y', tr2⟩, h1, h2⟩ := h
        cases h2
        obtain ⟨h3, h4⟩ := go_step ht hf hg
        have := gos_exec (.step he h3) h4 h1
        simpa using this
    · rw [if_neg ht] at h; cases h

theorem gos_four : ∀ {l : List (Nat × Nat)} {x y : Sys} {tr : Trace Loc Mu}, Four x → gos l x = some (y, tr) → Four y
  | [], x, y, tr, hf, h => by cases h; exact hf
  | (t, n) :: l, x, y, tr, hf, h => by
    rw [gos] at h
    by_cases ht : t < 4
    · rw [if_pos ht] at h
      cases hg : go x t n with
      | none => rw [hg] at h; cases h
      | some p =>
        obtain ⟨z, e⟩ := p
        rw [hg] at h
        simp only [Option.map_eq_some_iff] at h
        obtain ⟨⟨y', tr2⟩, h1, h2⟩ := h
        cases h2
        exact gos_four (go_step ht hf hg).2 h1
    · rw [if_neg ht] at h; cases h

/-- The events of an execution that exists. -/
def evs (l : List (Nat × Nat)) : Trace Loc Mu := ((gos l Sys.init).map (·.2)).getD []

theorem evs_exec {l : List (Nat × Nat)} (h : (gos l Sys.init).isSome = true) : ∃ x, Exec (evs l) x := by
  cases hg : gos l Sys.init with
  | none => rw [hg] at h; cases h
  | some p =>
    refine ⟨p.1, ?_⟩
    have := gos_exec (tr := []) .init (fun _ _ _ => rfl) hg
    simp only [evs, hg, Option.map_some, Option.getD_some]
    simpa using this

/-- Thread 1 inserts a value. -/
def oneInsert : List (Nat × Nat) := List.replicate 36 (1, 1)

/-- Thread 0 flushes; the size of the key file cannot be determined, the error has not been recorded yet. -/
def flushFails : List (Nat × Nat) := List.replicate 23 (0, 4) ++ [(0, 0)]

/-- The error is recorded and the flush ends. -/
def flushEnds : List (Nat × Nat) := List.replicate 9 (0, 0)

/-- A flush fails while thread 1 inserts another value. The next flush fails, too. Meanwhile thread 2 fetches: it
sees `ecb_` set, the flush records its error, thread 2 reads `ec_`. -/
def racy : List (Nat × Nat) :=
  oneInsert ++ flushFails ++ oneInsert ++ flushEnds ++ flushFails ++ [(2, 0), (2, 0), (2, 0), (0, 0), (2, 0)]

/-- Nothing happens between neighbours, so an event happens before the next one only by a single rule. -/
theorem HB.next {L M : Type} {tr : Trace L M} {i j : Nat} (h : HB tr i j) : i < j ∧ (j = i + 1 →
    (∃ t a b, tr[i]? = some (t, a) ∧ tr[j]? = some (t, b)) ∨ (∃ t u m k k', tr[i]? = some (t, .unlock m k) ∧
      tr[j]? = some (u, .lock m k')) ∨ (∃ t u, tr[i]? = some (t, .store) ∧ tr[j]? = some (u, .load))) := by
  induction h with
  | order h h1 h2 => exact ⟨h, fun _ => .inl ⟨_, _, _, h1, h2⟩⟩
  | mutex h h1 h2 _ => exact ⟨h, fun _ => .inr (.inl ⟨_, _, _, _, _, h1, h2⟩)⟩
  | atomic h h1 h2 _ => exact ⟨h, fun _ => .inr (.inr ⟨_, _, h1, h2⟩)⟩
  | trans _ _ h1 h2 => exact ⟨by omega, fun h => by omega⟩

/-- `ec_` is not protected: the flush may write it while `fetch` reads it. -/
theorem C59_violated : ∃ tr x, Exec tr x ∧ RaceAt tr (.fld .ec) := by
  obtain ⟨x, hx⟩ := evs_exec (l := racy) (by decide +kernel)
  refine ⟨_, x, hx, 132, 133, 0, 2, .write (.fld .ec), .read (.fld .ec), by omega, ?_, ?_, .inr (.inl ⟨rfl, rfl⟩), ?_⟩
  · decide +kernel
  · decide +kernel
  · have h1 : (evs racy)[132]? = some (0, .write (.fld .ec)) := by decide +kernel
    have h2 : (evs racy)[133]? = some (2, .read (.fld .ec)) := by decide +kernel
    intro h
    rcases h.next.2 rfl with ⟨t, a, b, h3, h4⟩ | ⟨t, u, m, k, k', h3, h4⟩ | ⟨t, u, h3, h4⟩
    · rw [h1] at h3; rw [h2] at h4; cases h3; cases h4
    · rw [h1] at h3; cases h3
    · rw [h1] at h3; cases h3

/-- The steps of this execution in the model with data. -/
def racyActs : List Conc.Act :=
  [.call 1 (.insert [6, 6] [61])] ++ List.replicate 7 (.go 1 .none) ++ [.flush, .call 1 (.insert [8, 8] [81])] ++
  List.replicate 7 (.go 1 .none) ++ [.goF (.fail 0), .goF .none, .flush, .call 2 (.fetch [6, 6])]

/-- The flush is to ask for the size of the key file, `ecb_` is set and thread 2 is about to test it. -/
def racyAt (y : Conc.Sys) : Bool :=
  y.s.ec.isSome && (match y.pc 2 with | .fetch0 _ => true | _ => false) &&
  (match y.fl with | .prep (.size .key _) => true | _ => false) && y.s.p0.length == 1

def racyTest (x : Conc.Sys) : Bool :=
  match Conc.run sharedCfg racyActs x with
  | none => false
  | some (x, _) => racyAt x

/-- The situation of `C59_violated` comes about: with a store created, filled and opened, and the steps above, the
flusher is about to ask for the size of the key file and thread 2 about to test `ecb_`, which is set. -/
theorem C59_reached : ∃ s fs m, Spec.Started sharedCfg demoArgs False s fs m ∧ ∃ y tr,
    Conc.run sharedCfg racyActs (Conc.Sys.init s fs) = some (y, tr) ∧ racyAt y = true := by
  obtain ⟨s, fs, m, h, ht⟩ := demo_shared (P := racyTest) (by decide +kernel)
  refine ⟨s, fs, m, h, ?_⟩
  unfold racyTest at ht
  split at ht
  · cases ht
  · rename_i x tr h1
    exact ⟨_, _, h1, ht⟩

/-- Thread 1 inserts, thread 0 flushes successfully (one round of each loop). Thread 2 fetches before the new buckets are
published, then again, looking into a bucket of `c1` while the flusher writes it to the key file. -/
def busy : List (Nat × Nat) :=
  oneInsert ++ List.replicate 23 (0, 4) ++ [(2, 0)] ++ List.replicate 23 (2, 1) ++ List.replicate 67 (0, 1) ++
  [(2, 0)] ++ List.replicate 13 (2, 1) ++ [(2, 0), (2, 1)] ++ List.replicate 12 (0, 1) ++ List.replicate 3 (2, 1) ++
  List.replicate 32 (0, 1)

/-- `ec_` is not written after `ecb_` is set, by execution. -/
def onceB (tr : Trace Loc Mu) : Bool := (tr.dropWhile (fun e => e.2 != .store)).all (fun e => e.2 != .write (.fld .ec))

theorem once_of {tr : Trace Loc Mu} (h : onceB tr = true) : Once tr := by
  intro i j t u hij hi hj
  have key : ∀ (l : Trace Loc Mu) (i j : Nat), i < j → l[i]? = some (t, .store) → l[j]? = some (u, .write (.fld .ec)) →
      (u, Ev.write (Loc.fld Fld.ec)) ∈ l.dropWhile (fun e => e.2 != .store) := by
    intro l
    induction l with
    | nil => intro i j _ h; simp at h
    | cons a l ih =>
      intro i j hij hi hj
      by_cases ha : (a.2 != .store) = true
      · rw [List.dropWhile_cons_of_pos (p := fun e : Nat × Ev Loc Mu => e.2 != .store) ha]
        obtain ⟨i', rfl⟩ : ∃ i', i = i' + 1 := by
          cases i with
          | zero => simp only [List.getElem?_cons_zero, Option.some.injEq] at hi; subst hi; simp at ha
          | succ i => exact ⟨i, rfl⟩
        obtain ⟨j', rfl⟩ : ∃ j', j = j' + 1 := ⟨j - 1, by omega⟩
        exact ih i' j' (by omega) (by simpa using hi) (by simpa using hj)
      · rw [List.dropWhile_cons_of_neg (p := fun e : Nat × Ev Loc Mu => e.2 != .store) ha]
        exact List.mem_of_getElem? hj
  have := List.all_eq_true.mp h _ (key tr i j hij hi hj)
  simp at this

/- The hypotheses of C59_others and C59_partial, in an execution with conflicting accesses of several threads: the flusher
writes a block before and thread 2 reads it after its publication. -/
example : ∃ x, Exec (evs busy) x ∧ Once (evs busy) ∧ (evs busy).length = 213 ∧
    (0, .write (.blocks 2)) ∈ evs busy ∧ (2, .read (.blocks 2)) ∈ evs busy ∧ (1, .write (.first true)) ∈ evs busy ∧
    (2, .read (.first true)) ∈ evs busy ∧ (0, .write (.pad 2)) ∈ evs busy := by
  obtain ⟨x, hx⟩ := evs_exec (l := busy) (by decide +kernel)
  exact ⟨x, hx, once_of (by decide +kernel), by decide +kernel, by decide +kernel, by decide +kernel, by decide +kernel,
    by decide +kernel, by decide +kernel⟩

/- The hypotheses of C59_partial, in an execution with a failed flush, after which thread 2 reads `ec_`. -/
example : ∃ tr x, Exec tr x ∧ Once tr ∧ (0, .write (.fld .ec)) ∈ tr ∧ (0, .store) ∈ tr ∧ (2, .read (.fld .ec)) ∈ tr := by
  obtain ⟨x, hx⟩ := evs_exec (l := oneInsert ++ flushFails ++ flushEnds ++ List.replicate 4 (2, 0)) (by decide +kernel)
  exact ⟨_, x, hx, once_of (by decide +kernel), by decide +kernel, by decide +kernel, by decide +kernel⟩

/- The hypotheses of C59_only. -/
example : ∃ tr x y t, Exec tr x ∧ Step x t y (.write (.fld .ec)) ∧ x.ecb = true := by
  have h : ((gos (oneInsert ++ flushFails ++ oneInsert ++ flushEnds ++ flushFails) Sys.init).map (fun r =>
    r.1.ecb && ((go r.1 0 0).map (fun q => decide (q.2 = .write (.fld .ec)))).getD false &&
      ((go r.1 0 0).isSome))).getD false = true := by decide +kernel
  cases hg : gos (oneInsert ++ flushFails ++ oneInsert ++ flushEnds ++ flushFails) Sys.init with
  | none => rw [hg] at h; cases h
  | some p =>
    obtain ⟨x, tr⟩ := p
    rw [hg] at h
    have he := gos_exec (tr := []) .init (fun _ _ _ => rfl) hg
    have hf := gos_four (fun _ _ _ => rfl) hg
    simp only [Option.map_some, Option.getD_some, Bool.and_eq_true] at h
    cases hq : go x 0 0 with
    | none => rw [hq] at h; cases h.2
    | some q =>
      obtain ⟨y, e⟩ := q
      rw [hq] at h
      simp only [Option.map_some, Option.getD_some, decide_eq_true_eq] at h
      exact ⟨_, x, y, 0, he, h.1.2 ▸ (go_step (by omega) hf hq).1, h.1.1⟩

end NuDB.Race
