import Verif.Proof.Trace
/-
Concrete histories, used in the examples beside the theorems.
-/
namespace NuDB

open Spec

/-- A poor hash function: the first byte modulo 3. Buckets of 5 entries overflow quickly. -/
def demoCfg : Cfg where
  H := fun _ k => UInt64.ofNat ((k.headD 0).toNat % 3 * 2 ^ 40)
  junk := fun n => UInt8.ofNat (n + 170)
  order := fun l => l.reverse
  order_perm := List.reverse_perm

def demoArgs : CreateArgs :=
  { appnum := 7, uid := 11, salt := 13, keySize := 2, blockSize := 104, load := .rat 1 2 }

theorem demo_creatable : Creatable demoArgs 32768 where
  uid := by decide
  appnum := by decide
  salt := by decide
  key := by decide
  block := by decide
  load := ⟨1, 2, rfl, by decide, by decide, by decide⟩
  lf := by decide

/-- Observations of an undisturbed client. -/
def labels (ops : List Op) (rets : List Ret) : List Label :=
  List.zipWith (fun op r => .call op r false) ops rets

section
variable {c : Cfg}

theorem perform_allowed {keySize : Nat} {op : Op} {so : Option Store} {σ : Schedule} {w w' : World}
    {r : Option Store × Ret} (hs : op.Sound keySize) (h : perform c op so σ w = (.ok r, w')) :
    Allowed keySize op so := by
  cases op <;> cases so <;> first | exact hs | exact trivial | (simp [perform, M.raise] at h)

theorem run_ops {keySize blockSize : Nat} (ops : List Op) (hs : ∀ op ∈ ops, op.Sound keySize) :
    ∀ {so so' : Option Store} {rets : List Ret} {w w' : World},
    runOps c ops so calm w = (.ok (rets, so'), w') →
    Run (Exec c keySize blockSize False) (so, w.fs) (labels ops rets) (so', w'.fs) := by
  induction ops with
  | nil =>
    intro so so' rets w w' h
    simp only [runOps, M.ret, Prod.mk.injEq, Except.ok.injEq] at h
    obtain ⟨⟨rfl, rfl⟩, rfl⟩ := h
    exact .nil _
  | cons op ops ih =>
    intro so so' rets w w' h
    unfold runOps at h
    simp only [bind, M.bind] at h
    cases hp : perform c op so calm w with
    | mk r w1 =>
      rw [hp] at h
      cases r with
      | error e => simp at h
      | ok r =>
        obtain ⟨so1, r1⟩ := r
        simp only at h
        cases hq : runOps c ops so1 calm w1 with
        | mk q w2 =>
          rw [hq] at h
          cases q with
          | error e => simp at h
          | ok q =>
            obtain ⟨rs, so2⟩ := q
            simp only [M.ret, Prod.mk.injEq, Except.ok.injEq] at h
            obtain ⟨⟨rfl, rfl⟩, rfl⟩ := h
            have h1 : Exec c keySize blockSize False (so, w.fs) (.call op r1 false) (so1, w1.fs) :=
              .call calm (perform_allowed (hs op (by simp)) hp)
                ⟨fun _ => .inl calm_nofail, fun h => h.elim⟩ rfl hp (fun _ _ => rfl)
            have h2 := ih (fun o ho => hs o (by simp [ho])) hq
            have h3 : Run (Exec c keySize blockSize False) (so, w.fs) ([] ++ [.call op r1 false]) (so1, w1.fs) :=
              .snoc (.nil _) h1
            exact h3.append h2

end

/-- What an undisturbed client sees after `create`. -/
def demo (c : Cfg) (a : CreateArgs) (ops : List Op) : Except Exc (List Ret × Option Store) × World :=
  (do create c true a; runOps c ops none : M (List Ret × Option Store)) calm ⟨fun _ => none, 0, []⟩

/-- The answers, if nothing went wrong. -/
def demoRets (c : Cfg) (a : CreateArgs) (ops : List Op) : Option (List Ret × Bool) :=
  match (demo c a ops).1 with
  | .ok (rs, so) => some (rs, so.isSome)
  | .error _ => none

theorem demo_reachable {c : Cfg} {a : CreateArgs} {ops : List Op} {rets : List Ret} {o : Bool}
    (hs : ∀ op ∈ ops, op.Sound a.keySize) (h : demoRets c a ops = some (rets, o)) :
    ∃ so fs, so.isSome = o ∧ Reachable c a False (labels ops rets) (so, fs) := by
  unfold demoRets at h
  split at h
  · rename_i rs so e
    simp only [Option.some.injEq, Prod.mk.injEq] at h
    obtain ⟨rfl, rfl⟩ := h
    unfold demo at e
    simp only [bind, M.bind] at e
    cases hc : create c true a calm ⟨fun _ => none, 0, []⟩ with
    | mk r w1 =>
      rw [hc] at e
      cases r with
      | error x => simp at e
      | ok u =>
        simp only at e
        cases hq : runOps c ops none calm w1 with
        | mk q w2 =>
          rw [hq] at e
          simp only at e
          subst e
          exact ⟨so, w2.fs, rfl, calm, true, _, w1, fun _ => rfl, hc, run_ops ops hs hq⟩
  · simp at h

/-- A history with overflowing buckets, splits, several flushes and a reopening. -/
def demoOps : List Op :=
  [.open, .insert [1, 1] [10], .insert [1, 2] [20, 21], .insert [4, 3] [30], .insert [7, 4] [40],
   .insert [1, 5] [50], .insert [4, 6] [60], .insert [7, 7] [70], .insert [2, 8] [80], .flush,
   .insert [1, 1] [11], .fetch [4, 6], .fetch [9, 9], .insert [3, 9] [90], .fetch [3, 9],
   .close, .open, .fetch [7, 7], .fetch [3, 9], .insert [5, 5] [55]]

def demoAns : List Ret :=
  [.done, .done, .done, .done, .done, .done, .done, .done, .done, .done,
   .error .key_exists, .found [60], .error .key_not_found, .done, .found [90],
   .done, .done, .found [70], .found [90], .done]

theorem demo_eval : demoRets demoCfg demoArgs demoOps = some (demoAns, true) := by
  decide +kernel

theorem demoOps_sound (i : Nat) : ∀ op ∈ demoOps.take i, op.Sound demoArgs.keySize := by
  intro op h
  have := List.mem_of_mem_take h
  simp only [demoOps, List.mem_cons, List.not_mem_nil, or_false] at this
  rcases this with h | h | h | h | h | h | h | h | h | h | h | h | h | h | h | h | h | h | h | h <;> subst h <;>
    simp [Op.Sound, demoArgs]

/-- The history above, cut after the `i`-th call. -/
theorem demo_at (i : Nat) {rets : List Ret} {o : Bool}
    (h : demoRets demoCfg demoArgs (demoOps.take i) = some (rets, o)) :
    ∃ so fs, so.isSome = o ∧ Reachable demoCfg demoArgs False (labels (demoOps.take i) rets) (so, fs) :=
  demo_reachable (demoOps_sound i) h

/-- The store and the files after these calls satisfy `P`. -/
def demoTest (c : Cfg) (a : CreateArgs) (ops : List Op) (P : Store → World → Bool) : Bool :=
  match demo c a ops with
  | (.ok (_, some s), w) => P s w
  | _ => false

theorem demo_test {c : Cfg} {a : CreateArgs} {ops : List Op} {P : Store → World → Bool}
    (hs : ∀ op ∈ ops, op.Sound a.keySize) (h : demoTest c a ops P = true) :
    ∃ rets s w, Reachable c a False (labels ops rets) (some s, w.fs) ∧ P s w = true := by
  unfold demoTest at h
  split at h
  · rename_i rs s w e
    unfold demo at e
    simp only [bind, M.bind] at e
    cases hc : create c true a calm ⟨fun _ => none, 0, []⟩ with
    | mk r w1 =>
      rw [hc] at e
      cases r with
      | error x => simp at e
      | ok u =>
        simp only at e
        exact ⟨rs, s, w, ⟨calm, true, _, w1, fun _ => rfl, hc, run_ops ops hs e⟩, h⟩
  · simp at h

/-- The same for calls that leave the store closed. -/
def demoTestClosed (c : Cfg) (a : CreateArgs) (ops : List Op) (P : World → Bool) : Bool :=
  match demo c a ops with
  | (.ok (_, none), w) => P w
  | _ => false

theorem demo_test_closed {c : Cfg} {a : CreateArgs} {ops : List Op} {P : World → Bool}
    (hs : ∀ op ∈ ops, op.Sound a.keySize) (h : demoTestClosed c a ops P = true) :
    ∃ rets w, Reachable c a False (labels ops rets) (none, w.fs) ∧ P w = true := by
  unfold demoTestClosed at h
  split at h
  · rename_i rs w e
    unfold demo at e
    simp only [bind, M.bind] at e
    cases hc : create c true a calm ⟨fun _ => none, 0, []⟩ with
    | mk r w1 =>
      rw [hc] at e
      cases r with
      | error x => simp at e
      | ok u =>
        simp only at e
        exact ⟨rs, w, ⟨calm, true, _, w1, fun _ => rfl, hc, run_ops ops hs e⟩, h⟩
  · simp at h

/-- A closed database without log file, with nine pairs and overflow records. -/
theorem demo_closed : ∃ t fs, Reachable demoCfg demoArgs False t (none, fs) ∧ fs .log = none := by
  have h : demoTestClosed demoCfg demoArgs (demoOps.take 16) (fun w => (w.fs .log).isNone) = true := by
    decide +kernel
  obtain ⟨rets, w, h1, h2⟩ := demo_test_closed (demoOps_sound 16) h
  exact ⟨_, w.fs, h1, by simpa using h2⟩

/-- One fault, at the `n`-th file operation from now. -/
def faultAt (n : Nat) (f : Fault) (w : World) : Schedule := fun i => if i = w.clock + n then f else .none

/-- A result that is a crash. -/
def crashed {α : Type} : Except Exc α × World → Bool
  | (.error .crash, _) => true
  | _ => false

theorem crashed_iff {α : Type} {r : Except Exc α × World} (h : crashed r = true) : ∃ w, r = (.error .crash, w) := by
  unfold crashed at h
  split at h
  · rename_i w; exact ⟨w, rfl⟩
  · cases h

/-- Eight pairs are flushed, and the process dies while the bucket that overflows is
being rewritten: half of the block is written. -/
theorem demo_crash : ∃ t s w w₁, Reachable demoCfg demoArgs False t (some s, w.fs) ∧ s.ec = none ∧
    s.p1.length = 8 ∧ flush demoCfg s (faultAt 11 (.crash 50) w) w = (.error .crash, w₁) ∧
    -- recovery afterwards may be interrupted, too
    ∃ w₂, recover demoCfg (faultAt 9 (.crash 0) w₁) w₁ = (.error .crash, w₂) := by
  have h : demoTest demoCfg demoArgs (demoOps.take 9) (fun s w => s.ec == none && s.p1.length == 8 &&
      crashed (flush demoCfg s (faultAt 11 (.crash 50) w) w) &&
      crashed (recover demoCfg (faultAt 9 (.crash 0) (flush demoCfg s (faultAt 11 (.crash 50) w) w).2)
        (flush demoCfg s (faultAt 11 (.crash 50) w) w).2)) = true := by decide +kernel
  obtain ⟨rets, s, w, h1, h2⟩ := demo_test (demoOps_sound 9) h
  simp only [Bool.and_eq_true, beq_iff_eq] at h2
  obtain ⟨w₁, h3⟩ := crashed_iff h2.1.2
  obtain ⟨w₂, h4⟩ := crashed_iff h2.2
  rw [h3] at h4
  exact ⟨_, s, w, w₁, h1, h2.1.1.1, h2.1.1.2, h3, w₂, h4⟩

/-- The same with an operation that fails: the store keeps the error. -/
theorem demo_fail : ∃ t s w s' w₁, Reachable demoCfg demoArgs False t (some s, w.fs) ∧ s.ec = none ∧
    s.p1.length = 8 ∧ flush demoCfg s (faultAt 11 (.fail 50) w) w = (.ok s', w₁) ∧ s'.ec ≠ none := by
  have h : demoTest demoCfg demoArgs (demoOps.take 9) (fun s w => s.ec == none && s.p1.length == 8 &&
      match flush demoCfg s (faultAt 11 (.fail 50) w) w with
      | (.ok s', _) => s'.ec == some .io
      | _ => false) = true := by decide +kernel
  obtain ⟨rets, s, w, h1, h2⟩ := demo_test (demoOps_sound 9) h
  simp only [Bool.and_eq_true, beq_iff_eq] at h2
  have h3 := h2.2
  split at h3
  · rename_i s' w₁ e
    exact ⟨_, s, w, s', w₁, h1, h2.1.1, h2.1.2, e, by simp at h3; simp [h3]⟩
  · cases h3

end NuDB
