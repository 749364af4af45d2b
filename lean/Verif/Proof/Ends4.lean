import Verif.Proof.Ends3
/-
The number of rounds that a lookup is given does not matter.
-/
namespace NuDB

open Spec

section
variable {X : Type} {next : X → Option X}

/-- `n` steps are possible. -/
def NSteps (next : X → Option X) : Nat → X → Prop
  | 0, _ => True
  | n + 1, x => ∃ y, next x = some y ∧ NSteps next n y

/-- The state after `n` steps. -/
def afterN (next : X → Option X) (x : X) : Nat → Option X
  | 0 => some x
  | n + 1 => (afterN next x n).bind next

theorem after_succ {x y : X} (h : next x = some y) (n : Nat) : afterN next x (n + 1) = afterN next y n := by
  induction n with
  | zero => simp [afterN, h]
  | succ n ih => rw [afterN, ih]; rfl

theorem after_none {x : X} (h : next x = none) (n : Nat) : afterN next x (n + 1) = none := by
  induction n with
  | zero => simp [afterN, h]
  | succ n ih => rw [afterN, ih]; rfl

theorem steps_iff {n : Nat} : ∀ {x : X}, NSteps next n x ↔ (afterN next x n).isSome = true := by
  induction n with
  | zero => intro x; simp [NSteps, afterN]
  | succ n ih =>
    intro x
    unfold NSteps
    cases h : next x with
    | none => rw [after_none h]; simp
    | some y =>
      rw [after_succ h, ← ih]
      constructor
      · rintro ⟨z, h1, h2⟩; cases h1; exact h2
      · intro h1; exact ⟨y, rfl, h1⟩

theorem after_some_le {x : X} {n m : Nat} (h : (afterN next x n).isSome = true) (hm : m ≤ n) : (afterN next x m).isSome = true := by
  induction n with
  | zero => rw [show m = 0 by omega]; exact h
  | succ n ih =>
    by_cases e : m = n + 1
    · rw [e]; exact h
    · apply ih _ (by omega)
      unfold afterN at h
      cases h1 : afterN next x n with
      | none => rw [h1] at h; cases h
      | some y => rfl

theorem after_cycle {x : X} {i j : Nat} (h : afterN next x i = afterN next x j) (k : Nat) :
    afterN next x (i + k) = afterN next x (j + k) := by
  induction k with
  | zero => exact h
  | succ k ih => exact congrArg (·.bind next) ih

theorem steps_forever {key : X → Nat} {D : Nat} (hk : ∀ x y, next x = some y → key x < D)
    (hd : ∀ x x' y y', next x = some y → next x' = some y' → key x = key x' → y = y') {x : X} (h : NSteps next (D + 2) x) (n : Nat) :
    NSteps next n x := by
  rw [steps_iff] at h
  have st : ∀ i, i ≤ D → ∃ y z, afterN next x i = some y ∧ next y = some z ∧ afterN next x (i + 1) = some z := by
    intro i hi
    obtain ⟨z, hz⟩ := Option.isSome_iff_exists.1 (after_some_le (m := i + 1) h (by omega))
    have hz' := hz
    unfold afterN at hz'
    cases hy : afterN next x i with
    | none => rw [hy] at hz'; cases hz'
    | some y => rw [hy] at hz'; exact ⟨y, z, rfl, hz', hz⟩
  obtain ⟨i, j, h1, h2, h3⟩ := pigeon D (fun i => match afterN next x i with | some y => key y | none => 0) (by
    intro i hi
    obtain ⟨y, z, e1, e2, e3⟩ := st i hi
    simp only [e1]
    exact hk _ _ e2)
  obtain ⟨y, z, e1, e2, e3⟩ := st i (by omega)
  obtain ⟨y', z', e1', e2', e3'⟩ := st j h2
  simp only [e1, e1'] at h3
  have hz := hd _ _ _ _ e2 e2' h3
  have cyc : afterN next x (i + 1) = afterN next x (j + 1) := by rw [e3, e3', hz]
  rw [steps_iff]
  induction n using Nat.strongRecOn with
  | ind n ih =>
    by_cases hn : n ≤ D + 2
    · exact after_some_le h hn
    · have := after_cycle cyc (n - (j + 1))
      rw [show j + 1 + (n - (j + 1)) = n by omega] at this
      rw [← this]
      exact ih _ (by omega)

end

section
variable {α β γ : Type} {σ : Schedule}

theorem M.bind_bind (m : M α) (k : α → M β) (k' : β → M γ) : (m >>= k) >>= k' = m >>= fun a => k a >>= k' := by
  funext σ w
  show M.bind (M.bind m k) k' σ w = M.bind m (fun a => M.bind (k a) k') σ w
  unfold M.bind
  rcases m σ w with ⟨a | a, w'⟩ <;> rfl

/-- Without faults, the outcome depends on the files only, which stay the same. -/
def Pureish (fs : Fs) (m : M α) : Prop := ∃ r, ∀ w, w.fs = fs → (m calm w).1 = r ∧ (m calm w).2.fs = fs

theorem Pureish.bind {fs : Fs} {m : M α} {k : α → M β} (h : Pureish fs m) (hk : ∀ a, Pureish fs (k a)) : Pureish fs (m >>= k) := by
  obtain ⟨r, hr⟩ := h
  cases r with
  | error x =>
    refine ⟨.error x, fun w hw => ?_⟩
    obtain ⟨h1, h2⟩ := hr w hw
    show (M.bind m k calm w).1 = _ ∧ (M.bind m k calm w).2.fs = fs
    unfold M.bind
    rcases hm : m calm w with ⟨a | a, w'⟩
    · rw [hm] at h1 h2; cases h1; exact ⟨rfl, h2⟩
    · rw [hm] at h1; cases h1
  | ok a =>
    obtain ⟨r', hr'⟩ := hk a
    refine ⟨r', fun w hw => ?_⟩
    obtain ⟨h1, h2⟩ := hr w hw
    show (M.bind m k calm w).1 = _ ∧ (M.bind m k calm w).2.fs = fs
    unfold M.bind
    rcases hm : m calm w with ⟨a' | a', w'⟩
    · rw [hm] at h1; cases h1
    · rw [hm] at h1 h2; cases h1; exact hr' w' h2

theorem Pureish.ret {fs : Fs} {a : α} : Pureish fs (M.ret a) := ⟨.ok a, fun _ h => ⟨rfl, h⟩⟩
theorem Pureish.fail {fs : Fs} {e : Err} : Pureish fs (M.fail e : M α) := ⟨.error (.err e), fun _ h => ⟨rfl, h⟩⟩
theorem Pureish.raise {fs : Fs} {x : Exc} : Pureish fs (M.raise x : M α) := ⟨.error x, fun _ h => ⟨rfl, h⟩⟩
theorem Pureish.lift {fs : Fs} {r : Res α} : Pureish fs (M.lift r) := ⟨r, fun _ h => ⟨rfl, h⟩⟩

theorem pureish_fRead {fs : Fs} {p : Path} {o n : Nat} : Pureish fs (fRead p o n) := by
  refine ⟨(fRead p o n calm ⟨fs, 0, []⟩).1, fun w hw => ?_⟩
  unfold fRead fileOp calm
  dsimp only
  rw [hw]
  refine ⟨rfl, ?_⟩
  split
  · split <;> rfl
  · rfl

theorem pureish_readFile {fs : Fs} {b : Bkt} {p : Path} {o : Nat} : Pureish fs (b.readFile p o) := by
  unfold Bkt.readFile
  refine Pureish.bind pureish_fRead fun _ => Pureish.bind Pureish.lift fun _ => Pureish.bind Pureish.lift fun _ => ?_
  split
  · exact Pureish.fail
  · exact Pureish.ret

theorem pureish_fetchScan {fs : Fs} {keySize h : Nat} {key : Bytes} {b : Bkt} : ∀ fuel i, Pureish fs (fetchScan keySize h key b fuel i) := by
  intro fuel
  induction fuel with
  | zero => intro _; exact Pureish.raise
  | succ n ih =>
    intro i
    unfold fetchScan
    split
    · refine Pureish.bind Pureish.lift fun e => ?_
      split
      · exact Pureish.ret
      · refine Pureish.bind pureish_fRead fun d => ?_
        split
        · exact Pureish.ret
        · exact ih _
    · exact Pureish.ret

theorem pureish_existsScan {fs : Fs} {keySize h : Nat} {key : Bytes} {b : Bkt} : ∀ fuel i, Pureish fs (existsScan keySize h key b fuel i) := by
  intro fuel
  induction fuel with
  | zero => intro _; exact Pureish.raise
  | succ n ih =>
    intro i
    unfold existsScan
    split
    · refine Pureish.bind Pureish.lift fun e => ?_
      split
      · exact Pureish.ret
      · refine Pureish.bind pureish_fRead fun d => ?_
        split
        · exact Pureish.ret
        · exact ih _
    · exact Pureish.ret

/-- The part of a round before the next bucket is read: a value, or nothing and there is a next bucket. -/
def fetchLook (kh : KeyHeader) (h : Nat) (key : Bytes) (b : Bkt) : M (Option Bytes) := do
  let i ← M.lift (b.lowerBound h)
  match ← fetchScan kh.keySize h key b (b.size + 1) i with
  | some v => M.ret (some v)
  | none => if b.spill = 0 then M.fail .key_not_found else M.ret none

def existsLook (kh : KeyHeader) (h : Nat) (key : Bytes) (b : Bkt) : M (Option Bool) := do
  let i ← M.lift (b.lowerBound h)
  if ← existsScan kh.keySize h key b (b.size + 1) i then M.ret (some true)
  else if b.spill = 0 then M.ret (some false) else M.ret none

/-- Reading the next bucket. -/
def follow (c : Cfg) (kh : KeyHeader) (o : Nat) : M Bkt := do
  let nb ← M.lift (Bkt.ofMem kh.blockSize (c.fresh kh.blockSize))
  nb.readFile .dat o

/-- A walk along the chain. -/
def trek (look : Bkt → M (Option α)) (next : Nat → M Bkt) : Nat → Bkt → M α
  | 0, _ => M.raise .hang
  | n + 1, b => do
    match ← look b with
    | some v => M.ret v
    | none => do
      let nb ← next b.spill
      trek look next n nb

variable {c : Cfg} {kh : KeyHeader} {h : Nat} {key : Bytes}

theorem fetchBucket_trek (n : Nat) : ∀ b, fetchBucket c kh h key n b = trek (fetchLook kh h key) (follow c kh) n b := by
  induction n with
  | zero => intro b; rfl
  | succ n ih =>
    intro b
    unfold fetchBucket trek fetchLook follow
    rw [M.bind_bind]
    congr 1; funext i
    rw [M.bind_bind]
    congr 1; funext r
    cases r with
    | some v => rfl
    | none =>
      by_cases hs : b.spill = 0
      · simp only [hs, if_true]; rfl
      · simp only [hs, if_false]
        show _ = M.bind (M.ret none) _
        unfold M.bind M.ret
        show _ = (fun σ w => _)
        funext σ w
        dsimp only
        rw [M.bind_bind]
        exact congrFun (congrFun (congrArg _ (funext fun nb => congrArg _ (funext fun nb' => ih nb'))) σ) w

theorem existsBucket_trek (n : Nat) : ∀ b, existsBucket c kh h key n b = trek (existsLook kh h key) (follow c kh) n b := by
  induction n with
  | zero => intro b; rfl
  | succ n ih =>
    intro b
    unfold existsBucket trek existsLook follow
    rw [M.bind_bind]
    congr 1; funext i
    rw [M.bind_bind]
    congr 1; funext r
    cases r with
    | true => rfl
    | false =>
      by_cases hs : b.spill = 0
      · simp only [hs, if_true]; rfl
      · simp only [hs, if_false, Bool.false_eq_true]
        show _ = M.bind (M.ret none) _
        unfold M.bind M.ret
        show _ = (fun σ w => _)
        funext σ w
        dsimp only
        rw [M.bind_bind]
        exact congrFun (congrFun (congrArg _ (funext fun nb => congrArg _ (funext fun nb' => ih nb'))) σ) w

variable {fs : Fs} {look : Bkt → M (Option α)} {next : Nat → M Bkt}

/-- The next bucket of a walk without faults. -/
def nextOf (fs : Fs) (look : Bkt → M (Option α)) (next : Nat → M Bkt) (b : Bkt) : Option Bkt :=
  match (look b calm ⟨fs, 0, []⟩).1 with
  | .ok none => match (next b.spill calm ⟨fs, 0, []⟩).1 with
    | .ok nb => some nb
    | .error _ => none
  | _ => none

theorem Pureish.same {m : M α} (h : Pureish fs m) {w : World} (hw : w.fs = fs) :
    (m calm w).1 = (m calm ⟨fs, 0, []⟩).1 ∧ (m calm w).2.fs = fs := by
  obtain ⟨r, hr⟩ := h
  exact ⟨(hr w hw).1.trans (hr ⟨fs, 0, []⟩ rfl).1.symm, (hr w hw).2⟩

theorem trek_hang (hp : ∀ b, Pureish fs (look b)) (hn : ∀ o, Pureish fs (next o))
    (hl : ∀ b w, (look b calm w).1 ≠ .error .hang) (hm : ∀ o w, (next o calm w).1 ≠ .error .hang) (n : Nat) :
    ∀ b (w : World), w.fs = fs → ((trek look next n b calm w).1 = .error .hang ↔ NSteps (nextOf fs look next) n b) := by
  induction n with
  | zero => intro b w _; exact ⟨fun _ => trivial, fun _ => rfl⟩
  | succ n ih =>
    intro b w hw
    obtain ⟨e1, e2⟩ := (hp b).same hw
    unfold trek NSteps nextOf
    show (M.bind (look b) _ calm w).1 = _ ↔ _
    unfold M.bind
    rcases hx : look b calm w with ⟨x | x, w1⟩
    · rw [hx] at e1 e2
      rw [← e1]
      dsimp only
      constructor
      · intro h; have := hl b w; rw [hx] at this; cases h; exact absurd rfl this
      · rintro ⟨y, h, _⟩; cases h
    · rw [hx] at e1 e2
      rw [← e1]
      dsimp only at e2 ⊢
      cases x with
      | some v =>
        dsimp only
        constructor
        · intro h; cases h
        · rintro ⟨y, h, _⟩; cases h
      | none =>
        obtain ⟨d1, d2⟩ := (hn b.spill).same e2
        show (M.bind (next b.spill) _ calm w1).1 = _ ↔ _
        unfold M.bind
        rcases hy : next b.spill calm w1 with ⟨y | y, w2⟩
        · rw [hy] at d1 d2
          rw [← d1]
          dsimp only
          constructor
          · intro h; have := hm b.spill w1; rw [hy] at this; cases h; exact absurd rfl this
          · rintro ⟨y, h, _⟩; cases h
        · rw [hy] at d1 d2
          rw [← d1]
          dsimp only at d2 ⊢
          rw [ih y w2 d2]
          constructor
          · intro h; exact ⟨y, rfl, h⟩
          · rintro ⟨z, h1, h2⟩; cases h1; exact h2

theorem trek_forever {D : Nat} (hp : ∀ b, Pureish fs (look b)) (hn : ∀ o, Pureish fs (next o))
    (hl : ∀ b w, (look b calm w).1 ≠ .error .hang) (hm : ∀ o w, (next o calm w).1 ≠ .error .hang)
    (hd : ∀ o nb, (next o calm ⟨fs, 0, []⟩).1 = .ok nb → o < D) {b : Bkt} {w : World} (hw : w.fs = fs)
    (h : (trek look next (D + 2) b calm w).1 = .error .hang) (n : Nat) : (trek look next n b calm w).1 = .error .hang := by
  rw [trek_hang hp hn hl hm _ _ _ hw] at h ⊢
  have key : ∀ x y, nextOf fs look next x = some y → (next x.spill calm ⟨fs, 0, []⟩).1 = .ok y := by
    intro x y hx
    unfold nextOf at hx
    split at hx
    · split at hx
      · rename_i e; cases hx; exact e
      · cases hx
    · cases hx
  refine steps_forever (key := Bkt.spill) (D := D) ?_ ?_ h n
  · intro x y hx; exact hd _ _ (key x y hx)
  · intro x x' y y' h1 h2 h3
    have e1 := key _ _ h1
    have e2 := key _ _ h2
    rw [h3] at e1
    rw [e1] at e2
    cases e2
    rfl

/-- Equal outcome unless the first one does not end. -/
def AgreeH (σ : Schedule) (m m' : M α) : Prop := ∀ w, (m σ w).1 ≠ .error .hang → m' σ w = m σ w

theorem AgreeH.bind {m : M α} {k k' : α → M β} (h : ∀ a, AgreeH σ (k a) (k' a)) : AgreeH σ (m >>= k) (m >>= k') := by
  intro w hw
  change (M.bind m k σ w).1 ≠ _ at hw
  show M.bind m k' σ w = M.bind m k σ w
  unfold M.bind at *
  rcases hm : m σ w with ⟨a | a, w'⟩
  · rfl
  · rw [hm] at hw
    exact h a w' hw

theorem trek_more (n k : Nat) : ∀ b, AgreeH σ (trek look next n b) (trek look next (n + k) b) := by
  induction n with
  | zero => intro b w h; exact absurd rfl h
  | succ n ih =>
    intro b
    rw [show n + 1 + k = (n + k) + 1 by omega]
    unfold trek
    refine AgreeH.bind fun r => ?_
    cases r with
    | some v => intro w _; rfl
    | none => exact AgreeH.bind fun nb => ih nb

theorem no_hang {m : M α} {R : α → Prop} (h : Ends σ anyFs False m R) (w : World) : (m σ w).1 ≠ .error .hang :=
  fun e => h.result trivial e

theorem ends_fetchLook {I : Fs → Prop} {C : Prop} {b : Bkt} : Ends σ I C (fetchLook kh h key b) (fun _ => True) := by
  unfold fetchLook
  refine Ends.bind (Ends.liftT nh_lowerBound) fun i _ => ?_
  refine Ends.bind (ends_fetchScan _ _ (by omega) (by omega)) fun r _ => ?_
  split
  · exact Ends.ret trivial
  · split
    · exact Ends.fail
    · exact Ends.ret trivial

theorem ends_existsLook {I : Fs → Prop} {C : Prop} {b : Bkt} : Ends σ I C (existsLook kh h key b) (fun _ => True) := by
  unfold existsLook
  refine Ends.bind (Ends.liftT nh_lowerBound) fun i _ => ?_
  refine Ends.bind (ends_existsScan _ _ (by omega) (by omega)) fun r _ => ?_
  cases r
  · split
    · rename_i h; cases h
    · split <;> exact Ends.ret trivial
  · exact Ends.ret trivial

theorem ends_follow {I : Fs → Prop} {C : Prop} {o : Nat} : Ends σ I C (follow c kh o) (fun _ => True) := by
  unfold follow
  refine Ends.bind ends_ofMem fun b _ => ?_
  unfold Bkt.readFile
  refine Ends.bind ends_fRead fun d _ => ?_
  refine Ends.bind (Ends.liftT nh_poke) fun d _ => ?_
  refine Ends.bind (Ends.liftT nh_ofMem) fun d _ => ?_
  split
  · exact Ends.fail
  · exact Ends.ret trivial

theorem pureish_fetchLook {b : Bkt} : Pureish fs (fetchLook kh h key b) := by
  unfold fetchLook
  refine Pureish.bind Pureish.lift fun i => ?_
  refine Pureish.bind (pureish_fetchScan _ _) fun r => ?_
  split
  · exact Pureish.ret
  · split
    · exact Pureish.fail
    · exact Pureish.ret

theorem pureish_existsLook {b : Bkt} : Pureish fs (existsLook kh h key b) := by
  unfold existsLook
  refine Pureish.bind Pureish.lift fun i => ?_
  refine Pureish.bind (pureish_existsScan _ _) fun r => ?_
  cases r
  · split
    · rename_i h; cases h
    · split <;> exact Pureish.ret
  · exact Pureish.ret

theorem pureish_follow {o : Nat} : Pureish fs (follow c kh o) := by
  unfold follow
  exact Pureish.bind Pureish.lift fun b => pureish_readFile

theorem follow_lt {f : FileSt} {o : Nat} {nb : Bkt} (hf : fs .dat = some f)
    (h : (follow c kh o calm ⟨fs, 0, []⟩).1 = .ok nb) : o < f.cur.length := by
  have : Ends calm (· = fs) True (follow c kh o) (fun _ => o < f.cur.length) := by
    unfold follow
    refine Ends.bind ends_ofMem fun b _ => ?_
    unfold Bkt.readFile
    refine Ends.bind (ends_fRead_at hf (by unfold bucketSize; omega)) fun d hd => ?_
    have hd : o < f.cur.length := by have := hd.2; unfold bucketSize at this; omega
    refine Ends.bind (Ends.liftT nh_poke) fun d _ => ?_
    refine Ends.bind (Ends.liftT nh_ofMem) fun d _ => ?_
    split
    · exact Ends.fail
    · exact Ends.ret hd
  have := this ⟨fs, 0, []⟩ rfl
  unfold wp at this
  rcases hr : follow c kh o calm ⟨fs, 0, []⟩ with ⟨a | a, w'⟩
  · rw [hr] at h; cases h
  · rw [hr] at this; exact this.2

end

end NuDB
