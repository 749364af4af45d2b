import Verif.Model.FailFile
import Verif.Spec.FailFile
/-
Runs with `fail_file` are runs of the model with failing operations.
-/
namespace NuDB.FailFile
open Spec

theorem cur_push (f : FileSt) (op : POp) : (f.push op).cur = op.apply f.cur := by
  simp [FileSt.push, FileSt.cur, List.foldl_append]

theorem cur_synced (f : FileSt) : f.synced.cur = f.cur := rfl

def Present (fs : Fs) : Prop := ∀ p, ∃ f, fs p = some f

theorem Present.set (h : Present fs) (p : Path) (f : FileSt) : Present (fs.set p (some f)) := by
  intro q
  unfold Fs.set
  by_cases hq : q = p
  · rw [if_pos hq]; exact ⟨_, rfl⟩
  · rw [if_neg hq]; exact h q

theorem same_set (h : SameContents a b) (p : Path) {f g : FileSt} (hc : f.cur = g.cur) :
    SameContents (a.set p (some f)) (b.set p (some g)) := by
  intro q
  unfold Fs.set
  by_cases hq : q = p
  · rw [if_pos hq, if_pos hq]; simp [hc]
  · rw [if_neg hq, if_neg hq]; exact h q

theorem same_set_right (h : SameContents a b) (p : Path) {f g : FileSt} (hf : a p = some f) (hc : f.cur = g.cur) :
    SameContents a (b.set p (some g)) := by
  intro q
  unfold Fs.set
  by_cases hq : q = p
  · subst hq; rw [if_pos rfl, hf]; simp [hc]
  · rw [if_neg hq]; exact h q

theorem same_at (h : SameContents a b) (hp : Present a) (p : Path) :
    ∃ f g, a p = some f ∧ b p = some g ∧ f.cur = g.cur := by
  obtain ⟨f, hf⟩ := hp p
  have := h p
  rw [hf] at this
  cases hb : b p with
  | none => rw [hb] at this; cases this
  | some g => rw [hb] at this; exact ⟨f, g, hf, rfl, Option.some.inj this⟩

/-- One operation of `fail_file` is one of the model, with some fault. -/
def Covered (a : FM α) (m : M α) : Prop :=
  ∀ c fs fs', Present fs → SameContents fs fs' → ∀ n out, ∃ (f : Fault) (g' : Fs), (∀ k, f ≠ .crash k) ∧
    (c.target = 0 → f = .none) ∧ (a c fs).2.1.target = c.target ∧ Present (a c fs).2.2 ∧
    (∀ τ : Schedule, τ n = f → m τ ⟨fs', n, out⟩ = ((a c fs).1, ⟨g', n + 1, out⟩)) ∧
      SameContents (a c fs).2.2 g'

theorem Counter.fail_target (c : Counter) : c.fail.2.target = c.target := by
  unfold Counter.fail
  by_cases h : c.target ≠ 0
  · rw [if_pos h]
  · rw [if_neg h]

theorem Counter.fail_zero (c : Counter) (h : c.target = 0) : c.fail = (false, c) := by
  unfold Counter.fail
  rw [if_neg (fun hn => hn h)]

theorem Covered.ifFail {a b : FM α} {m : M α} (ha : Covered a m ∨ ∀ c fs fs', Present fs → SameContents fs fs' → ∀ n out,
    ∃ (f : Fault) (g' : Fs), (∀ k, f ≠ .crash k) ∧ (a c fs).2.1.target = c.target ∧ Present (a c fs).2.2 ∧
    (∀ τ : Schedule, τ n = f → m τ ⟨fs', n, out⟩ = ((a c fs).1, ⟨g', n + 1, out⟩)) ∧
      SameContents (a c fs).2.2 g') (hb : Covered b m) : Covered (ifFail a b) m := by
  intro c fs fs' hp hs n out
  unfold FailFile.ifFail
  by_cases h : c.fail.1 = true
  · simp only [h, if_true]
    have hne : c.target ≠ 0 := by
      intro h0; rw [Counter.fail_zero c h0] at h; cases h
    rcases ha with ha | ha
    · obtain ⟨f, g', h1, _, h3, h4, h5⟩ := ha c.fail.2 fs fs' hp hs n out
      exact ⟨f, g', h1, fun h0 => absurd h0 hne, by rw [h3, Counter.fail_target], h4, h5⟩
    · obtain ⟨f, g', h1, h3, h4, h5⟩ := ha c.fail.2 fs fs' hp hs n out
      exact ⟨f, g', h1, fun h0 => absurd h0 hne, by rw [h3, Counter.fail_target], h4, h5⟩
  · simp only [h, if_false, Bool.false_eq_true]
    obtain ⟨f, g', h1, h2, h3, h4, h5⟩ := hb c.fail.2 fs fs' hp hs n out
    exact ⟨f, g', h1, fun h0 => h2 (by rw [Counter.fail_target]; exact h0), by rw [h3, Counter.fail_target], h4, h5⟩

theorem covered_size (p : Path) : Covered (size p) (fSize p) := by
  intro c fs fs' hp hs n out
  obtain ⟨f, g, hf, hg, hc⟩ := same_at hs hp p
  refine ⟨.none, fs', (fun k h => by cases h), fun _ => rfl, rfl, ?_, (fun τ ht => ?_), ?_⟩
  · simp only [size, under, fSize, fileOp, calm, hf]; exact hp
  · simp only [size, under, fSize, fileOp, calm, hf, hg, ht, hc]
  · simp only [size, under, fSize, fileOp, calm, hf]; exact hs

theorem covered_read (p : Path) (off n : Nat) : Covered (read p off n) (fRead p off n) := by
  refine Covered.ifFail (Or.inr ?_) ?_
  · intro c fs fs' hp hs m out
    refine ⟨.fail 0, fs', (fun k h => by cases h), rfl, hp, (fun τ ht => ?_), hs⟩
    simp only [fRead, fileOp, ht, doFail]
  · intro c fs fs' hp hs m out
    obtain ⟨f, g, hf, hg, hc⟩ := same_at hs hp p
    refine ⟨.none, fs', (fun k h => by cases h), fun _ => rfl, rfl, ?_, (fun τ ht => ?_), ?_⟩
    · simp only [under, fRead, fileOp, calm, hf]; split <;> exact hp
    · simp only [under, fRead, fileOp, calm, hf, hg, ht, hc]; split <;> rfl
    · simp only [under, fRead, fileOp, calm, hf]; split <;> exact hs

theorem covered_write (p : Path) (off : Nat) (bs : Bytes) : Covered (write p off bs) (fWrite p off bs) := by
  refine Covered.ifFail (Or.inr ?_) (Covered.ifFail (Or.inr ?_) ?_)
  · intro c fs fs' hp hs m out
    obtain ⟨f, g, hf, hg, hc⟩ := same_at hs hp p
    refine ⟨.fail 0, fs'.set p (some (g.push (.write off []))), (fun k h => by cases h), rfl, hp, (fun τ ht => ?_), ?_⟩
    · simp only [fWrite, fileOp, ht, doFail, hg, List.take_zero]
    · exact same_set_right hs p hf (by rw [cur_push, hc]; simp [POp.apply, writeAt])
  · intro c fs fs' hp hs m out
    obtain ⟨f, g, hf, hg, hc⟩ := same_at hs hp p
    refine ⟨.fail ((bs.length + 1) / 2), fs'.set p (some (g.push (.write off (bs.take ((bs.length + 1) / 2))))), (fun k h => by cases h), ?_, ?_, (fun τ ht => ?_), ?_⟩
    · simp only [thenFail, under, fWrite, fileOp, calm, hf, doFail]
    · simp only [thenFail, under, fWrite, fileOp, calm, hf, doFail]; exact hp.set _ _
    · simp only [thenFail, under, fWrite, fileOp, calm, hf, doFail, hg, ht]
    · simp only [thenFail, under, fWrite, fileOp, calm, hf, doFail]
      exact same_set hs p (by rw [cur_push, cur_push, hc])
  · intro c fs fs' hp hs m out
    obtain ⟨f, g, hf, hg, hc⟩ := same_at hs hp p
    refine ⟨.none, fs'.set p (some (g.push (.write off bs))), (fun k h => by cases h), fun _ => rfl, rfl, ?_, (fun τ ht => ?_), ?_⟩
    · simp only [under, fWrite, fileOp, calm, hf]; exact hp.set _ _
    · simp only [under, fWrite, fileOp, calm, hf, hg, ht]
    · simp only [under, fWrite, fileOp, calm, hf]
      exact same_set hs p (by rw [cur_push, cur_push, hc])

theorem covered_append (p : Path) (off : Nat) (bs : Bytes) : Covered (append p off bs) (fAppend p off bs) := by
  refine Covered.ifFail (Or.inr ?_) (Covered.ifFail (Or.inr ?_) ?_)
  · intro c fs fs' hp hs m out
    obtain ⟨f, g, hf, hg, hc⟩ := same_at hs hp p
    refine ⟨.fail 0, if off = g.cur.length then fs'.set p (some (g.push (.write off []))) else fs', (fun k h => by cases h), rfl, hp, (fun τ ht => ?_), ?_⟩
    · simp only [fAppend, fileOp, ht, doFail, hg, List.take_zero]
    · by_cases ho : off = g.cur.length
      · rw [if_pos ho]; exact same_set_right hs p hf (by rw [cur_push, hc]; simp [POp.apply, writeAt])
      · rw [if_neg ho]; exact hs
  · intro c fs fs' hp hs m out
    obtain ⟨f, g, hf, hg, hc⟩ := same_at hs hp p
    by_cases ho : off = g.cur.length
    · refine ⟨.fail ((bs.length + 1) / 2), fs'.set p (some (g.push (.write off (bs.take ((bs.length + 1) / 2))))), (fun k h => by cases h), ?_, ?_, (fun τ ht => ?_), ?_⟩
      · simp only [thenFail, under, fAppend, fileOp, calm, hf, doFail, hc, if_pos ho]
      · simp only [thenFail, under, fAppend, fileOp, calm, hf, doFail, hc, if_pos ho]; exact hp.set _ _
      · simp only [thenFail, under, fAppend, fileOp, calm, hf, doFail, hg, ht, hc, if_pos ho]
      · simp only [thenFail, under, fAppend, fileOp, calm, hf, doFail, hc, if_pos ho]
        exact same_set hs p (by rw [cur_push, cur_push, hc])
    · refine ⟨.none, fs', (fun k h => by cases h), ?_, ?_, (fun τ ht => ?_), ?_⟩
      · simp only [thenFail, under, fAppend, fileOp, calm, hf, doFail, hc, if_neg ho]
      · simp only [thenFail, under, fAppend, fileOp, calm, hf, doFail, hc, if_neg ho]; exact hp
      · simp only [thenFail, under, fAppend, fileOp, calm, hf, doFail, hg, ht, hc, if_neg ho]
      · simp only [thenFail, under, fAppend, fileOp, calm, hf, doFail, hc, if_neg ho]; exact hs
  · intro c fs fs' hp hs m out
    obtain ⟨f, g, hf, hg, hc⟩ := same_at hs hp p
    by_cases ho : off = g.cur.length
    · refine ⟨.none, fs'.set p (some (g.push (.write off bs))), (fun k h => by cases h), fun _ => rfl, rfl, ?_, (fun τ ht => ?_), ?_⟩
      · simp only [under, fAppend, fileOp, calm, hf, hc, if_pos ho]; exact hp.set _ _
      · simp only [under, fAppend, fileOp, calm, hf, hg, ht, hc, if_pos ho]
      · simp only [under, fAppend, fileOp, calm, hf, hc, if_pos ho]
        exact same_set hs p (by rw [cur_push, cur_push, hc])
    · refine ⟨.none, fs', (fun k h => by cases h), fun _ => rfl, rfl, ?_, (fun τ ht => ?_), ?_⟩
      · simp only [under, fAppend, fileOp, calm, hf, hc, if_neg ho]; exact hp
      · simp only [under, fAppend, fileOp, calm, hf, hg, ht, hc, if_neg ho]
      · simp only [under, fAppend, fileOp, calm, hf, hc, if_neg ho]; exact hs

theorem covered_sync (p : Path) : Covered (sync p) (fSync p) := by
  refine Covered.ifFail (Or.inr ?_) ?_
  · intro c fs fs' hp hs m out
    refine ⟨.fail 0, fs', (fun k h => by cases h), rfl, hp, (fun τ ht => ?_), hs⟩
    simp only [fSync, fileOp, ht, doFail]
  · intro c fs fs' hp hs m out
    obtain ⟨f, g, hf, hg, hc⟩ := same_at hs hp p
    refine ⟨.none, fs'.set p (some g.synced), (fun k h => by cases h), fun _ => rfl, rfl, hp, (fun τ ht => ?_), ?_⟩
    · simp only [fSync, fileOp, hg, ht]
    · exact same_set_right hs p hf (by rw [cur_synced, hc])

theorem covered_trunc (p : Path) (n : Nat) : Covered (trunc p n) (fTrunc p n) := by
  refine Covered.ifFail (Or.inr ?_) ?_
  · intro c fs fs' hp hs m out
    refine ⟨.fail 0, fs', (fun k h => by cases h), rfl, hp, (fun τ ht => ?_), hs⟩
    simp only [fTrunc, fileOp, ht, doFail]
  · intro c fs fs' hp hs m out
    obtain ⟨f, g, hf, hg, hc⟩ := same_at hs hp p
    refine ⟨.none, fs'.set p (some (g.push (.trunc n))), (fun k h => by cases h), fun _ => rfl, rfl, ?_, (fun τ ht => ?_), ?_⟩
    · simp only [under, fTrunc, fileOp, calm, hf]; exact hp.set _ _
    · simp only [under, fTrunc, fileOp, calm, hf, hg, ht]
    · simp only [under, fTrunc, fileOp, calm, hf]
      exact same_set hs p (by rw [cur_push, cur_push, hc])

/-- A run of `fail_file` is one of the model, with some schedule of failures. -/
def CoveredRun (a : FM α) (m : M α) : Prop :=
  ∀ c fs fs', Present fs → SameContents fs fs' → ∀ n out, ∃ σ : Schedule, (∀ i k, σ i ≠ .crash k) ∧
    (c.target = 0 → σ = calm) ∧
    ∀ τ : Schedule, (∀ i, n ≤ i → τ i = σ i) → ∃ g' n', m τ ⟨fs', n, out⟩ = ((a c fs).1, ⟨g', n', out⟩) ∧
      SameContents (a c fs).2.2 g'

theorem CoveredRun.bind {a : FM β} {m : M β} (h : Covered a m) {k : β → FM α} {k' : β → M α}
    (hk : ∀ b, CoveredRun (k b) (k' b)) : CoveredRun (a.bind k) (M.bind m k') := by
  intro c fs fs' hp hs n out
  obtain ⟨f, g', h1, h2, h3, h4, h5, h6⟩ := h c fs fs' hp hs n out
  cases hr : a c fs with
  | mk r cg =>
    obtain ⟨c', g⟩ := cg
    rw [hr] at h3 h4 h5 h6
    cases r with
    | error x =>
      refine ⟨fun i => if i = n then f else .none, ?_, ?_, ?_⟩
      · intro i k; dsimp only; split
        · exact h1 k
        · intro h; cases h
      · intro h0; funext i; rw [h2 h0]; split <;> rfl
      · intro τ ht
        have hn : τ n = f := by rw [ht n (Nat.le_refl _)]; exact if_pos rfl
        refine ⟨g', n + 1, ?_, ?_⟩
        · unfold M.bind FM.bind; rw [h5 τ hn, hr]
        · unfold FM.bind; rw [hr]; exact h6
    | ok b =>
      obtain ⟨σ, e1, e2, e3⟩ := hk b c' g g' h4 h6 (n + 1) out
      refine ⟨fun i => if i = n then f else σ i, ?_, ?_, ?_⟩
      · intro i k; dsimp only; split
        · exact h1 k
        · exact e1 i k
      · intro h0; funext i; rw [h2 h0, e2 (by rw [h3]; exact h0)]; split <;> rfl
      · intro τ ht
        have hn : τ n = f := by rw [ht n (Nat.le_refl _)]; exact if_pos rfl
        obtain ⟨g2, n2, hr2, hs2⟩ := e3 τ (by
          intro i hi; rw [ht i (by omega)]; exact if_neg (by omega))
        refine ⟨g2, n2, ?_, ?_⟩
        · unfold M.bind FM.bind; rw [h5 τ hn, hr]; exact hr2
        · unfold FM.bind; rw [hr]; exact hs2

theorem covered_run : ∀ p : Prog α, CoveredRun (run p) p.toM
  | .ret a => fun c fs fs' _ hs n out => ⟨calm, (fun _ _ h => by cases h), fun _ => rfl, fun τ _ => ⟨fs', n, rfl, hs⟩⟩
  | .raise x => fun c fs fs' _ hs n out => ⟨calm, (fun _ _ h => by cases h), fun _ => rfl, fun τ _ => ⟨fs', n, rfl, hs⟩⟩
  | .size p k => (CoveredRun.bind (covered_size p) (fun n => covered_run (k n)))
  | .read p off n k => CoveredRun.bind (covered_read p off n) (fun b => covered_run (k b))
  | .write p off bs k => CoveredRun.bind (covered_write p off bs) (fun _ => covered_run k)
  | .append p off bs k => CoveredRun.bind (covered_append p off bs) (fun _ => covered_run k)
  | .sync p k => CoveredRun.bind (covered_sync p) (fun _ => covered_run k)
  | .trunc p n k => CoveredRun.bind (covered_trunc p n) (fun _ => covered_run k)

/-- What a program does with its counter: `ps` are the files its failures leave. -/
def Enum (a : FM α) (ps : Fs → List Fs) : Prop :=
  ∀ fs, (a ⟨0, 0⟩ fs).1 ≠ .error .ub → (a ⟨0, 0⟩ fs).2.1 = ⟨0, 0⟩ ∧
    ∀ t k, k < t →
      (t ≤ k + (ps fs).length → (a ⟨t, k⟩ fs).1 = .error (.err .io) ∧ (ps fs)[t - k - 1]? = some (a ⟨t, k⟩ fs).2.2) ∧
      (k + (ps fs).length < t → a ⟨t, k⟩ fs = ((a ⟨0, 0⟩ fs).1, ⟨t, k + (ps fs).length⟩, (a ⟨0, 0⟩ fs).2.2))

theorem enum_under (m : M α) : Enum (under m) (fun _ => []) := by
  intro fs _
  refine ⟨rfl, fun t k hk => ⟨fun h => ?_, fun _ => rfl⟩⟩
  simp only [List.length_nil] at h
  omega

theorem enum_ret (r : Except Exc α) : Enum (fun c fs => (r, c, fs)) (fun _ => []) := by
  intro fs _
  refine ⟨rfl, fun t k hk => ⟨fun h => ?_, fun _ => rfl⟩⟩
  simp only [List.length_nil] at h
  omega

theorem Enum.ifFail {a b : FM α} {pb : Fs → List Fs} (x : Fs → Fs) (hb : Enum b pb)
    (ha : ∀ c fs, (b ⟨0, 0⟩ fs).1 ≠ .error .ub → (a c fs).1 = .error (.err .io) ∧ (a c fs).2.2 = x fs) :
    Enum (ifFail a b) (fun fs => x fs :: pb fs) := by
  intro fs hu
  have e0 : FailFile.ifFail a b ⟨0, 0⟩ fs = b ⟨0, 0⟩ fs := rfl
  rw [e0] at hu ⊢
  obtain ⟨h1, h2⟩ := hb fs hu
  refine ⟨h1, fun t k hk => ?_⟩
  have hf : (⟨t, k⟩ : Counter).fail = (decide (k + 1 ≥ t), ⟨t, k + 1⟩) := by
    unfold Counter.fail
    rw [if_pos (by dsimp only; omega)]
  unfold FailFile.ifFail
  rw [hf]
  dsimp only
  by_cases ht : k + 1 ≥ t
  · simp only [ht, decide_true, if_true]
    obtain ⟨h3, h4⟩ := ha ⟨t, k + 1⟩ fs hu
    refine ⟨fun _ => ⟨h3, ?_⟩, fun h => ?_⟩
    · have : t - k - 1 = 0 := by omega
      rw [this, h4]; rfl
    · simp only [List.length_cons] at h
      omega
  · simp only [ht, decide_false, if_false, Bool.false_eq_true]
    obtain ⟨h3, h4⟩ := h2 t (k + 1) (by omega)
    refine ⟨fun h => ?_, fun h => ?_⟩
    · simp only [List.length_cons] at h
      obtain ⟨h5, h6⟩ := h3 (by omega)
      refine ⟨h5, ?_⟩
      rw [← h6, show t - k - 1 = (t - (k + 1) - 1) + 1 from by omega, List.getElem?_cons_succ]
    · simp only [List.length_cons] at h ⊢
      rw [h4 (by omega)]
      congr 3
      omega

/-- The failures of what follows. -/
def following (a : FM β) (pk : β → Fs → List Fs) (fs : Fs) : List Fs :=
  match a ⟨0, 0⟩ fs with
  | (.ok b, _, g) => pk b g
  | _ => []

theorem Enum.bind {a : FM β} {pa : Fs → List Fs} (ha : Enum a pa) {k : β → FM α} {pk : β → Fs → List Fs}
    (hk : ∀ b, Enum (k b) (pk b)) : Enum (a.bind k) (fun fs => pa fs ++ following a pk fs) := by
  intro fs hu
  have hau : (a ⟨0, 0⟩ fs).1 ≠ .error .ub := by
    intro h
    apply hu
    unfold FM.bind
    cases hr : a ⟨0, 0⟩ fs with
    | mk r cg => rw [hr] at h; dsimp only at h; subst h; rfl
  obtain ⟨h1, h2⟩ := ha fs hau
  cases hr : a ⟨0, 0⟩ fs with
  | mk r cg =>
    obtain ⟨c', g⟩ := cg
    rw [hr] at h1 h2
    dsimp only at h1 h2
    subst h1
    cases r with
    | error x =>
      have e0 : a.bind k ⟨0, 0⟩ fs = (.error x, ⟨0, 0⟩, g) := by unfold FM.bind; rw [hr]
      have ef : following a pk fs = [] := by unfold following; rw [hr]
      rw [e0]
      simp only [ef]
      refine ⟨trivial, fun t n hn => ?_⟩
      obtain ⟨h3, h4⟩ := h2 t n hn
      simp only [List.append_nil]
      refine ⟨fun h => ?_, fun h => ?_⟩
      · obtain ⟨h5, h6⟩ := h3 h
        unfold FM.bind
        cases hq : a ⟨t, n⟩ fs with
        | mk r' cg' => rw [hq] at h5 h6; dsimp only at h5; subst h5; exact ⟨rfl, h6⟩
      · unfold FM.bind; rw [h4 h]
    | ok b =>
      have e0 : a.bind k ⟨0, 0⟩ fs = k b ⟨0, 0⟩ g := by unfold FM.bind; rw [hr]
      have ef : following a pk fs = pk b g := by unfold following; rw [hr]
      rw [e0] at hu ⊢
      simp only [ef]
      obtain ⟨k1, k2⟩ := hk b g hu
      refine ⟨k1, fun t n hn => ?_⟩
      obtain ⟨h3, h4⟩ := h2 t n hn
      simp only [List.length_append]
      by_cases hl : t ≤ n + (pa fs).length
      · refine ⟨fun _ => ?_, fun h => by omega⟩
        obtain ⟨h5, h6⟩ := h3 hl
        unfold FM.bind
        cases hq : a ⟨t, n⟩ fs with
        | mk r' cg' =>
          rw [hq] at h5 h6; dsimp only at h5; subst h5
          refine ⟨rfl, ?_⟩
          rw [List.getElem?_append_left (by omega)]; exact h6
      · have h5 := h4 (by omega)
        obtain ⟨k3, k4⟩ := k2 t (n + (pa fs).length) (by omega)
        have e1 : a.bind k ⟨t, n⟩ fs = k b ⟨t, n + (pa fs).length⟩ g := by unfold FM.bind; rw [h5]
        rw [e1]
        refine ⟨fun h => ?_, fun h => ?_⟩
        · obtain ⟨k5, k6⟩ := k3 (by omega)
          refine ⟨k5, ?_⟩
          rw [List.getElem?_append_right (by omega), ← k6]
          congr 1
          omega
        · rw [k4 (by omega), Nat.add_assoc]

theorem enum_congr {a : FM α} {p q : Fs → List Fs} (h : Enum a p) (hpq : p = q) : Enum a q := hpq ▸ h

theorem following_under (m : M β) (pk : β → Fs → List Fs) (fs : Fs) : following (under m) pk fs = afterOk m pk fs := by
  unfold following afterOk under
  cases m calm ⟨fs, 0, []⟩ with
  | mk r w => cases r <;> rfl

theorem enum_doFail (b : FM α) {pb : Fs → List Fs} (hb : Enum b pb) : Enum (ifFail doFail b) (fun fs => fs :: pb fs) :=
  hb.ifFail (fun fs => fs) (fun _ _ _ => ⟨rfl, rfl⟩)

theorem enum_write (p : Path) (off : Nat) (bs : Bytes) : Enum (write p off bs)
    (fun fs => [fs, (fWrite p off (bs.take ((bs.length + 1) / 2)) calm ⟨fs, 0, []⟩).2.fs]) := by
  refine enum_doFail _ ((enum_under _).ifFail (fun fs => (fWrite p off (bs.take ((bs.length + 1) / 2)) calm ⟨fs, 0, []⟩).2.fs) ?_)
  intro c fs hu
  cases hf : fs p with
  | none => simp only [under, fWrite, fileOp, calm, hf, ne_eq, not_true] at hu
  | some f => simp only [thenFail, under, fWrite, fileOp, calm, hf, doFail, and_self]

theorem enum_append (p : Path) (off : Nat) (bs : Bytes) : Enum (append p off bs)
    (fun fs => [fs, (fAppend p off (bs.take ((bs.length + 1) / 2)) calm ⟨fs, 0, []⟩).2.fs]) := by
  refine enum_doFail _ ((enum_under _).ifFail (fun fs => (fAppend p off (bs.take ((bs.length + 1) / 2)) calm ⟨fs, 0, []⟩).2.fs) ?_)
  intro c fs hu
  cases hf : fs p with
  | none => simp only [under, fAppend, fileOp, calm, hf, ne_eq, not_true] at hu
  | some f =>
    by_cases ho : off = f.cur.length
    · simp only [thenFail, under, fAppend, fileOp, calm, hf, doFail, if_pos ho, and_self]
    · simp only [under, fAppend, fileOp, calm, hf, if_neg ho, ne_eq, not_true] at hu

theorem enum_run : ∀ p : Prog α, Enum (run p) (failurePoints p)
  | .ret a => enum_ret _
  | .raise x => enum_ret _
  | .size p k => enum_congr ((enum_under (fSize p)).bind (fun n => enum_run (k n)))
      (by funext fs; rw [following_under]; rfl)
  | .read p off n k => enum_congr ((enum_doFail _ (enum_under (fRead p off n))).bind (fun b => enum_run (k b)))
      (by funext fs; exact congrArg (fs :: ·) (following_under (fRead p off n) (fun b => failurePoints (k b)) fs))
  | .write p off bs k => enum_congr ((enum_write p off bs).bind (fun _ => enum_run k))
      (by funext fs; exact congrArg (fun l => fs :: _ :: l) (following_under (fWrite p off bs) (fun _ => failurePoints k) fs))
  | .append p off bs k => enum_congr ((enum_append p off bs).bind (fun _ => enum_run k))
      (by funext fs; exact congrArg (fun l => fs :: _ :: l) (following_under (fAppend p off bs) (fun _ => failurePoints k) fs))
  | .sync p k => enum_congr ((enum_doFail _ (enum_ret (.ok ()))).bind (fun _ => enum_run k)) rfl
  | .trunc p n k => enum_congr ((enum_doFail _ (enum_under (fTrunc p n))).bind (fun _ => enum_run k))
      (by funext fs; exact congrArg (fs :: ·) (following_under (fTrunc p n) (fun _ => failurePoints k) fs))

end NuDB.FailFile
