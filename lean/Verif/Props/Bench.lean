import Verif.Model.Bench
import Verif.Spec.Bench
import Verif.Props.Map
import Verif.Props.XorShift
/-
C90, C91: the benchmark and its summary.
-/
namespace NuDB

open Spec

section
variable {c : Cfg} {x : BenchEnv}

private theorem bind_ok {m : M α} {f : α → M β} {σ : Schedule} {w w' : World} {b : β} (h : (m >>= f) σ w = (.ok b, w')) :
    ∃ a w1, m σ w = (.ok a, w1) ∧ f a σ w1 = (.ok b, w') := by
  simp only [bind, M.bind] at h
  cases hm : m σ w with
  | mk r w1 =>
    rw [hm] at h
    cases r with
    | error e => simp at h
    | ok a => exact ⟨a, w1, rfl, h⟩

private theorem open_clear {σ : Schedule} {w w' : World} {s : Store} (h : openStore c σ w = (.ok s, w')) : s.ec = none := by
  unfold openStore at h
  obtain ⟨_, _, _, h⟩ := bind_ok h
  obtain ⟨_, _, _, h⟩ := bind_ok h
  obtain ⟨_, _, _, h⟩ := bind_ok h
  obtain ⟨_, _, _, h⟩ := bind_ok h
  obtain ⟨_, _, _, h⟩ := bind_ok h
  obtain ⟨_, _, _, h⟩ := bind_ok h
  obtain ⟨_, _, _, h⟩ := bind_ok h
  obtain ⟨_, _, _, h⟩ := bind_ok h
  obtain ⟨_, _, _, h⟩ := bind_ok h
  dsimp only at h
  split at h
  · cases h
  · simp only [M.ret, Prod.mk.injEq, Except.ok.injEq] at h
    rw [← h.1]

private theorem ops_cons {op : Op} {a : List Op} {so : Option Store} {σ : Schedule} {w w' : World} {rs : List Ret} {so' : Option Store}
    (h : runOps c (op :: a) so σ w = (.ok (rs, so'), w')) : ∃ r rs' s1 w1, perform c op so σ w = (.ok (s1, r), w1) ∧
      runOps c a s1 σ w1 = (.ok (rs', so'), w') ∧ rs = r :: rs' := by
  unfold runOps at h
  obtain ⟨⟨s1, r⟩, w1, h1, h⟩ := bind_ok h
  obtain ⟨⟨rs', s2⟩, w2, h2, h⟩ := bind_ok h
  simp only [M.ret, Prod.mk.injEq, Except.ok.injEq] at h
  obtain ⟨⟨rfl, rfl⟩, rfl⟩ := h
  exact ⟨r, rs', s1, w1, h1, h2, rfl⟩

private theorem ops_append (a b : List Op) (so : Option Store) (σ : Schedule) (w w' : World) (rs : List Ret) (so' : Option Store) :
    runOps c (a ++ b) so σ w = (.ok (rs, so'), w') → ∃ r1 r2 s1 w1, runOps c a so σ w = (.ok (r1, s1), w1) ∧
      runOps c b s1 σ w1 = (.ok (r2, so'), w') ∧ rs = r1 ++ r2 := by
  induction a generalizing so w rs with
  | nil => exact fun h => ⟨[], rs, so, w, rfl, h, rfl⟩
  | cons op a ih =>
    intro h
    obtain ⟨r, rs', s1, w1, h1, h2, rfl⟩ := ops_cons h
    obtain ⟨ra, rb, s2, w2, e1, e2, rfl⟩ := ih _ _ _ h2
    refine ⟨r :: ra, rb, s2, w2, ?_, e2, rfl⟩
    simp only [runOps, bind, M.bind, h1, e1]
    rfl

/-- A state of the database of the benchmark. -/
private def Reach (c : Cfg) (x : BenchEnv) (so : Option Store) (w : World) : Prop :=
  ∃ t, Reachable c x.args False t (so, w.fs)

private theorem Reach.perform {so so' : Option Store} {w w' : World} {op : Op} {r : Ret} (h : Reach c x so w)
    (ha : Allowed x.keySize op so) (hp : perform c op so calm w = (.ok (so', r), w')) : Reach c x so' w' := by
  obtain ⟨t, σ, as, w0, w1, h0, h1, h2⟩ := h
  exact ⟨_, σ, as, w0, w1, h0, h1, h2.snoc (.call (x := true) calm ha ⟨fun _ => .inl (fun _ _ h => by cases h), fun h => h.elim⟩ rfl hp
    (fun h => by cases h))⟩

private theorem Reach.sizes {lf : Nat} {s : Store} {w : World} (hc : Creatable x.args lf) (h : Reach c x (some s) w) (he : s.ec = none) :
    s.kh.keySize = x.keySize ∧ s.kh.blockSize = x.blockSize := by
  obtain ⟨t, h⟩ := h
  obtain ⟨st, _, hR⟩ := simulation hc h
  cases hR with
  | failed h => rw [he] at h; cases h
  | opened hS _ _ =>
    obtain ⟨Bk, hkh⟩ := hS.kh
    rw [hkh]
    exact ⟨rfl, rfl⟩

/-- No error. -/
private def Fine (r : Ret) : Prop := ∀ e, r ≠ .error e

private theorem flushes_ok {n : Nat} {s : Store} {w w' : World} {rs : List Ret} {so : Option Store} (hr : Reach c x (some s) w)
    (h : runOps c (List.replicate n .flush) (some s) calm w = (.ok (rs, so), w')) :
    ∃ s', so = some s' ∧ benchFlush c n s calm w = (.ok s', w') ∧ Reach c x (some s') w' := by
  induction n generalizing s w rs with
  | zero =>
    simp only [List.replicate_zero, runOps, M.ret, Prod.mk.injEq, Except.ok.injEq] at h
    obtain ⟨⟨_, rfl⟩, rfl⟩ := h
    exact ⟨s, rfl, rfl, hr⟩
  | succ n ih =>
    obtain ⟨r, rs', s1, w1, h1, h2, _⟩ := ops_cons h
    have hr' := hr.perform (op := .flush) trivial h1
    obtain ⟨s', v, h3, h4⟩ := bind_ok (m := flush c s) h1
    have : s1 = some s' ∧ w1 = v := by
      cases he : s'.ec <;> simp only [he, M.ret, Prod.mk.injEq, Except.ok.injEq] at h4 <;> exact ⟨h4.1.1.symm, h4.2.symm⟩
    obtain ⟨rfl, rfl⟩ := this
    obtain ⟨s'', h5, h6, h7⟩ := ih hr' h2
    refine ⟨s'', h5, ?_, h7⟩
    simp only [benchFlush, bind, M.bind, h3]
    exact h6

/-- The calls of `benchInserts`. -/
private def insOps (x : BenchEnv) : Nat → Nat → List Op
  | 0, _ => []
  | left + 1, cur => List.replicate (x.flushInsert cur) .flush ++ .insert (x.item cur).key (x.item cur).data :: insOps x left (cur + 1)

/-- Those of `benchFetches`. -/
private def fetOps (x : BenchEnv) (n : Nat) : Nat → Nat → List Op
  | 0, _ => []
  | left + 1, j => List.replicate (x.flushFetch n j) .flush ++ .fetch (x.item (x.pick n j)).key :: fetOps x n left (j + 1)

/-- Those of `benchBatches`. -/
private def batchOps (x : BenchEnv) : Nat → Nat → List Op
  | 0, _ => []
  | left + 1, next => insOps x x.batch next ++ (List.replicate (x.flushClose next) .flush ++
      (.close :: .open :: (fetOps x (next + x.batch) x.batch 0 ++ batchOps x left (next + x.batch))))

/-- Items that can be inserted. -/
private def Items (x : BenchEnv) : Prop :=
  ∀ i, i < x.batch * x.batches → (x.item i).key.length = x.keySize ∧ 1 ≤ (x.item i).data.length ∧ (x.item i).data.length ≤ 750

private theorem inserts_ok (hi : Items x) {left cur : Nat} {s : Store} {w w' : World} {rs : List Ret} {so : Option Store}
    (hb : cur + left ≤ x.batch * x.batches) (hr : Reach c x (some s) w)
    (h : runOps c (insOps x left cur) (some s) calm w = (.ok (rs, so), w')) (hf : ∀ r ∈ rs, Fine r) :
    ∃ s', so = some s' ∧ benchInserts c x left cur s calm w = (.ok s', w') ∧ Reach c x (some s') w' := by
  induction left generalizing cur s w rs with
  | zero =>
    simp only [insOps, runOps, M.ret, Prod.mk.injEq, Except.ok.injEq] at h
    obtain ⟨⟨_, rfl⟩, rfl⟩ := h
    exact ⟨s, rfl, rfl, hr⟩
  | succ left ih =>
    obtain ⟨r1, r2, s1, w1, h1, h2, rfl⟩ := ops_append _ _ _ _ _ _ _ _ h
    obtain ⟨s1, rfl, h3, hr1⟩ := flushes_ok hr h1
    obtain ⟨r, rs', s2, w2, h4, h5, rfl⟩ := ops_cons h2
    have hd := hf r (by simp)
    have hit := hi cur (by omega)
    have hr2 := hr1.perform (op := .insert (x.item cur).key (x.item cur).data) ⟨hit.1, hit.2.1, by omega⟩ h4
    simp only [perform, bind, M.bind, M.attempt] at h4
    cases hq : insert c s1 (x.item cur).key (x.item cur).data calm w1 with
    | mk q v =>
      rw [hq] at h4
      cases q with
      | error e =>
        cases e <;> simp [M.ret] at h4
        obtain ⟨⟨_, rfl⟩, _⟩ := h4
        exact absurd rfl (hd _)
      | ok s' =>
        simp only [M.ret, Prod.mk.injEq, Except.ok.injEq] at h4
        obtain ⟨⟨rfl, _⟩, rfl⟩ := h4
        obtain ⟨s'', h6, h7, h8⟩ := ih (by omega) hr2 h5 (fun r hr' => hf r (by simp [hr']))
        refine ⟨s'', h6, ?_, h8⟩
        simp only [benchInserts, bind, M.bind, h3, hq]
        exact h7

/-- The values among some answers. -/
private def foundIn : List Ret → List Bytes
  | [] => []
  | .found v :: rs => v :: foundIn rs
  | _ :: rs => foundIn rs

private theorem found_append (a b : List Ret) : foundIn (a ++ b) = foundIn a ++ foundIn b := by
  induction a with
  | nil => rfl
  | cons r a ih => cases r <;> simp [foundIn, ih]

private theorem found_flushes {n : Nat} {s : Store} {w w' : World} {rs : List Ret} {so : Option Store}
    (h : runOps c (List.replicate n .flush) (some s) calm w = (.ok (rs, so), w')) : foundIn rs = [] := by
  induction n generalizing s w rs with
  | zero =>
    simp only [List.replicate_zero, runOps, M.ret, Prod.mk.injEq, Except.ok.injEq] at h
    rw [← h.1.1]; rfl
  | succ n ih =>
    obtain ⟨r, rs', s1, w1, h1, h2, rfl⟩ := ops_cons h
    obtain ⟨s', v, h3, h4⟩ := bind_ok (m := flush c s) h1
    cases he : s'.ec <;> simp only [he, M.ret, Prod.mk.injEq, Except.ok.injEq] at h4 <;>
      (obtain ⟨⟨rfl, rfl⟩, _⟩ := h4; show foundIn rs' = []; exact ih h2)

private theorem fetches_ok (hi : Items x) {n left j : Nat} {s : Store} {w w' : World} {rs : List Ret} {so : Option Store}
    (hp : ∀ j, x.pick n j < x.batch * x.batches) (hr : Reach c x (some s) w)
    (h : runOps c (fetOps x n left j) (some s) calm w = (.ok (rs, so), w')) (hf : ∀ r ∈ rs, Fine r) :
    ∃ s', so = some s' ∧ benchFetches c x n left j s calm w = (.ok (foundIn rs, s'), w') ∧ Reach c x (some s') w' := by
  induction left generalizing j s w rs with
  | zero =>
    simp only [fetOps, runOps, M.ret, Prod.mk.injEq, Except.ok.injEq] at h
    obtain ⟨⟨rfl, rfl⟩, rfl⟩ := h
    exact ⟨s, rfl, rfl, hr⟩
  | succ left ih =>
    obtain ⟨r1, r2, s1, w1, h1, h2, rfl⟩ := ops_append _ _ _ _ _ _ _ _ h
    have h0 := found_flushes h1
    obtain ⟨s1, rfl, h3, hr1⟩ := flushes_ok hr h1
    obtain ⟨r, rs', s2, w2, h4, h5, rfl⟩ := ops_cons h2
    have hd := hf r (by simp)
    have hr2 := hr1.perform (op := .fetch (x.item (x.pick n j)).key) (hi _ (hp j)).1 h4
    simp only [perform, bind, M.bind, M.attempt] at h4
    cases hq : fetch c s1 (x.item (x.pick n j)).key calm w1 with
    | mk q v =>
      rw [hq] at h4
      cases q with
      | error e =>
        cases e <;> simp [M.ret] at h4
        obtain ⟨⟨_, rfl⟩, _⟩ := h4
        exact absurd rfl (hd _)
      | ok u =>
        simp only [M.ret, Prod.mk.injEq, Except.ok.injEq] at h4
        obtain ⟨⟨rfl, rfl⟩, rfl⟩ := h4
        obtain ⟨s'', h6, h7, h8⟩ := ih hr2 h5 (fun r hr' => hf r (by simp [hr']))
        refine ⟨s'', h6, ?_, h8⟩
        simp only [benchFetches, bind, M.bind, h3, hq, h7, found_append, h0, List.nil_append]
        rfl

private theorem open_ok {lf : Nat} (hc : Creatable x.args lf) {w w' : World} {r : Ret} {so : Option Store} (hr : Reach c x none w)
    (h : perform c .open none calm w = (.ok (so, r), w')) (hf : Fine r) :
    ∃ s, so = some s ∧ benchOpen c x calm w = (.ok s, w') ∧ Reach c x (some s) w' := by
  have hr' := hr.perform (op := .open) trivial h
  simp only [perform, bind, M.bind, M.attempt] at h
  cases hq : openStore c calm w with
  | mk q v =>
    rw [hq] at h
    cases q with
    | error e =>
      cases e <;> simp [M.ret] at h
      obtain ⟨⟨_, rfl⟩, _⟩ := h
      exact absurd rfl (hf _)
    | ok s =>
      simp only [M.ret, Prod.mk.injEq, Except.ok.injEq] at h
      obtain ⟨⟨rfl, _⟩, rfl⟩ := h
      refine ⟨s, rfl, ?_, hr'⟩
      obtain ⟨h1, h2⟩ := hr'.sizes hc (open_clear hq)
      simp only [benchOpen, bind, M.bind, hq, h1, h2, ne_eq, not_true_eq_false, if_false]
      rfl

/-- The samples of `left` batches. -/
private def samples (x : BenchEnv) : Nat → Nat → List (Bool × Nat)
  | 0, _ => []
  | left + 1, next => (true, next) :: (false, next + x.batch) :: samples x left (next + x.batch)

private def reports (x : BenchEnv) : Nat → Nat → List Nat
  | 0, _ => []
  | left + 1, start => (start + x.batch) :: (start + x.batch + x.batch) :: reports x left (start + x.batch + x.batch)

private theorem found_inserts {left cur : Nat} {s : Store} {w w' : World} {rs : List Ret} {so : Option Store} (hi : Items x)
    (hb : cur + left ≤ x.batch * x.batches) (hr : Reach c x (some s) w) (hf : ∀ r ∈ rs, Fine r)
    (h : runOps c (insOps x left cur) (some s) calm w = (.ok (rs, so), w')) : foundIn rs = [] := by
  induction left generalizing cur s w rs with
  | zero =>
    simp only [insOps, runOps, M.ret, Prod.mk.injEq, Except.ok.injEq] at h
    rw [← h.1.1]; rfl
  | succ left ih =>
    obtain ⟨r1, r2, s1, w1, h1, h2, rfl⟩ := ops_append _ _ _ _ _ _ _ _ h
    have h0 := found_flushes h1
    obtain ⟨s1, rfl, h3, hr1⟩ := flushes_ok hr h1
    obtain ⟨r, rs', s2, w2, h4, h5, rfl⟩ := ops_cons h2
    have hd := hf r (by simp)
    have hit := hi cur (by omega)
    have hr2 := hr1.perform (op := .insert (x.item cur).key (x.item cur).data) ⟨hit.1, hit.2.1, by omega⟩ h4
    simp only [perform, bind, M.bind, M.attempt] at h4
    cases hq : insert c s1 (x.item cur).key (x.item cur).data calm w1 with
    | mk q v =>
      rw [hq] at h4
      cases q with
      | error e =>
        cases e <;> simp [M.ret] at h4
        obtain ⟨⟨_, rfl⟩, _⟩ := h4
        exact absurd rfl (hd _)
      | ok s' =>
        simp only [M.ret, Prod.mk.injEq, Except.ok.injEq] at h4
        obtain ⟨⟨rfl, rfl⟩, rfl⟩ := h4
        rw [found_append, h0]
        show foundIn rs' = []
        exact ih (cur := cur + 1) (by omega) hr2 (fun r hr' => hf r (by simp [hr'])) h5

private theorem batches_ok {lf : Nat} (hc : Creatable x.args lf) (hi : Items x) (hp : ∀ n j, 0 < n → x.pick n j < n) (h0 : 0 < x.batch)
    {left next start : Nat} {s : Store} {w w' : World} {rs : List Ret} {so : Option Store}
    (hb : next + x.batch * left ≤ x.batch * x.batches) (hr : Reach c x (some s) w)
    (h : runOps c (batchOps x left next) (some s) calm w = (.ok (rs, so), w')) (hf : ∀ r ∈ rs, Fine r) :
    ∃ s', benchBatches c x left next start s calm w = (.ok (⟨samples x left next, reports x left start, foundIn rs⟩, s'), w') := by
  induction left generalizing next start s w rs with
  | zero =>
    simp only [batchOps, runOps, M.ret, Prod.mk.injEq, Except.ok.injEq] at h
    obtain ⟨⟨rfl, rfl⟩, rfl⟩ := h
    exact ⟨s, rfl⟩
  | succ left ih =>
    rw [Nat.mul_succ] at hb
    obtain ⟨r1, r2, s1, w1, h1, h2, rfl⟩ := ops_append _ _ _ _ _ _ _ _ h
    have f1 := found_inserts hi (by omega) hr (fun r hr' => hf r (by simp [hr'])) h1
    obtain ⟨s1, rfl, k1, hr1⟩ := inserts_ok hi (by omega) hr h1 (fun r hr' => hf r (by simp [hr']))
    obtain ⟨r3, r4, s2, w2, h3, h4, rfl⟩ := ops_append _ _ _ _ _ _ _ _ h2
    have f2 := found_flushes h3
    obtain ⟨s2, rfl, k2, hr2⟩ := flushes_ok hr1 h3
    obtain ⟨r5, r6, s3, w3, h5, h6, rfl⟩ := ops_cons h4
    have hr3 := hr2.perform (op := .close) trivial h5
    have hd5 := hf r5 (by simp)
    obtain ⟨o, v, k3, h5⟩ := bind_ok (m := close c s2) h5
    cases o with
    | some e =>
      simp only [M.ret, Prod.mk.injEq, Except.ok.injEq] at h5
      obtain ⟨⟨_, rfl⟩, _⟩ := h5
      exact absurd rfl (hd5 _)
    | none =>
      simp only [M.ret, Prod.mk.injEq, Except.ok.injEq] at h5
      obtain ⟨⟨rfl, rfl⟩, rfl⟩ := h5
      obtain ⟨r7, r8, s4, w4, h7, h8, rfl⟩ := ops_cons h6
      obtain ⟨s4, rfl, k4, hr4⟩ := open_ok hc hr3 h7 (hf r7 (by simp))
      obtain ⟨r9, r10, s5, w5, h9, h10, rfl⟩ := ops_append _ _ _ _ _ _ _ _ h8
      have f7 : foundIn [r7] = [] := by
        simp only [perform, bind, M.bind, M.attempt] at h7
        cases hq : openStore c calm v with
        | mk q u =>
          rw [hq] at h7
          cases q with
          | error e => cases e <;> simp [M.ret] at h7
          | ok s => simp only [M.ret, Prod.mk.injEq, Except.ok.injEq] at h7; rw [← h7.1.2]; rfl
      obtain ⟨s5, rfl, k5, hr5⟩ := fetches_ok hi (fun j => Nat.lt_of_lt_of_le (hp (next + x.batch) j (by omega)) (by omega)) hr4 h9
        (fun r hr' => hf r (by simp [hr']))
      obtain ⟨s6, k6⟩ := ih (next := next + x.batch) (start := start + x.batch + x.batch) (by omega) hr5 h10 (fun r hr' => hf r (by simp [hr']))
      refine ⟨s6, ?_⟩
      have e : foundIn (r1 ++ (r3 ++ Ret.done :: r7 :: (r9 ++ r10))) = foundIn r9 ++ foundIn r10 := by
        rw [found_append, f1, found_append, f2]
        show foundIn ([r7] ++ (r9 ++ r10)) = _
        rw [found_append, f7, found_append]
        rfl
      simp only [benchBatches, benchHook, bind, M.bind, k1, k2, k3, k4, k5, k6, e]
      rfl

/-- The map holds the first `n` items and none of the others. -/
private def HoldsFirst (x : BenchEnv) (m : Map) (n : Nat) : Prop :=
  ∀ i, i < x.batch * x.batches → m (x.item i).key = if i < n then some (x.item i).data else none

private def Distinct (x : BenchEnv) : Prop :=
  ∀ i j, i < j → j < x.batch * x.batches → (x.item i).key ≠ (x.item j).key

private theorem HoldsFirst.add {m : Map} {n : Nat} (hd : Distinct x) (h : HoldsFirst x m n) (hn : n < x.batch * x.batches) :
    HoldsFirst x (m.add (x.item n).key (x.item n).data) (n + 1) := by
  intro i hi
  unfold Map.add
  by_cases hin : i = n
  · subst hin
    rw [if_pos rfl, if_pos (by omega)]
  · have : (x.item i).key ≠ (x.item n).key := by
      rcases Nat.lt_or_gt_of_ne hin with h' | h'
      · exact hd i n h' hn
      · exact (hd n i h' hi).symm
    rw [if_neg this, h i hi]
    by_cases h' : i < n
    · rw [if_pos h', if_pos (by omega)]
    · rw [if_neg h', if_neg (by omega)]

private theorem map_flushes (n : Nat) (ops : List Op) (m : Map) :
    mapOps (List.replicate n .flush ++ ops) true m = (mapOps ops true m).map (List.replicate n .done ++ ·) := by
  induction n with
  | zero => simp
  | succ n ih =>
    simp only [List.replicate_succ, List.cons_append, mapOps, ih, Option.map_map]
    rfl

private theorem fine_done : Fine .done := fun _ h => by cases h
private theorem fine_found (v : Bytes) : Fine (.found v) := fun _ h => by cases h

private theorem fine_replicate {n : Nat} {r : Ret} (h : r ∈ List.replicate n Ret.done) : Fine r := by
  rw [(List.mem_replicate.mp h).2]; exact fine_done

private theorem found_replicate (n : Nat) : foundIn (List.replicate n .done) = [] := by
  induction n with
  | zero => rfl
  | succ n ih => rw [List.replicate_succ]; exact ih

private theorem map_inserts (hd : Distinct x) {ops : List Op} {vs : List Bytes} {left cur : Nat} {m : Map} (hm : HoldsFirst x m cur)
    (hb : cur + left ≤ x.batch * x.batches)
    (h : ∀ m, HoldsFirst x m (cur + left) → ∃ rs, mapOps ops true m = some rs ∧ (∀ r ∈ rs, Fine r) ∧ foundIn rs = vs) :
    ∃ rs, mapOps (insOps x left cur ++ ops) true m = some rs ∧ (∀ r ∈ rs, Fine r) ∧ foundIn rs = vs := by
  induction left generalizing cur m with
  | zero => exact h m hm
  | succ left ih =>
    obtain ⟨rs, e1, e2, e3⟩ := ih (hm.add hd (by omega)) (by omega) (by
      intro m' hm'
      exact h m' (by rwa [show cur + (left + 1) = cur + 1 + left by omega]))
    have h0 := hm cur (by omega)
    rw [if_neg (by omega)] at h0
    refine ⟨List.replicate (x.flushInsert cur) .done ++ .done :: rs, ?_, ?_, ?_⟩
    · simp only [insOps, List.append_assoc, List.cons_append, map_flushes, mapOps, h0, e1]
      rfl
    · intro r hr
      rcases List.mem_append.mp hr with hr | hr
      · exact fine_replicate hr
      rcases List.mem_cons.mp hr with rfl | hr
      · exact fine_done
      · exact e2 r hr
    · rw [found_append, found_replicate]; exact e3

/-- The values fetched for one batch. -/
private def fetched (x : BenchEnv) (n : Nat) : Nat → Nat → List Bytes
  | 0, _ => []
  | left + 1, j => (x.item (x.pick n j)).data :: fetched x n left (j + 1)

private theorem map_fetches {ops : List Op} {vs : List Bytes} {n left j : Nat} {m : Map} (hm : HoldsFirst x m n)
    (hp : ∀ j, x.pick n j < n) (hb : n ≤ x.batch * x.batches)
    (h : ∃ rs, mapOps ops true m = some rs ∧ (∀ r ∈ rs, Fine r) ∧ foundIn rs = vs) :
    ∃ rs, mapOps (fetOps x n left j ++ ops) true m = some rs ∧ (∀ r ∈ rs, Fine r) ∧ foundIn rs = fetched x n left j ++ vs := by
  induction left generalizing j with
  | zero => exact h
  | succ left ih =>
    obtain ⟨rs, e1, e2, e3⟩ := ih (j := j + 1)
    have hj := hp j
    have h0 := hm (x.pick n j) (by omega)
    rw [if_pos hj] at h0
    refine ⟨List.replicate (x.flushFetch n j) .done ++ .found (x.item (x.pick n j)).data :: rs, ?_, ?_, ?_⟩
    · simp only [fetOps, List.append_assoc, List.cons_append, map_flushes, mapOps, h0, e1]
      rfl
    · intro r hr
      rcases List.mem_append.mp hr with hr | hr
      · exact fine_replicate hr
      rcases List.mem_cons.mp hr with rfl | hr
      · exact fine_found _
      · exact e2 r hr
    · rw [found_append, found_replicate]
      show _ :: foundIn rs = _
      rw [e3]; rfl

/-- The values fetched. -/
private def fetchedAll (x : BenchEnv) : Nat → Nat → List Bytes
  | 0, _ => []
  | left + 1, next => fetched x (next + x.batch) x.batch 0 ++ fetchedAll x left (next + x.batch)

private theorem map_batches (hd : Distinct x) (hp : ∀ n j, 0 < n → x.pick n j < n) (h0 : 0 < x.batch) {left next : Nat} {m : Map}
    (hm : HoldsFirst x m next) (hb : next + x.batch * left ≤ x.batch * x.batches) :
    ∃ rs, mapOps (batchOps x left next) true m = some rs ∧ (∀ r ∈ rs, Fine r) ∧ foundIn rs = fetchedAll x left next := by
  induction left generalizing next m with
  | zero => exact ⟨[], rfl, by simp, rfl⟩
  | succ left ih =>
    rw [Nat.mul_succ] at hb
    refine map_inserts hd hm (by omega) fun m' hm' => ?_
    obtain ⟨rs, e1, e2, e3⟩ := map_fetches (ops := batchOps x left (next + x.batch)) (left := x.batch) (j := 0) hm'
      (fun j => hp _ j (by omega)) (by omega) (ih hm' (by omega))
    refine ⟨List.replicate (x.flushClose next) .done ++ .done :: .done :: rs, ?_, ?_, ?_⟩
    · simp only [map_flushes, mapOps, e1]
      rfl
    · intro r hr
      rcases List.mem_append.mp hr with hr | hr
      · exact fine_replicate hr
      rcases List.mem_cons.mp hr with rfl | hr
      · exact fine_done
      rcases List.mem_cons.mp hr with rfl | hr
      · exact fine_done
      · exact e2 r hr
    · rw [found_append, found_replicate]
      exact e3

private theorem att_append (a b : List Op) : attempted (a ++ b) = attempted a ++ attempted b := by
  simp [attempted, List.filterMap_append]

private theorem att_flush (n : Nat) : attempted (List.replicate n .flush) = [] := by
  induction n with
  | zero => rfl
  | succ n ih => rw [List.replicate_succ]; exact ih

private theorem vol_append (a b : List (Bytes × Bytes)) : volume (a ++ b) = volume a + volume b := by
  simp [volume, List.map_append, List.sum_append]

private theorem att_inserts (hi : Items x) {left cur : Nat} (hb : cur + left ≤ x.batch * x.batches) :
    (attempted (insOps x left cur)).length = left ∧ volume (attempted (insOps x left cur)) ≤ left * (756 + x.keySize) := by
  induction left generalizing cur with
  | zero => exact ⟨rfl, by simp [insOps, attempted, volume]⟩
  | succ left ih =>
    obtain ⟨h1, h2⟩ := ih (cur := cur + 1) (by omega)
    have hit := hi cur (by omega)
    have e : attempted (insOps x (left + 1) cur) = [((x.item cur).key, (x.item cur).data)] ++ attempted (insOps x left (cur + 1)) := by
      rw [insOps, att_append, att_flush]; rfl
    rw [e, vol_append, List.length_append, h1]
    refine ⟨by simp; omega, ?_⟩
    have : volume [((x.item cur).key, (x.item cur).data)] = 6 + (x.item cur).key.length + (x.item cur).data.length := by
      simp [volume]
    rw [this, Nat.succ_mul]
    omega

private theorem att_fetches {n left j : Nat} : attempted (fetOps x n left j) = [] := by
  induction left generalizing j with
  | zero => rfl
  | succ left ih => rw [fetOps, att_append, att_flush]; exact ih

private theorem att_batches (hi : Items x) {left next : Nat} (hb : next + x.batch * left ≤ x.batch * x.batches) :
    (attempted (batchOps x left next)).length = x.batch * left ∧
      volume (attempted (batchOps x left next)) ≤ x.batch * left * (756 + x.keySize) := by
  induction left generalizing next with
  | zero => exact ⟨rfl, by simp [batchOps, attempted, volume]⟩
  | succ left ih =>
    rw [Nat.mul_succ] at hb
    obtain ⟨h1, h2⟩ := ih (next := next + x.batch) (by omega)
    obtain ⟨h3, h4⟩ := att_inserts hi (left := x.batch) (cur := next) (by omega)
    have e : attempted (batchOps x (left + 1) next) = attempted (insOps x x.batch next) ++ attempted (batchOps x left (next + x.batch)) := by
      rw [batchOps, att_append, att_append, att_flush]
      show _ ++ attempted (fetOps x (next + x.batch) x.batch 0 ++ batchOps x left (next + x.batch)) = _
      rw [att_append, att_fetches]
      rfl
    rw [e, vol_append, List.length_append, h1, h3, Nat.mul_succ, Nat.add_mul]
    exact ⟨by omega, by omega⟩

private theorem ins_sound (hi : Items x) {left cur : Nat} (hb : cur + left ≤ x.batch * x.batches) {op : Op} (h : op ∈ insOps x left cur) :
    op.Sound x.keySize := by
  induction left generalizing cur with
  | zero => cases h
  | succ left ih =>
    rcases List.mem_append.mp h with h | h
    · rw [(List.mem_replicate.mp h).2]; trivial
    rcases List.mem_cons.mp h with rfl | h
    · have := hi cur (by omega)
      exact ⟨this.1, this.2.1, by omega⟩
    · exact ih (by omega) h

private theorem fet_sound (hi : Items x) {n left j : Nat} (hp : ∀ j, x.pick n j < x.batch * x.batches) {op : Op} (h : op ∈ fetOps x n left j) :
    op.Sound x.keySize := by
  induction left generalizing j with
  | zero => cases h
  | succ left ih =>
    rcases List.mem_append.mp h with h | h
    · rw [(List.mem_replicate.mp h).2]; trivial
    rcases List.mem_cons.mp h with rfl | h
    · exact (hi _ (hp j)).1
    · exact ih h

private theorem batch_sound (hi : Items x) (hp : ∀ n j, 0 < n → x.pick n j < n) (h0 : 0 < x.batch) {left next : Nat}
    (hb : next + x.batch * left ≤ x.batch * x.batches) {op : Op} (h : op ∈ batchOps x left next) : op.Sound x.keySize := by
  induction left generalizing next with
  | zero => cases h
  | succ left ih =>
    rw [Nat.mul_succ] at hb
    rcases List.mem_append.mp h with h | h
    · exact ins_sound hi (by omega) h
    rcases List.mem_append.mp h with h | h
    · rw [(List.mem_replicate.mp h).2]; trivial
    rcases List.mem_cons.mp h with rfl | h
    · trivial
    rcases List.mem_cons.mp h with rfl | h
    · trivial
    rcases List.mem_append.mp h with h | h
    · exact fet_sound hi (fun j => Nat.lt_of_lt_of_le (hp (next + x.batch) j (by omega)) (by omega)) h
    · exact ih (by omega) h

private theorem samples_eq (left next : Nat) : samples x left next =
    (List.range left).flatMap (fun b => [(true, next + b * x.batch), (false, next + (b + 1) * x.batch)]) := by
  induction left generalizing next with
  | zero => rfl
  | succ left ih =>
    rw [samples, ih, List.range_succ_eq_map, List.flatMap_cons, List.flatMap_map]
    simp only [Nat.zero_mul, Nat.add_zero, Nat.zero_add, Nat.one_mul, List.cons_append, List.nil_append]
    congr 3
    funext b
    have h1 : next + x.batch + b * x.batch = next + b.succ * x.batch := by
      simp only [Nat.succ_eq_add_one, Nat.add_mul]; omega
    have h2 : next + x.batch + (b + 1) * x.batch = next + (b.succ + 1) * x.batch := by
      simp only [Nat.succ_eq_add_one, Nat.add_mul]; omega
    rw [h1, h2]

private theorem reports_eq (left k : Nat) : reports x left (k * x.batch) =
    (List.range (2 * left)).map (fun i => (k + i + 1) * x.batch) := by
  induction left generalizing k with
  | zero => rfl
  | succ left ih =>
    have e : k * x.batch + x.batch + x.batch = (k + 2) * x.batch := by rw [Nat.add_mul]; omega
    rw [reports, e, ih, show 2 * (left + 1) = 2 * left + 1 + 1 by omega, List.range_succ_eq_map, List.range_succ_eq_map]
    simp only [List.map_cons, List.map_map, Nat.add_zero]
    congr 1
    · rw [Nat.add_mul]; omega
    congr 1
    apply List.map_congr_left
    intro i _
    simp only [Function.comp]
    congr 1
    omega

private theorem fetched_eq (n left j : Nat) : fetched x n left j = (List.range left).map (fun i => (x.item (x.pick n (j + i))).data) := by
  induction left generalizing j with
  | zero => rfl
  | succ left ih =>
    rw [fetched, ih, List.range_succ_eq_map, List.map_cons, List.map_map]
    congr 1
    apply List.map_congr_left
    intro i _
    simp only [Function.comp]
    congr 3
    omega

private theorem fetchedAll_eq (left next : Nat) : fetchedAll x left next = (List.range left).flatMap (fun b =>
    (List.range x.batch).map (fun j => (x.item (x.pick (next + (b + 1) * x.batch) j)).data)) := by
  induction left generalizing next with
  | zero => rfl
  | succ left ih =>
    rw [fetchedAll, ih, fetched_eq, List.range_succ_eq_map, List.flatMap_cons, List.flatMap_map]
    simp only [Nat.zero_add, Nat.one_mul]
    congr 2
    funext b
    have : next + x.batch + (b + 1) * x.batch = next + (b.succ + 1) * x.batch := by
      simp only [Nat.succ_eq_add_one, Nat.add_mul]; omega
    rw [this]

private theorem items_of (hz : ∀ g, 250 ≤ (x.sizef g).1 ∧ (x.sizef g).1 ≤ 750) (hb : x.batch * x.batches < 2 ^ 64) : Items x := by
  intro i hi
  unfold BenchEnv.item
  have h := C84_items x.sizef x.keySize (UInt64.ofNat i)
  cases hit : XorShift.item x.sizef x.keySize (UInt64.ofNat i) with
  | none =>
    have := h.1.mp hit
    rw [UInt64.toNat_ofNat'] at this
    omega
  | some it =>
    obtain ⟨g, _, h1, h2, _⟩ := h.2 it hit
    have := hz g
    simp only [Option.getD_some]
    exact ⟨h1, by omega, by omega⟩

private theorem num_fits {N k b : Nat} (h : 100 + N * (756 + k) + N * (N + 1) * (8 + b) < 2 ^ 48) : N < 2 ^ 32 := by
  have h1 : N * 756 ≤ N * (756 + k) := Nat.mul_le_mul_left _ (by omega)
  by_cases h2 : N < 2 ^ 32
  · exact h2
  · exfalso
    have h3 : 2 ^ 32 * 2 ^ 32 ≤ N * (N + 1) := Nat.mul_le_mul (by omega) (by omega)
    have h4 : N * (N + 1) * 1 ≤ N * (N + 1) * (8 + b) := Nat.mul_le_mul_left _ (by omega)
    omega

/-- C90: run in an empty directory and without failures, the benchmark ends without an error. Every `fetch` finds the value of the
item that was asked for. For each batch there are two samples: one for inserts with the number of items before the batch, and one for
fetches with the number after it. The progress reports go up in steps of a batch to the total. This holds whatever the hash function, the distributions of the standard library, and the moments
when the background thread flushes. The items must fit into the file. Missing from the claim: that keys differ, which is a premise here
(see `C90_keys_violated`), and the end of the store. -/
theorem C90_bench_partial {lf : Nat} (hc : Creatable x.args lf) (h0 : 0 < x.batch)
    (hz : ∀ g, 250 ≤ (x.sizef g).1 ∧ (x.sizef g).1 ≤ 750) (hp : ∀ n j, 0 < n → x.pick n j < n)
    (hd : ∀ i j, i < j → j < x.batch * x.batches → (x.item i).key ≠ (x.item j).key)
    (hf : 100 + x.batch * x.batches * (756 + x.keySize) +
      x.batch * x.batches * (x.batch * x.batches + 1) * (8 + x.blockSize) < 2 ^ 48)
    {w : World} (hw : ∀ p, w.fs p = none) :
    ∃ o s w', benchRun c x calm w = (.ok (o, s), w') ∧
      o.values = (List.range x.batches).flatMap (fun b =>
        (List.range x.batch).map (fun j => (x.item (x.pick ((b + 1) * x.batch) j)).data)) ∧
      o.samples = (List.range x.batches).flatMap (fun b => [(true, b * x.batch), (false, (b + 1) * x.batch)]) ∧
      o.reports = (List.range (2 * x.batches)).map (fun i => (i + 1) * x.batch) := by
  have hN := num_fits hf
  have hi := items_of hz (by omega)
  obtain ⟨rs, e1, e2, e3⟩ := map_batches hd hp h0 (left := x.batches) (next := 0) (m := Map.empty)
    (fun i _ => by rw [if_neg (by omega)]; rfl) (by omega)
  obtain ⟨a1, a2⟩ := att_batches hi (left := x.batches) (next := 0) (by omega)
  have hatt : attempted (.open :: batchOps x x.batches 0) = attempted (batchOps x x.batches 0) := rfl
  obtain ⟨so, w', h⟩ := C05_fits (c := c) (asserts := x.asserts) (a := x.args) hc (ops := .open :: batchOps x x.batches 0)
    (rets := .done :: rs) (by
      intro op h
      rcases List.mem_cons.mp h with rfl | h
      · trivial
      · exact batch_sound hi hp h0 (by omega) h) (by rw [mapOps, e1]; rfl) (by
      rw [hatt]
      refine ⟨?_, by rw [a1]; exact hN⟩
      rw [a1]
      show 100 + volume _ + _ * (8 + x.blockSize) < _
      omega) hw
  obtain ⟨u, w1, h1, h2⟩ := bind_ok h
  obtain ⟨r, rs', so1, w2, h3, h4, h5⟩ := ops_cons h2
  injection h5 with h5 h6
  subst h5 h6
  have hr : Reach c x none w1 := ⟨[], calm, x.asserts, w, w1, hw, h1, .nil _⟩
  obtain ⟨s, rfl, k1, hr1⟩ := open_ok hc hr h3 fine_done
  obtain ⟨s', k2⟩ := batches_ok hc hi hp h0 (start := 0) (by omega) hr1 h4 e2
  refine ⟨⟨samples x x.batches 0, reports x x.batches 0, foundIn rs⟩, s', w', ?_, ?_, ?_, ?_⟩
  rotate_left
  · exact e3.trans ((fetchedAll_eq _ _).trans (by simp only [Nat.zero_add]))
  · exact (samples_eq _ _).trans (by simp only [Nat.zero_add])
  · have := reports_eq (x := x) x.batches 0
    rw [Nat.zero_mul] at this
    simp only [Nat.zero_add] at this
    exact this
  · simp only [benchRun, bind, M.bind, h1, k1, k2]

private theorem inserts_split {k r cur : Nat} {s s' : Store} {σ : Schedule} {w w' : World} (h : benchInserts c x k cur s σ w = (.ok s', w')) :
    benchInserts c x (k + r) cur s σ w = benchInserts c x r (cur + k) s' σ w' := by
  induction k generalizing cur s w with
  | zero =>
    simp only [benchInserts, M.ret, Prod.mk.injEq, Except.ok.injEq] at h
    obtain ⟨rfl, rfl⟩ := h
    rw [Nat.zero_add, Nat.add_zero]
  | succ k ih =>
    rw [show k + 1 + r = k + r + 1 by omega, benchInserts]
    rw [benchInserts] at h
    obtain ⟨s1, w1, h1, h⟩ := bind_ok h
    obtain ⟨s2, w2, h2, h⟩ := bind_ok h
    simp only [bind, M.bind, h1, h2]
    rw [ih h, show cur + 1 + k = cur + (k + 1) by omega]

private theorem inserts_other {y : BenchEnv} (h1 : y.flushInsert = x.flushInsert) (h2 : y.item = x.item) (k cur : Nat) (s : Store) :
    benchInserts c y k cur s = benchInserts c x k cur s := by
  induction k generalizing cur s with
  | zero => rfl
  | succ k ih => simp only [benchInserts, h1, h2, ih]

/-- C90 is false if two items of the first batch have the same key: the benchmark ends with the error `key_exists` when it inserts the second
of the first two such items. -/
theorem C90_keys_violated {lf i k : Nat} (hc : Creatable x.args lf) (hb : 0 < x.batches)
    (hz : ∀ g, 250 ≤ (x.sizef g).1 ∧ (x.sizef g).1 ≤ 750) (hik : i < k) (hk : k < x.batch) (he : (x.item i).key = (x.item k).key)
    (hd : ∀ i j, i < j → j < k → (x.item i).key ≠ (x.item j).key)
    (hf : 100 + (k + 1) * (756 + x.keySize) + (k + 1) * (k + 1 + 1) * (8 + x.blockSize) < 2 ^ 48)
    {w : World} (hw : ∀ p, w.fs p = none) : ∃ w', benchRun c x calm w = (.error (.err .key_exists), w') := by
  have hN := num_fits hf
  let y : BenchEnv := { x with batch := k, batches := 1 }
  let z : BenchEnv := { x with batch := k + 1, batches := 1 }
  have hyi : y.item = x.item := rfl
  have hzi : Items z := items_of hz (by show (k + 1) * 1 < 2 ^ 64; omega)
  have hitem : ∀ i, i < k + 1 → (x.item i).key.length = x.keySize ∧ 1 ≤ (x.item i).data.length ∧ (x.item i).data.length ≤ 750 :=
    fun i hi => hzi i (by show i < (k + 1) * 1; omega)
  have hyI : Items y := fun i hi => hitem i (by have : i < k * 1 := hi; omega)
  have hyD : Distinct y := fun i j hij hj => hd i j hij (by have : j < k * 1 := hj; omega)
  let last : List Op := List.replicate (x.flushInsert k) .flush ++ [.insert (x.item k).key (x.item k).data]
  have hsnd : ∀ op ∈ insOps y k 0 ++ last, op.Sound x.keySize := by
    intro op h
    rcases List.mem_append.mp h with h | h
    · exact ins_sound hyI (by show 0 + k ≤ k * 1; omega) h
    rcases List.mem_append.mp h with h | h
    · rw [(List.mem_replicate.mp h).2]; trivial
    · rw [List.mem_singleton] at h
      subst h
      have := hitem k (by omega)
      exact ⟨this.1, this.2.1, by omega⟩
  have hmap : ∀ left cur (m : Map), HoldsFirst y m cur → cur + left = k → ∃ r1, (∀ r ∈ r1, Fine r) ∧
      mapOps (insOps y left cur ++ last) true m = some (r1 ++ [.error .key_exists]) := by
    intro left
    induction left with
    | zero =>
      intro cur m hm hl
      have h1 := hm i (by show i < k * 1; omega)
      rw [if_pos (by omega), hyi, he] at h1
      refine ⟨List.replicate (x.flushInsert k) .done, fun r => fine_replicate, ?_⟩
      show mapOps last true m = _
      rw [map_flushes, mapOps, h1]
      rfl
    | succ left ih =>
      intro cur m hm hl
      obtain ⟨r1, g1, g2⟩ := ih (cur + 1) _ (hm.add hyD (by show cur < k * 1; omega)) (by omega)
      have h0 := hm cur (by show cur < k * 1; omega)
      rw [if_neg (by omega)] at h0
      refine ⟨List.replicate (y.flushInsert cur) .done ++ .done :: r1, ?_, ?_⟩
      · intro r hr
        rcases List.mem_append.mp hr with hr | hr
        · exact fine_replicate hr
        rcases List.mem_cons.mp hr with rfl | hr
        · exact fine_done
        · exact g1 r hr
      · simp only [insOps, List.append_assoc, List.cons_append, map_flushes, mapOps, h0, g2]
        rfl
  obtain ⟨r1, g1, g2⟩ := hmap k 0 Map.empty (fun i _ => by rw [if_neg (by omega)]; rfl) (by omega)
  obtain ⟨a1, a2⟩ := att_inserts hyI (left := k) (cur := 0) (by show 0 + k ≤ k * 1; omega)
  have hatt : attempted (.open :: (insOps y k 0 ++ last)) = attempted (insOps y k 0) ++ [((x.item k).key, (x.item k).data)] := by
    show attempted (insOps y k 0 ++ last) = _
    rw [att_append, att_append, att_flush]
    rfl
  obtain ⟨so, w', h⟩ := C05_fits (c := c) (asserts := x.asserts) (a := x.args) hc (ops := .open :: (insOps y k 0 ++ last))
    (rets := .done :: (r1 ++ [.error .key_exists])) (by
      intro op h
      rcases List.mem_cons.mp h with rfl | h
      · trivial
      · exact hsnd op h) (by rw [mapOps, g2]; rfl) (by
      have hl := hitem k (by omega)
      have e1 : volume [((x.item k).key, (x.item k).data)] = 6 + (x.item k).key.length + (x.item k).data.length := by simp [volume]
      have e2 : y.keySize = x.keySize := rfl
      rw [e2] at a2
      rw [hatt]
      unfold Fits
      rw [vol_append, e1, List.length_append, a1]
      show 100 + _ + (k + 1) * (k + 1 + 1) * (8 + x.blockSize) < 2 ^ 48 ∧ k + 1 < 2 ^ 32
      rw [Nat.succ_mul] at hf
      exact ⟨by omega, hN⟩) hw
  obtain ⟨u, w1, h1, h2⟩ := bind_ok h
  obtain ⟨r, rs', so1, w2, h3, h4, h5⟩ := ops_cons h2
  injection h5 with h5 h6
  subst h5 h6
  have hr : Reach c x none w1 := ⟨[], calm, x.asserts, w, w1, hw, h1, .nil _⟩
  obtain ⟨s, rfl, k1, hr1⟩ := open_ok hc hr h3 fine_done
  obtain ⟨ra, rb, s2, w3, h7, h8, h9⟩ := ops_append _ _ _ _ _ _ _ _ h4
  obtain ⟨rc, rd, s3, w4, h10, h11, rfl⟩ := ops_append _ _ _ _ _ _ _ _ h8
  obtain ⟨re, rf, s4, w5, h12, h13, rfl⟩ := ops_cons h11
  simp only [runOps, M.ret, Prod.mk.injEq, Except.ok.injEq] at h13
  obtain ⟨⟨rfl, rfl⟩, rfl⟩ := h13
  rw [← List.append_assoc] at h9
  have h14 := List.append_inj' h9 rfl
  obtain ⟨rfl, h15⟩ := h14
  injection h15 with h15 _
  subst h15
  have hr1y : Reach c y (some s) w2 := hr1
  obtain ⟨s2, rfl, k2, hr2⟩ := inserts_ok hyI (by show 0 + k ≤ k * 1; omega) hr1y h7 (fun r hr' => g1 r (by simp [hr']))
  obtain ⟨s3, rfl, k3, hr3⟩ := flushes_ok hr2 h10
  rw [inserts_other (x := x) (y := y) rfl rfl] at k2
  have k4 : insert c s3 (x.item k).key (x.item k).data calm w4 = (.error (.err .key_exists), w5) := by
    simp only [perform, bind, M.bind, M.attempt] at h12
    cases hq : insert c s3 (x.item k).key (x.item k).data calm w4 with
    | mk q v =>
      rw [hq] at h12
      cases q with
      | ok s' => simp [M.ret] at h12
      | error e =>
        cases e <;> simp [M.ret] at h12
        obtain ⟨⟨_, rfl⟩, rfl⟩ := h12
        rfl
  refine ⟨w5, ?_⟩
  have k5 : benchInserts c x x.batch 0 s calm w2 = (.error (.err .key_exists), w5) := by
    rw [show x.batch = k + (x.batch - k - 1 + 1) by omega, inserts_split k2, Nat.zero_add]
    simp only [benchInserts, bind, M.bind, k3, k4]
  obtain ⟨n, hn⟩ : ∃ n, x.batches = n + 1 := ⟨x.batches - 1, by omega⟩
  unfold benchRun
  rw [hn]
  simp only [benchBatches, bind, M.bind, h1, k1, k5]

/-- C90 is false for keys of one byte (`--key_size 1`) if the first batch has more than 256 items. -/
theorem C90_short_violated {lf : Nat} (hc : Creatable x.args lf) (hb : 0 < x.batches)
    (hz : ∀ g, 250 ≤ (x.sizef g).1 ∧ (x.sizef g).1 ≤ 750) (hk : x.keySize = 1) (hn : 256 < x.batch)
    {w : World} (hw : ∀ p, w.fs p = none) : ∃ w', benchRun c x calm w = (.error (.err .key_exists), w') := by
  have hex : ∃ k, k ≤ 256 ∧ ∃ i, i < k ∧ (x.item i).key = (x.item k).key := by
    obtain ⟨u, v, huv, hu, hv, a, b, ha, hb', hab⟩ := C84_collision x.sizef
    have e : ∀ (u : UInt64) (a : XorShift.Item), XorShift.item x.sizef 1 u = some a → (x.item u.toNat).key = a.key := by
      intro u a h
      unfold BenchEnv.item
      rw [hk, UInt64.ofNat_toNat, h]
      rfl
    have hu' : u.toNat < 257 := UInt64.lt_iff_toNat_lt.mp hu
    have hv' : v.toNat < 257 := UInt64.lt_iff_toNat_lt.mp hv
    have hne : u.toNat ≠ v.toNat := fun h => huv (UInt64.toNat_inj.mp h)
    have heq : (x.item u.toNat).key = (x.item v.toNat).key := by rw [e u a ha, e v b hb', hab]
    rcases Nat.lt_or_gt_of_ne hne with h | h
    · exact ⟨v.toNat, by omega, u.toNat, h, heq⟩
    · exact ⟨u.toNat, by omega, v.toNat, h, heq.symm⟩
  classical
  obtain ⟨h1, i, h2, h3⟩ := Nat.find_spec hex
  have hmin : ∀ j, j < Nat.find hex → ¬ (j ≤ 256 ∧ ∃ i, i < j ∧ (x.item i).key = (x.item j).key) := fun j hj => Nat.find_min hex hj
  generalize Nat.find hex = k at h1 h2 h3 hmin
  refine C90_keys_violated hc hb hz h2 (by omega) h3 (fun i j hij hj he => hmin j hj ⟨by omega, i, hij, he⟩) ?_ hw
  have hbs : x.blockSize < 2 ^ 16 := hc.block.2
  rw [hk]
  have e1 : (k + 1) * (756 + 1) ≤ 257 * 757 := Nat.mul_le_mul_right _ (by omega)
  have e2 : (k + 1) * (k + 1 + 1) * (8 + x.blockSize) ≤ 257 * 258 * (8 + 2 ^ 16) :=
    Nat.mul_le_mul (Nat.mul_le_mul (by omega) (by omega)) (by omega)
  omega

end

/-- `rngfill` by recursion on a bound for the size. -/
private def fill : Nat → Nat → XorShift.Engine → Bytes
  | 0, _, _ => []
  | n + 1, size, g =>
    if size ≥ 8 then XorShift.bytes (XorShift.next g).1 ++ fill n (size - 8) (XorShift.next g).2
    else if size > 0 then (XorShift.bytes (XorShift.next g).1).take size
    else []

private theorem fill_eq (n size : Nat) (g : XorShift.Engine) (h : size < 8 * n) : (XorShift.rngfill size g).1 = fill n size g := by
  induction n generalizing size g with
  | zero => omega
  | succ n ih =>
    rw [XorShift.rngfill, fill]
    split
    · dsimp only
      rw [ih _ _ (by omega)]
    · split <;> rfl

/-- A small benchmark: two batches of two items, with flushes in between. -/
private def demoBench : BenchEnv :=
  { batch := 2, batches := 2, keySize := 8, blockSize := 256, load := .rat 1 2, uid := 5, asserts := true,
    sizef := fun g => (250, (XorShift.next g).2), pick := fun n j => j % n, flushInsert := fun i => i % 2, flushClose := fun _ => 1,
    flushFetch := fun _ j => j }

private theorem demo_key (i : Nat) : (demoBench.item i).key = match XorShift.seed (UInt64.ofNat i + 1) with
    | none => []
    | some g => (fill 33 258 (XorShift.next g).2).drop 250 := by
  unfold BenchEnv.item XorShift.item
  cases XorShift.seed (UInt64.ofNat i + 1) with
  | none => rfl
  | some g =>
    show ((XorShift.rngfill (8 + 250) (XorShift.next g).2).1).drop 250 = _
    rw [fill_eq 33 _ _ (by decide)]

private theorem demo_distinct : ∀ j, j < 4 → ∀ i, i < j → (demoBench.item i).key ≠ (demoBench.item j).key := by
  simp only [demo_key]
  decide +kernel

/- The premises of `C90_bench_partial`. -/
example : Creatable demoBench.args 32768 ∧ 0 < demoBench.batch ∧
    (∀ g, 250 ≤ (demoBench.sizef g).1 ∧ (demoBench.sizef g).1 ≤ 750) ∧ (∀ n j, 0 < n → demoBench.pick n j < n) ∧
    (∀ i j, i < j → j < demoBench.batch * demoBench.batches → (demoBench.item i).key ≠ (demoBench.item j).key) ∧
    100 + demoBench.batch * demoBench.batches * (756 + demoBench.keySize) +
      demoBench.batch * demoBench.batches * (demoBench.batch * demoBench.batches + 1) * (8 + demoBench.blockSize) < 2 ^ 48 :=
  ⟨⟨by decide, by decide, by decide, by decide, by decide, ⟨1, 2, rfl, by decide, by decide, by decide⟩, by decide⟩, by decide,
    fun _ => ⟨Nat.le_refl 250, show 250 ≤ 750 by decide⟩, fun _ j hn => Nat.mod_lt j hn, fun i j hij hj => demo_distinct j hj i hij, by decide⟩

/- Those of `C90_short_violated`, and so those of `C90_keys_violated`: the command line `--key_size 1`. -/
example : ∃ x : BenchEnv, Creatable x.args 32768 ∧ 0 < x.batches ∧ (∀ g, 250 ≤ (x.sizef g).1 ∧ (x.sizef g).1 ≤ 750) ∧
    x.keySize = 1 ∧ 256 < x.batch ∧ x.blockSize = 4096 :=
  ⟨{ demoBench with batch := 20000, batches := 500, keySize := 1, blockSize := 4096 },
    ⟨by decide, by decide, by decide, by decide, by decide, ⟨1, 2, rfl, by decide, by decide, by decide⟩, by decide⟩, by decide,
    fun _ => ⟨Nat.le_refl 250, show 250 ≤ 750 by decide⟩, rfl, by decide, rfl⟩

private theorem samplesAt_eq (dict : List (Nat × Nat)) (n : Nat) : samplesAt dict n = recorded dict n := by
  induction dict with
  | nil => rfl
  | cons p dict ih =>
    unfold samplesAt recorded at *
    by_cases h : p.1 = n
    · rw [List.filter_cons_of_pos (by simp [h]), List.map_cons, ih, List.filterMap_cons_some (by rw [if_pos h])]
    · rw [List.filter_cons_of_neg (by simp [h]), ih, List.filterMap_cons_none (by rw [if_neg h])]

/-- C91: "NA" is shown if there are no samples for that number of items, and only then. -/
theorem C91_none {unit n : Nat} {dict : List (Nat × Nat)} : benchShown unit dict n = .ok none ↔ recorded dict n = [] := by
  rw [← samplesAt_eq]
  unfold benchShown
  split
  · rename_i h; exact ⟨fun _ => h, fun _ => rfl⟩
  · rename_i h
    refine ⟨fun h' => ?_, fun h' => absurd h' h⟩
    split at h' <;> cases h'

/-- C91: the number shown is at most the average of the samples for that number of items and less than 2 below it, unless the sum leaves
the range of `int`. Missing from the claim: that it is the average (`C91_fraction_violated`) and that there is no undefined
behaviour (`C91_range_violated`). -/
theorem C91_summary_partial {unit n : Nat} {dict : List (Nat × Nat)} {v : Nat} (hu : 0 < unit) (h : benchShown unit dict n = .ok (some v)) :
    v * (recorded dict n).length * unit ≤ (recorded dict n).sum ∧
      (recorded dict n).sum < (v + 2) * (recorded dict n).length * unit := by
  rw [← samplesAt_eq]
  have hacc : ∀ (l : List Nat) (a t : Nat), benchTotal unit a l = .ok t →
      t * unit ≤ a * unit + l.sum ∧ a * unit + l.sum ≤ t * unit + l.length * (unit - 1) := by
    intro l
    induction l with
    | nil =>
      intro a t h
      injection h with h
      subst h
      simp
    | cons b l ih =>
      intro a t h
      unfold benchTotal at h
      split at h
      · obtain ⟨h1, h2⟩ := ih _ _ h
        have h3 := Nat.div_add_mod (a * unit + b) unit
        have h4 := Nat.mod_lt (a * unit + b) hu
        rw [Nat.mul_comm unit] at h3
        simp only [List.sum_cons, List.length_cons, Nat.succ_mul]
        omega
      · cases h
  unfold benchShown at h
  split at h
  · cases h
  · rename_i hne
    split at h
    · cases h
    · rename_i t ht
      injection h with h
      injection h with h
      obtain ⟨h1, h2⟩ := hacc _ _ _ ht
      have hl : 0 < (samplesAt dict n).length := List.length_pos_iff.mpr hne
      generalize (samplesAt dict n).length = k at h h2 hl
      have h3 := Nat.div_add_mod t k
      have h4 := Nat.mod_lt t hl
      rw [h, Nat.mul_comm k] at h3
      rw [Nat.zero_mul, Nat.zero_add] at h1 h2
      have h5 : v * k * unit ≤ t * unit := Nat.mul_le_mul_right _ (by omega)
      have h6 : (t + 1) * unit ≤ (v + 1) * k * unit := Nat.mul_le_mul_right _ (by rw [Nat.add_mul]; omega)
      have h7 : (v + 2) * k * unit = (v + 1) * k * unit + k * unit := by
        rw [show v + 2 = v + 1 + 1 by omega, Nat.add_mul (v + 1) 1 k, Nat.add_mul _ (1 * k), Nat.one_mul]
      have h8 : k * (unit - 1) + k = k * unit := by
        rw [← Nat.mul_succ]; congr 1; omega
      rw [Nat.add_mul, Nat.one_mul] at h6
      omega

/-- C91 is false: the fraction is lost, although the output is set to show two digits of it. One insert in two seconds is shown as 0 per second. -/
theorem C91_fraction_violated {unit n a : Nat} {dict : List (Nat × Nat)} (ha : a < unit) (h : recorded dict n = [a]) :
    benchShown unit dict n = .ok (some 0) := by
  rw [← samplesAt_eq] at h
  unfold benchShown
  rw [h, if_neg (by simp)]
  have : benchTotal unit 0 [a] = .ok 0 := by
    unfold benchTotal
    rw [Nat.zero_mul, Nat.zero_add, Nat.div_eq_of_lt ha]
    rfl
  rw [this]
  simp

/-- C91 is false: a sample of 2^31 or more per second, such as that of a batch so short that the clock does not advance, leads to undefined behaviour. -/
theorem C91_range_violated {unit n a : Nat} {dict : List (Nat × Nat)} (hu : 0 < unit) (ha : 2 ^ 31 * unit ≤ a) (h : recorded dict n = [a]) :
    benchShown unit dict n = .error .ub := by
  rw [← samplesAt_eq] at h
  unfold benchShown
  rw [h, if_neg (by simp)]
  have : benchTotal unit 0 [a] = .error .ub := by
    unfold benchTotal
    rw [Nat.zero_mul, Nat.zero_add, if_neg]
    rw [Nat.not_lt]
    exact (Nat.le_div_iff_mul_le hu).mpr ha
  rw [this]

/- Two samples for the same number of items, 2.5 and 3.9 per second: 2 is shown, the average is 3.2. One sample: 7.9, shown as 7. -/
example : benchShown 10 [(100, 25), (200, 79), (100, 39)] 100 = .ok (some 2) ∧ benchShown 10 [(100, 25), (200, 79), (100, 39)] 200 = .ok (some 7) ∧
    benchShown 10 [(100, 25)] 300 = .ok none := ⟨rfl, rfl, rfl⟩

/- The premises of `C91_fraction_violated` and `C91_range_violated`. -/
example : recorded [(100, 5), (200, 2 ^ 32 * 10)] 100 = [5] ∧ 5 < 10 ∧ recorded [(100, 5), (200, 2 ^ 32 * 10)] 200 = [2 ^ 32 * 10] ∧
    2 ^ 31 * 10 ≤ 2 ^ 32 * 10 := ⟨rfl, by decide, rfl, by decide⟩

end NuDB
