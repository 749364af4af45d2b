import Verif.Model.Example
import Verif.Props.ErrorRef
import Verif.Props.Map
import Verif.Props.Create
/-
C89: the example program.
-/
namespace NuDB

open Spec

section
variable {c : Cfg} {x : ExampleEnv}

private theorem key_length (x : ExampleEnv) (i : Nat) : (x.key i).length = 4 := by
  unfold ExampleEnv.key
  split <;> simp [putU32]

private theorem key_inj (x : ExampleEnv) {i j : Nat} (hi : i < 2 ^ 32) (hj : j < 2 ^ 32) (h : x.key i = x.key j) : i = j := by
  have : putU32 i = putU32 j := by
    unfold ExampleEnv.key at h
    split at h
    · exact List.reverse_inj.mp h
    · exact h
  have e := congrArg getU32 this
  rwa [C18_u32.roundtrip i hi, C18_u32.roundtrip j hj] at e

/-- The calls of the first loop. -/
private def insOps (x : ExampleEnv) : List Nat → List Op
  | [] => []
  | i :: is => List.replicate (x.flushes i) .flush ++ .insert (x.key i) [0] :: insOps x is

/-- Those of the second. -/
private def fetOps (x : ExampleEnv) : List Nat → List Op
  | [] => []
  | i :: is => List.replicate (x.flushes (1000 + i)) .flush ++ .fetch (x.key i) :: fetOps x is

private theorem ops_append (a b : List Op) (so : Option Store) (σ : Schedule) (w w' : World) (rs : List Ret) (so' : Option Store) :
    runOps c (a ++ b) so σ w = (.ok (rs, so'), w') → ∃ r1 r2 s1 w1, runOps c a so σ w = (.ok (r1, s1), w1) ∧
      runOps c b s1 σ w1 = (.ok (r2, so'), w') ∧ rs = r1 ++ r2 := by
  induction a generalizing so w rs with
  | nil => exact fun h => ⟨[], rs, so, w, rfl, h, rfl⟩
  | cons op a ih =>
    intro h
    simp only [List.cons_append, runOps, bind, M.bind] at h ⊢
    cases hp : perform c op so σ w with
    | mk r w1 =>
      rw [hp] at h
      cases r with
      | error e => simp at h
      | ok r =>
        obtain ⟨so1, r1⟩ := r
        simp only at h ⊢
        cases hq : runOps c (a ++ b) so1 σ w1 with
        | mk q w2 =>
          rw [hq] at h
          cases q with
          | error e => simp at h
          | ok q =>
            obtain ⟨rs', so2⟩ := q
            simp only [M.ret, Prod.mk.injEq, Except.ok.injEq] at h
            obtain ⟨⟨rfl, rfl⟩, rfl⟩ := h
            obtain ⟨ra, rb, s1, w3, e1, e2, e3⟩ := ih so1 w1 rs' hq
            exact ⟨r1 :: ra, rb, s1, w3, by rw [e1]; rfl, e2, by rw [e3]; rfl⟩

private theorem ops_cons {op : Op} {a : List Op} {so : Option Store} {σ : Schedule} {w w' : World} {rs : List Ret} {so' : Option Store}
    (h : runOps c (op :: a) so σ w = (.ok (rs, so'), w')) : ∃ r rs' s1 w1, perform c op so σ w = (.ok (s1, r), w1) ∧
      runOps c a s1 σ w1 = (.ok (rs', so'), w') ∧ rs = r :: rs' := by
  simp only [runOps, bind, M.bind] at h
  cases hp : perform c op so σ w with
  | mk r w1 =>
    rw [hp] at h
    cases r with
    | error e => simp at h
    | ok r =>
      obtain ⟨so1, r1⟩ := r
      simp only at h
      cases hq : runOps c a so1 σ w1 with
      | mk q w2 =>
        rw [hq] at h
        cases q with
        | error e => simp at h
        | ok q =>
          obtain ⟨rs', so2⟩ := q
          simp only [M.ret, Prod.mk.injEq, Except.ok.injEq] at h
          obtain ⟨⟨rfl, rfl⟩, rfl⟩ := h
          exact ⟨r1, rs', so1, w1, rfl, hq, rfl⟩

private theorem flush_ok {s : Store} {σ : Schedule} {w w' : World} {so : Option Store} {r : Ret}
    (h : perform c .flush (some s) σ w = (.ok (so, r), w')) : ∃ s', flush c s σ w = (.ok s', w') ∧ so = some s' := by
  simp only [perform, bind, M.bind] at h
  cases hp : flush c s σ w with
  | mk q w1 =>
    rw [hp] at h
    cases q with
    | error e => simp at h
    | ok s' =>
      cases he : s'.ec <;> simp only [he, M.ret, Prod.mk.injEq, Except.ok.injEq] at h <;>
        (obtain ⟨⟨rfl, _⟩, rfl⟩ := h; exact ⟨s', rfl, rfl⟩)

private theorem flushes_ok {n : Nat} {s : Store} {σ : Schedule} {w w' : World} {rs : List Ret} {so : Option Store}
    (h : runOps c (List.replicate n .flush) (some s) σ w = (.ok (rs, so), w')) :
    (∃ s', so = some s') ∧ flushTimes c n (some s) σ w = (.ok so, w') := by
  induction n generalizing s w rs with
  | zero =>
    simp only [List.replicate_zero, runOps, M.ret, Prod.mk.injEq, Except.ok.injEq] at h
    obtain ⟨⟨_, rfl⟩, rfl⟩ := h
    exact ⟨⟨s, rfl⟩, rfl⟩
  | succ n ih =>
    obtain ⟨r, rs', s1, w1, h1, h2, _⟩ := ops_cons h
    obtain ⟨s', h3, rfl⟩ := flush_ok h1
    obtain ⟨h4, h5⟩ := ih h2
    refine ⟨h4, ?_⟩
    simp only [flushTimes, bind, M.bind, h3]
    exact h5

private theorem inserts_ok {is : List Nat} {s : Store} {σ : Schedule} {w w' : World} {rs : List Ret} {so : Option Store}
    (h : runOps c (insOps x is) (some s) σ w = (.ok (rs, so), w')) (hr : ∀ r ∈ rs, r = .done ∨ r = .found [0]) :
    (∃ s', so = some s') ∧ exampleInserts c x is (some s) none σ w = (.ok (so, none), w') := by
  induction is generalizing s w rs with
  | nil =>
    simp only [insOps, runOps, M.ret, Prod.mk.injEq, Except.ok.injEq] at h
    obtain ⟨⟨_, rfl⟩, rfl⟩ := h
    exact ⟨⟨s, rfl⟩, rfl⟩
  | cons i is ih =>
    obtain ⟨r1, r2, s1, w1, h1, h2, rfl⟩ := ops_append _ _ _ _ _ _ _ _ h
    obtain ⟨⟨s1, rfl⟩, h3⟩ := flushes_ok h1
    obtain ⟨r, rs', s2, w2, h4, h5, rfl⟩ := ops_cons h2
    have hd := hr r (by simp)
    simp only [perform, bind, M.bind, M.attempt] at h4
    have hrep := C70_insert_partial c s1 (x.key i) [0] σ w1
    cases hi : insert c s1 (x.key i) [0] σ w1 with
    | mk q v =>
      rw [hi] at h4 hrep
      cases q with
      | error e =>
        cases e <;> simp [M.ret] at h4
        obtain ⟨⟨_, rfl⟩, _⟩ := h4
        rcases hd with hd | hd <;> cases hd
      | ok s' =>
        simp only [M.ret, Prod.mk.injEq, Except.ok.injEq] at h4
        obtain ⟨⟨rfl, _⟩, rfl⟩ := h4
        obtain ⟨h6, h7⟩ := ih h5 (fun r hr' => hr r (by simp [hr']))
        refine ⟨h6, ?_⟩
        simp only [exampleInserts, bind, M.bind, h3, hrep]
        exact h7

private theorem fetches_ok {is : List Nat} {s : Store} {σ : Schedule} {w w' : World} {rs : List Ret} {so : Option Store}
    (h : runOps c (fetOps x is) (some s) σ w = (.ok (rs, so), w')) (hr : ∀ r ∈ rs, r = .done ∨ r = .found [0]) :
    (∃ s', so = some s') ∧
      exampleFetches c x is (some s) none σ w = (.ok (List.replicate is.length (some [0]), so, none), w') := by
  induction is generalizing s w rs with
  | nil =>
    simp only [fetOps, runOps, M.ret, Prod.mk.injEq, Except.ok.injEq] at h
    obtain ⟨⟨_, rfl⟩, rfl⟩ := h
    exact ⟨⟨s, rfl⟩, rfl⟩
  | cons i is ih =>
    obtain ⟨r1, r2, s1, w1, h1, h2, rfl⟩ := ops_append _ _ _ _ _ _ _ _ h
    obtain ⟨⟨s1, rfl⟩, h3⟩ := flushes_ok h1
    obtain ⟨r, rs', s2, w2, h4, h5, rfl⟩ := ops_cons h2
    have hd := hr r (by simp)
    simp only [perform, bind, M.bind, M.attempt] at h4
    have hrep := C70_fetch_partial c s1 (x.key i) σ w1
    cases hi : fetch c s1 (x.key i) σ w1 with
    | mk q v =>
      rw [hi] at h4 hrep
      cases q with
      | error e =>
        cases e <;> simp [M.ret] at h4
        obtain ⟨⟨_, rfl⟩, _⟩ := h4
        rcases hd with hd | hd <;> cases hd
      | ok u =>
        simp only [M.ret, Prod.mk.injEq, Except.ok.injEq] at h4
        obtain ⟨⟨rfl, rfl⟩, rfl⟩ := h4
        have hu : u = [0] := by
          rcases hd with hd | hd
          · cases hd
          · cases hd; rfl
        subst hu
        obtain ⟨h6, h7⟩ := ih h5 (fun r hr' => hr r (by simp [hr']))
        refine ⟨h6, ?_⟩
        simp only [exampleFetches, bind, M.bind, h3, hrep, h7]
        rfl

private theorem map_flushes (n : Nat) (ops : List Op) (m : Map) :
    mapOps (List.replicate n .flush ++ ops) true m = (mapOps ops true m).map (List.replicate n .done ++ ·) := by
  induction n with
  | zero => simp
  | succ n ih =>
    simp only [List.replicate_succ, List.cons_append, mapOps, ih, Option.map_map]
    rfl

/-- The map after these inserts. -/
private def filled (x : ExampleEnv) : List Nat → Map → Map
  | [], m => m
  | i :: is, m => filled x is (m.add (x.key i) [0])

private theorem filled_keeps {is : List Nat} {m : Map} {k : Bytes} (h : m k = some [0]) : filled x is m k = some [0] := by
  induction is generalizing m with
  | nil => exact h
  | cons i is ih =>
    apply ih
    unfold Map.add
    split
    · rfl
    · exact h

private theorem filled_mem {is : List Nat} {m : Map} {i : Nat} (h : i ∈ is) : filled x is m (x.key i) = some [0] := by
  induction is generalizing m with
  | nil => cases h
  | cons j is ih =>
    rcases List.mem_cons.mp h with rfl | h
    · exact filled_keeps (m := m.add (x.key i) [0]) (if_pos rfl)
    · exact ih h

private theorem map_inserts {is : List Nat} {ops : List Op} {m : Map} {rs : List Ret} (hn : is.Nodup) (hb : ∀ i ∈ is, i < 2 ^ 32)
    (hm : ∀ i ∈ is, m (x.key i) = none) (h : mapOps ops true (filled x is m) = some rs) :
    ∃ r1, mapOps (insOps x is ++ ops) true m = some (r1 ++ rs) ∧ (∀ r ∈ r1, r = .done) := by
  induction is generalizing m with
  | nil => exact ⟨[], h, by simp⟩
  | cons i is ih =>
    rw [List.nodup_cons] at hn
    obtain ⟨r1, e1, e2⟩ := ih (m := m.add (x.key i) [0]) hn.2 (fun j hj => hb j (by simp [hj])) (by
      intro j hj
      have : x.key j ≠ x.key i := fun he => hn.1 (key_inj x (hb j (by simp [hj])) (hb i (by simp)) he ▸ hj)
      simp only [Map.add, this, if_false]
      exact hm j (by simp [hj])) h
    refine ⟨List.replicate (x.flushes i) .done ++ .done :: r1, ?_, ?_⟩
    · simp only [insOps, List.append_assoc, List.cons_append, map_flushes, mapOps, hm i (by simp), e1]
      simp
    · intro r hr
      simp only [List.mem_append, List.mem_replicate, List.mem_cons] at hr
      rcases hr with hr | rfl | hr
      · exact hr.2
      · rfl
      · exact e2 r hr

private theorem map_fetches {is : List Nat} {ops : List Op} {m : Map} {rs : List Ret}
    (hm : ∀ i ∈ is, m (x.key i) = some [0]) (h : mapOps ops true m = some rs) :
    ∃ r1, mapOps (fetOps x is ++ ops) true m = some (r1 ++ rs) ∧ (∀ r ∈ r1, r = .done ∨ r = .found [0]) := by
  induction is with
  | nil => exact ⟨[], h, by simp⟩
  | cons i is ih =>
    obtain ⟨r1, e1, e2⟩ := ih (fun j hj => hm j (by simp [hj]))
    refine ⟨List.replicate (x.flushes (1000 + i)) .done ++ .found [0] :: r1, ?_, ?_⟩
    · simp only [fetOps, List.append_assoc, List.cons_append, map_flushes, mapOps, hm i (by simp), e1]
      simp
    · intro r hr
      simp only [List.mem_append, List.mem_replicate, List.mem_cons] at hr
      rcases hr with hr | rfl | hr
      · exact .inl hr.2
      · exact .inr rfl
      · exact e2 r hr

private theorem args_creatable (hu : x.uid < 2 ^ 64) (hs : x.salt < 2 ^ 64) : Creatable x.args 32768 where
  uid := hu
  appnum := show 1 < 2 ^ 64 by decide
  salt := hs
  key := show 1 ≤ 4 ∧ 4 < 2 ^ 16 by decide
  block := show 104 ≤ 4096 ∧ 4096 < 2 ^ 16 by decide
  load := ⟨1, 2, rfl, by decide, by decide, by decide⟩
  lf := by decide

/-- All calls on the store. -/
private def exampleOps (x : ExampleEnv) (is : List Nat) : List Op :=
  .open :: (insOps x is ++ (fetOps x is ++ (List.replicate (x.flushes 2000) .flush ++ [.close])))

private theorem ins_sound {is : List Nat} {op : Op} (h : op ∈ insOps x is) : op.Sound 4 := by
  induction is with
  | nil => cases h
  | cons i is ih =>
    simp only [insOps, List.mem_append, List.mem_replicate, List.mem_cons] at h
    rcases h with h | rfl | h
    · rw [h.2]; trivial
    · exact ⟨key_length x i, by decide, by decide⟩
    · exact ih h

private theorem fet_sound {is : List Nat} {op : Op} (h : op ∈ fetOps x is) : op.Sound 4 := by
  induction is with
  | nil => cases h
  | cons i is ih =>
    simp only [fetOps, List.mem_append, List.mem_replicate, List.mem_cons] at h
    rcases h with h | rfl | h
    · rw [h.2]; trivial
    · exact key_length x i
    · exact ih h

private theorem att_append (a b : List Op) : attempted (a ++ b) = attempted a ++ attempted b := by
  simp [attempted, List.filterMap_append]

private theorem att_flush (n : Nat) : attempted (List.replicate n .flush) = [] := by
  induction n with
  | zero => rfl
  | succ n ih => rw [List.replicate_succ]; exact ih

private theorem att_ins (is : List Nat) : attempted (insOps x is) = is.map (fun i => (x.key i, [0])) := by
  induction is with
  | nil => rfl
  | cons i is ih =>
    rw [insOps, att_append, att_flush]
    show (x.key i, [0]) :: attempted (insOps x is) = _
    rw [ih]
    rfl

private theorem att_fet (is : List Nat) : attempted (fetOps x is) = [] := by
  induction is with
  | nil => rfl
  | cons i is ih =>
    rw [fetOps, att_append, att_flush]
    exact ih

private theorem volume_keys (is : List Nat) : volume (is.map (fun i => (x.key i, [0]))) = 11 * is.length := by
  induction is with
  | nil => rfl
  | cons i is ih =>
    unfold volume at ih ⊢
    simp only [List.map_cons, List.sum_cons, ih, key_length, List.length_cons, List.length_nil]
    omega

private theorem example_att (is : List Nat) : attempted (exampleOps x is) = is.map (fun i => (x.key i, [0])) := by
  show attempted (_ ++ _) = _
  rw [att_append, att_ins, att_append, att_fet, att_append, att_flush]
  show _ ++ [] = _
  rw [List.append_nil]

private theorem erase_calm {p : Path} (w : World) : ∃ w', eraseQuiet p calm w = (.ok (), w') ∧ w'.fs = w.fs.set p none := by
  unfold eraseQuiet fErase
  simp only [bind, M.bind, M.attempt, fileOp, calm]
  cases h : w.fs p with
  | some f => exact ⟨_, rfl, rfl⟩
  | none =>
    refine ⟨_, rfl, ?_⟩
    funext q
    show w.fs q = _
    unfold Fs.set
    split
    · rename_i e; subst e; exact h
    · rfl

/-- `exampleMain` with other keys. -/
private def exampleRun (c : Cfg) (x : ExampleEnv) (is : List Nat) : M (List (Option Bytes) × Option Store × Option Err) := do
  let (_, ec) ← createE c x.asserts x.args none
  let (so, ec) ← openE c ec
  let (so, ec) ← exampleInserts c x is so ec
  let (found, so, ec) ← exampleFetches c x is so ec
  let so ← flushTimes c (x.flushes 2000) so
  let (so, ec) ← exampleClose c so ec
  eraseQuiet .dat
  eraseQuiet .key
  eraseQuiet .log
  M.ret (found, so, ec)

private theorem run_ok (hu : x.uid < 2 ^ 64) (hs : x.salt < 2 ^ 64) {w : World} (hw : ∀ p, w.fs p = none) {is : List Nat}
    (hn : is.Nodup) (hb : ∀ i ∈ is, i < 2 ^ 32) (hl : is.length = 1000) :
    ∃ w', exampleRun c x is calm w = (.ok (List.replicate is.length (some [0]), none, none), w') ∧ ∀ p, w'.fs p = none := by
  have hc := args_creatable hu hs
  obtain ⟨r3, e3, g3⟩ : ∃ r3, mapOps (fetOps x is ++ (List.replicate (x.flushes 2000) .flush ++ [.close])) true
      (filled x is Map.empty) = some (r3 ++ (List.replicate (x.flushes 2000) .done ++ [.done])) ∧
      ∀ r ∈ r3, r = .done ∨ r = .found [0] := by
    refine map_fetches (fun i hi => filled_mem hi) ?_
    rw [map_flushes]
    rfl
  obtain ⟨r2, e2, g2⟩ := map_inserts (x := x) (is := is) (m := Map.empty) hn hb (fun _ _ => rfl) e3
  have hmap : mapOps (exampleOps x is) false Map.empty =
      some (.done :: (r2 ++ (r3 ++ (List.replicate (x.flushes 2000) .done ++ [.done])))) := by
    unfold exampleOps
    rw [mapOps, e2]
    rfl
  obtain ⟨so, w', h⟩ := C05_fits (c := c) (asserts := x.asserts) (a := x.args) hc (ops := exampleOps x is) (by
      intro op h
      unfold exampleOps at h
      simp only [List.mem_append, List.mem_cons, List.mem_replicate, List.not_mem_nil, or_false] at h
      rcases h with rfl | h | h | h | rfl
      · trivial
      · exact ins_sound h
      · exact fet_sound h
      · rw [h.2]; trivial
      · trivial) hmap (by
      rw [example_att]
      refine ⟨?_, ?_⟩
      · rw [volume_keys, List.length_map, hl]
        show 100 + 11 * 1000 + 1000 * (1000 + 1) * (8 + 4096) < 2 ^ 48
        decide
      · rw [List.length_map, hl]; decide) hw
  have hgood : ∀ r ∈ (Ret.done :: (r2 ++ (r3 ++ (List.replicate (x.flushes 2000) Ret.done ++ [Ret.done])))),
      r = .done ∨ r = .found [0] := by
    intro r hr
    simp only [List.mem_append, List.mem_cons, List.mem_replicate, List.not_mem_nil, or_false] at hr
    rcases hr with h | h | h | h | h
    · exact .inl h
    · exact .inl (g2 r h)
    · exact g3 r h
    · exact .inl h.2
    · exact .inl h
  generalize (Ret.done :: (r2 ++ (r3 ++ (List.replicate (x.flushes 2000) Ret.done ++ [Ret.done])))) = rets at h hgood
  simp only [bind, M.bind] at h
  have hcr := C70_create_partial c x.asserts x.args calm w
  cases hq : create c x.asserts x.args calm w with
  | mk q w1 =>
    rw [hq] at h hcr
    cases q with
    | error e => simp at h
    | ok u =>
      simp only at h hcr
      obtain ⟨r, rs, s1, w2, h1, h2, rfl⟩ := ops_cons h
      have hop := C70_open_partial c calm w1
      have hd := hgood r (by simp)
      simp only [perform, bind, M.bind, M.attempt] at h1
      cases ho : openStore c calm w1 with
      | mk q v =>
        rw [ho] at h1 hop
        cases q with
        | error e =>
          cases e <;> simp [M.ret] at h1
          obtain ⟨⟨_, rfl⟩, _⟩ := h1
          rcases hd with hd | hd <;> cases hd
        | ok s =>
          simp only [M.ret, Prod.mk.injEq, Except.ok.injEq] at h1 hop
          obtain ⟨⟨rfl, _⟩, rfl⟩ := h1
          obtain ⟨ra, rb, s2, w3, a1, a2, rfl⟩ := ops_append _ _ _ _ _ _ _ _ h2
          obtain ⟨⟨s2, rfl⟩, hins⟩ := inserts_ok a1 (fun r hr => hgood r (by simp [hr]))
          obtain ⟨rc, rd, s3, w4, b1, b2, rfl⟩ := ops_append _ _ _ _ _ _ _ _ a2
          obtain ⟨⟨s3, rfl⟩, hfet⟩ := fetches_ok b1 (fun r hr => hgood r (by simp [hr]))
          obtain ⟨re, rf, s4, w5, d1, d2, rfl⟩ := ops_append _ _ _ _ _ _ _ _ b2
          obtain ⟨⟨s4, rfl⟩, hflu⟩ := flushes_ok d1
          obtain ⟨rg, rh, s5, w6, f1, f2, rfl⟩ := ops_cons d2
          have hd' := hgood rg (by simp)
          have hcl := C70_close_partial c s4 calm w5
          simp only [perform, bind, M.bind] at f1
          simp only [bind, M.bind] at hcl
          cases hclo : close c s4 calm w5 with
          | mk q v' =>
            rw [hclo] at f1 hcl
            cases q with
            | error e => simp at f1
            | ok o =>
              cases o with
              | some e =>
                simp only [M.ret, Prod.mk.injEq, Except.ok.injEq] at f1
                obtain ⟨⟨_, rfl⟩, _⟩ := f1
                rcases hd' with hd' | hd' <;> cases hd'
              | none =>
                simp only [M.ret] at hcl
                obtain ⟨v1, g1, g1'⟩ := erase_calm (p := .dat) v'
                obtain ⟨v2, g2, g2'⟩ := erase_calm (p := .key) v1
                obtain ⟨v3, g3, g3'⟩ := erase_calm (p := .log) v2
                refine ⟨v3, ?_, ?_⟩
                · simp only [exampleRun, exampleClose, bind, M.bind, hcr, hop, hins, hfet, hflu, hcl, g1, g2, g3, M.ret]
                · intro p
                  rw [g3', g2', g1']
                  cases p <;> simp [Fs.set]

/-- C89: run where none of its files exist and without failures, the example program creates a
database, opens it, inserts a thousand values and fetches each of them, and closes the database.
No call reports an error. At the end the store is closed and its files are gone. This holds whatever the random numbers,
the hash function, the byte order, and the moments when the background thread flushes. Missing
from the claim: an orderly end if the database cannot be created (`C89_create_violated`). -/
theorem C89_example_partial (hu : x.uid < 2 ^ 64) (hs : x.salt < 2 ^ 64) {w : World} (hw : ∀ p, w.fs p = none) :
    ∃ w', exampleMain c x calm w = (.ok (List.replicate 1000 (some [0]), none, none), w') ∧ ∀ p, w'.fs p = none := by
  have h := run_ok (c := c) hu hs hw (is := List.range 1000) List.nodup_range
    (fun i hi => by rw [List.mem_range] at hi; omega) List.length_range
  rw [List.length_range] at h
  exact h

private theorem open_calm (e : Err) (w : World) : ∃ e' w', openE c (some e) calm w = (.ok (none, some e'), w') ∧ w'.fs = w.fs := by
  simp only [openE, bind, EcM.bind, EcM.op, M.bind, M.attempt, fOpen, fileOp, calm]
  cases w.fs .dat with
  | some f => exact ⟨_, _, rfl, rfl⟩
  | none => exact ⟨_, _, rfl, rfl⟩

/-- C89 is false if `create` fails, whatever the reason: the program looks at no error. The store is
not opened, and the first insert fails an assertion or, without assertions, has undefined behaviour.
Files that were there remain. -/
theorem C89_create_violated {e : Err} {w w₁ : World} (h : create c x.asserts x.args calm w = (.error (.err e), w₁)) :
    ∃ w', exampleMain c x calm w = (.error (if x.asserts then .abort else .ub), w') ∧ w'.fs = w₁.fs := by
  have hcr := C70_create_partial c x.asserts x.args calm w
  rw [h] at hcr
  simp only at hcr
  obtain ⟨e', w', h1, h2⟩ := open_calm (c := c) e w₁
  refine ⟨w', ?_, h2⟩
  have h3 : ∀ i is ec, exampleInserts c x (i :: is) none ec calm w' = (.error x.notOpen, w') := by
    intro i is ec
    simp only [exampleInserts, bind, M.bind]
    cases x.flushes i <;> rfl
  unfold exampleMain
  have h4 : List.range 1000 = 0 :: (List.range 999).map Nat.succ := List.range_succ_eq_map
  rw [h4]
  simp only [bind, M.bind, hcr, h1, h3]
  rfl

/-- C89 is false if one of the files exists already, for instance because the program was killed when it
ran before. -/
theorem C89_existing_violated {w : World} (hw : ∃ p, w.fs p ≠ none) :
    ∃ w', exampleMain c x calm w = (.error (if x.asserts then .abort else .ub), w') ∧ ∀ p, w'.fs p = w.fs p := by
  obtain ⟨e, w₁, h1, h2⟩ := C25_existing_cleanup (c := c) x.asserts x.args calm w hw (fun _ => rfl)
  obtain ⟨w', h3, h4⟩ := C89_create_violated h1
  exact ⟨w', h3, fun p => by rw [h4, h2 p]⟩

/- The premises of `C89_example_partial`: a machine whose background thread flushes after every third call. -/
example : ∃ x : ExampleEnv, x.uid < 2 ^ 64 ∧ x.salt < 2 ^ 64 ∧ x.flushes 3 = 1 ∧
    ∀ p, (⟨fun _ => none, 0, []⟩ : World).fs p = none :=
  ⟨⟨5, 7, true, true, fun i => if i % 3 = 0 then 1 else 0⟩, by decide, by decide, rfl, fun _ => rfl⟩

/- Those of `C89_create_violated` and `C89_existing_violated`: a log file was left behind. -/
example : ∃ (x : ExampleEnv) (w w₁ : World) (e : Err), (∃ p, w.fs p ≠ none) ∧
    create demoCfg x.asserts x.args calm w = (.error (.err e), w₁) := by
  let w : World := ⟨fun p => if p = .log then some (.clean []) else none, 0, []⟩
  have hw : ∃ p, w.fs p ≠ none := ⟨.log, by simp [w]⟩
  obtain ⟨e, w₁, h, _⟩ := C25_existing_cleanup (c := demoCfg) true
    (ExampleEnv.args ⟨5, 7, true, true, fun _ => 0⟩) calm w hw (fun _ => rfl)
  exact ⟨⟨5, 7, true, true, fun _ => 0⟩, w, w₁, e, hw, h⟩

end

end NuDB
