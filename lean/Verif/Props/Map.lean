import Verif.Props.Demo
/-
C01-C05 and C14: the store behaves like a map.
-/
namespace NuDB

open Spec

variable {c : Cfg} {a : CreateArgs} {lf : Nat} {short : Prop}

/-- C01: a value inserted with success is found by `fetch` with this key, and unchanged,
as long as nothing happened that may lose it. -/
theorem C01_fetch_inserted {t₁ t₂ : List Label} {k v : Bytes} {x : Bool} {s : Store} {fs : Fs}
    (hc : Creatable a lf)
    (hr : Reachable c a short (t₁ ++ [.call (.insert k v) .done x] ++ t₂) (some s, fs))
    (hk : ∀ l ∈ t₂, Kept l) (w : World) (hw : w.fs = fs) :
    (fetch c s k calm w).1 = .ok v ∧
    ∀ σ, (fetch c s k σ w).1 = .ok v ∨ (Disturbed σ ∧
      ((fetch c s k σ w).1 = .error (.err .io) ∨ (fetch c s k σ w).1 = .error .crash)) := by
  obtain ⟨hl, all, st, hs, hR⟩ := reachable_sure hc hr hk
  have key : ∀ σ, (fetch c s k σ w).1 = .ok v ∨ (Disturbed σ ∧
      ((fetch c s k σ w).1 = .error (.err .io) ∨ (fetch c s k σ w).1 = .error .crash)) := by
    intro σ
    cases hR with
    | opened hS hz hf =>
      have hs' : Map.union _ _ k = some v := hs
      rw [union_kvOf] at hs'
      rcases (hS.fetch_cases (k := k) hl σ w hw).2 with ⟨u, h1, h2⟩ | ⟨_, h2⟩ | h
      · rw [hs'] at h2; cases h2; exact .inl h1
      · rw [hs'] at h2; cases h2
      · exact .inr h
    | failed => exact hs.elim
  refine ⟨?_, key⟩
  rcases key calm with h | ⟨h, _⟩
  · exact h
  · exact absurd h not_faulty_calm

/-- The premises of C01 hold after inserting nine values with flushes, overflowing
buckets and a reopening in between. -/
example : ∃ t₁ t₂ k v x s fs, Creatable demoArgs 32768 ∧
    Reachable demoCfg demoArgs False (t₁ ++ [.call (.insert k v) .done x] ++ t₂) (some s, fs) ∧
    (∀ l ∈ t₂, Kept l) ∧ t₂.length = 18 := by
  obtain ⟨so, fs, h1, h2⟩ := demo_at 20 demo_eval
  obtain ⟨s, rfl⟩ := Option.isSome_iff_exists.mp h1
  refine ⟨[.call .open .done false], labels (demoOps.drop 2) (demoAns.drop 2), [1, 1], [10], false, s, fs,
    demo_creatable, h2, ?_, rfl⟩
  intro l hl
  simp only [labels, demoOps, demoAns, List.drop_succ_cons, List.drop_zero, List.zipWith_cons_cons,
    List.zipWith_nil_left, List.mem_cons, List.not_mem_nil, or_false] at hl
  rcases hl with h | h | h | h | h | h | h | h | h | h | h | h | h | h | h | h | h | h <;> subst h <;> simp [Kept]

/-- C02: a key that was never inserted is not found. -/
theorem C02_fetch_absent {t : List Label} {k : Bytes} {s : Store} {fs : Fs}
    (hc : Creatable a lf) (hr : Reachable c a short t (some s, fs))
    (hk : ∀ v x, .call (.insert k v) .done x ∉ t) (hl : k.length = a.keySize)
    (he : s.ec = none) (w : World) (hw : w.fs = fs) :
    (fetch c s k calm w).1 = .error (.err .key_not_found) ∧
    ∀ σ, (fetch c s k σ w).1 = .error (.err .key_not_found) ∨ (Disturbed σ ∧
      ((fetch c s k σ w).1 = .error (.err .io) ∨ (fetch c s k σ w).1 = .error .crash)) := by
  obtain ⟨all, st, hs, hR⟩ := reachable_absent hc hr hk
  have key : ∀ σ, (fetch c s k σ w).1 = .error (.err .key_not_found) ∨ (Disturbed σ ∧
      ((fetch c s k σ w).1 = .error (.err .io) ∨ (fetch c s k σ w).1 = .error .crash)) := by
    intro σ
    cases hR with
    | opened hS hz hf =>
      have hs' : Map.union _ _ k = none := union_none hs
      rw [union_kvOf] at hs'
      rcases (hS.fetch_cases (k := k) hl σ w hw).2 with ⟨u, h1, h2⟩ | ⟨h1, _⟩ | h
      · rw [hs'] at h2; cases h2
      · exact .inl h1
      · exact .inr h
    | failed h => rw [he] at h; cases h
  refine ⟨?_, key⟩
  rcases key calm with h | ⟨h, _⟩
  · exact h
  · exact absurd h not_faulty_calm

/-- The premises of C02 hold: [10, 0] has the same hash as seven keys that are present. -/
example : ∃ t s fs, Creatable demoArgs 32768 ∧ Reachable demoCfg demoArgs False t (some s, fs) ∧
    (∀ v x, .call (.insert [10, 0] v) .done x ∉ t) ∧ ([10, 0] : Bytes).length = demoArgs.keySize ∧
    demoCfg.H 13 [10, 0] = demoCfg.H 13 [1, 1] ∧ s.ec = none := by
  obtain ⟨so, fs, h1, h2⟩ := demo_at 20 demo_eval
  obtain ⟨s, rfl⟩ := Option.isSome_iff_exists.mp h1
  refine ⟨_, s, fs, demo_creatable, h2, ?_, rfl, rfl, ?_⟩
  · intro v x h
    simp [labels, demoOps, demoAns] at h
  · obtain ⟨st, r1, r2⟩ := simulation demo_creatable h2
    have r1 : Run Step (.closed Map.empty Map.empty) ((labels demoOps demoAns).take 19 ++
        [.call (.insert [5, 5] [55]) .done false]) st := r1
    obtain ⟨y, _, h3⟩ := r1.split rfl
    cases h3.single with
    | insertNew => exact r2.ec rfl rfl

/-- C03: `insert` with a key that is present reports `key_exists` and changes nothing; the
value stays the first one by C01. -/
theorem C03_insert_existing {t₁ t₂ : List Label} {k v u : Bytes} {x : Bool} {s : Store} {fs : Fs}
    (hc : Creatable a lf)
    (hr : Reachable c a short (t₁ ++ [.call (.insert k v) .done x] ++ t₂) (some s, fs))
    (hk : ∀ l ∈ t₂, Kept l) (hu : 1 ≤ u.length ∧ u.length < 2 ^ 32) (w : World) (hw : w.fs = fs) :
    (insert c s k u calm w).1 = .error (.err .key_exists) ∧
    ∀ σ, (insert c s k u σ w).2.fs = fs ∧
      ((insert c s k u σ w).1 = .error (.err .key_exists) ∨ (Disturbed σ ∧
        ((insert c s k u σ w).1 = .error (.err .io) ∨ (insert c s k u σ w).1 = .error .crash))) := by
  obtain ⟨hl, all, st, hs, hR⟩ := reachable_sure hc hr hk
  have key : ∀ σ, (insert c s k u σ w).2.fs = fs ∧
      ((insert c s k u σ w).1 = .error (.err .key_exists) ∨ (Disturbed σ ∧
        ((insert c s k u σ w).1 = .error (.err .io) ∨ (insert c s k u σ w).1 = .error .crash))) := by
    intro σ
    cases hR with
    | opened hS hz hf =>
      have hs' : Map.union _ _ k = some v := hs
      rw [union_kvOf] at hs'
      have hcase := hS.insert_cases (k := k) hl hu.1 hu.2 σ w hw
      refine ⟨hcase.1, ?_⟩
      rcases hcase.2 with ⟨s', h1, h2, _⟩ | ⟨h1, _⟩ | h
      · rw [hs'] at h2; cases h2
      · exact .inl h1
      · exact .inr h
    | failed => exact hs.elim
  refine ⟨?_, key⟩
  rcases (key calm).2 with h | ⟨h, _⟩
  · exact h
  · exact absurd h not_faulty_calm

/-- The premises of C03 hold in the history of C01. -/
example : ∃ t₁ t₂ k v x s fs, Creatable demoArgs 32768 ∧
    Reachable demoCfg demoArgs False (t₁ ++ [.call (.insert k v) .done x] ++ t₂) (some s, fs) ∧
    (∀ l ∈ t₂, Kept l) ∧ t₂.length = 9 := by
  obtain ⟨so, fs, h1, h2⟩ := demo_at 11 (rets := demoAns.take 11) (o := true) (by decide +kernel)
  obtain ⟨s, rfl⟩ := Option.isSome_iff_exists.mp h1
  refine ⟨[.call .open .done false], labels ((demoOps.take 11).drop 2) ((demoAns.take 11).drop 2), [1, 1], [10],
    false, s, fs, demo_creatable, h2, ?_, rfl⟩
  intro l hl
  simp only [labels, demoOps, demoAns, List.drop_succ_cons, List.drop_zero, List.take_succ_cons, List.take_zero,
    List.zipWith_cons_cons, List.zipWith_nil_left, List.mem_cons, List.not_mem_nil, or_false] at hl
  rcases hl with h | h | h | h | h | h | h | h | h <;> subst h <;> simp [Kept]

/-- C04: when `close` reports no error, the files can be opened, and afterwards every
lookup answers as it did before `close`. -/
theorem C04_close_open {t : List Label} {s : Store} {fs : Fs} (hc : Creatable a lf)
    (hr : Reachable c a short t (some s, fs)) (w w₁ : World) (hw : w.fs = fs) (σ : Schedule)
    (h : close c s σ w = (.ok none, w₁)) :
    ∃ s' w₂, openStore c calm w₁ = (.ok s', w₂) ∧
      ∀ k : Bytes, k.length = a.keySize → (fetch c s' k calm w₂).1 = (fetch c s k calm w).1 := by
  obtain ⟨st, _, hR⟩ := simulation hc hr
  cases hR with
  | @opened _ _ D K recs B view hS base hz hf =>
    subst hw
    obtain ⟨D1, K1, recs1, B1, view1, h1, h2, h3⟩ : ∃ D1 K1 recs1 B1 view1, Closed D1 K1 w₁.fs ∧
        Db c (a.conf lf) D1 K1 recs1 B1 view1 ∧ pairsOf recs1 = pairsOf recs ++ poolPairs s.p1 := by
      refine (wp_elim (Q := fun r w' => r = none → ∃ D1 K1 recs1 B1 view1, Closed D1 K1 w'.fs ∧
        Db c (a.conf lf) D1 K1 recs1 B1 view1 ∧ pairsOf recs1 = pairsOf recs ++ poolPairs s.p1)
        (wp_close (L := logMax (a.conf lf) s.p1.length) (G := fun _ _ => True) hS (fun _ => Nat.le_refl _)
        trivial (fun _ _ _ _ _ _ _ _ _ _ => trivial) ?_ ?_) h) rfl
      · intro w' D1 K1 rs B1 view a1 a2 a3 _ _ _ _ _
        exact ⟨D1, K1, _, B1, view, a1, a2, by
          rw [pairsOf_append, pairsOf_append, pairsOf_spills a3, pairsOf_recsOf, List.append_nil]⟩
      · intro w' _ _ h; cases h
    have hs1 : Safe c (a.conf lf) 0 (fun D' K' => D' = D1 ∧ K' = K1) w₁.fs := h1.safe ⟨rfl, rfl⟩
    obtain ⟨s', w₂, e, hl⟩ := wp_calm_ok (wp_open (σ := calm)
      (by rintro D' K' ⟨rfl, rfl⟩; exact ⟨_, _, _, h2⟩) (.inl calm_nofail) hs1
      (Q := fun s' w' => Lookups c a.keySize s' w'.fs (kvOf (pairsOf recs1)))
      (by
        rintro s' w' D' K' _ _ _ ⟨rfl, rfl⟩ _ hS' hp _ _ _
        have : Lookups c a.keySize s' w'.fs _ := (hS' recs1 B1 view1 h2).lookups
        rw [hp] at this
        simpa [poolPairs] using this))
    refine ⟨s', w₂, e, fun k hk => ?_⟩
    have h4 := hS.lookups w rfl k hk
    rw [h4, hl w₂ rfl k hk, h3]
  | failed he hp =>
    unfold close flush at h
    simp [hp, he, M.ret, bind, M.bind] at h

/-- The premises of C04 hold just before the `close` of the history of C01. -/
example : ∃ t s fs w w₁ σ, Creatable demoArgs 32768 ∧ Reachable demoCfg demoArgs False t (some s, fs) ∧
    w.fs = fs ∧ close demoCfg s σ w = (.ok none, w₁) := by
  have e : demoRets demoCfg demoArgs (demoOps.take 16) = some (demoAns.take 16, false) := by decide +kernel
  obtain ⟨so, fs, h1, h2⟩ := demo_at 16 e
  obtain ⟨σ, b, w0, w1, i0, i1, i2⟩ := h2
  obtain ⟨⟨so', fs'⟩, i3, i4⟩ := i2.split (t₁ := (labels demoOps demoAns).take 15)
    (t₂ := [.call .close .done false]) rfl
  cases i4.single with
  | @call _ _ _ w' _ _ _ w σ' ha hm hw h hx =>
    cases so' with
    | none => exact ha.elim
    | some s =>
      simp only [perform, bind, M.bind] at h
      cases hc : close demoCfg s σ' w with
      | mk r w2 =>
        rw [hc] at h
        cases r with
        | error x => simp at h
        | ok r =>
          cases r with
          | some x => simp [M.ret] at h
          | none => exact ⟨_, s, fs', w, w2, σ', demo_creatable, ⟨σ, b, w0, w1, i0, i1, i3⟩, hw, hc⟩

/-- C05: every history, with any faults and crashes, is one of a map with a volatile part
(`Step` says what such a map may do). -/
theorem C05_histories {t : List Label} {sys : Option Store × Fs} (hc : Creatable a lf)
    (hr : Reachable c a short t sys) : ∃ st, Run Step (.closed Map.empty Map.empty) t st :=
  let ⟨st, h, _⟩ := simulation hc hr
  ⟨st, h⟩

private theorem answers_or_big {ops : List Op} {rets : List Ret} {asserts : Bool} {w : World} (hc : Creatable a lf)
    (hs : ∀ op ∈ ops, op.Sound a.keySize) (hm : mapOps ops false Map.empty = some rets)
    (hw : ∀ p, w.fs p = none) :
    (∃ so w', (do create c asserts a; runOps c ops none : M _) calm w = (.ok (rets, so), w')) ∨
    (∃ w', (do create c asserts a; runOps c ops none : M _) calm w = (.error .abort, w') ∧
      ¬ Fits a.blockSize (attempted ops) ∧ ((attempted ops).length < 2 ^ 32 → Big w'.fs)) := by
  obtain ⟨hcf, hb, hl⟩ := creatable_ok hc
  have h1 : wp calm (create c asserts a) (fun _ _ => True) (fun _ _ => False) w := by
    refine wp_conseq (wp_create (Q := fun _ _ => True) hcf hb hl (hw _) (hw _) (hw _) (fun _ _ _ => trivial))
      (fun _ _ h => h) ?_
    intro x w' h; exact not_faulty_calm h.2
  unfold wp at h1
  split at h1
  · rename_i u w1 e
    have hR := rel_created (short := False) hc hw e
    simp only [bind, M.bind]
    rw [e]
    exact runOps_sound hcf ops hR ⟨rfl, rfl, rfl⟩ hs hm (Few.refl [])
  · exact h1.elim

/-- C05: without faults, every sequence of calls gets the answers of a map, unless an
assertion stops the process because the data file is about to exceed the 48-bit offsets of
the file format, or because 2^32 values were inserted. -/
theorem C05_answers {ops : List Op} {rets : List Ret} {asserts : Bool} {w : World} (hc : Creatable a lf)
    (hs : ∀ op ∈ ops, op.Sound a.keySize) (hm : mapOps ops false Map.empty = some rets)
    (hw : ∀ p, w.fs p = none) :
    (∃ so w', (do create c asserts a; runOps c ops none : M _) calm w = (.ok (rets, so), w')) ∨
    (∃ w', (do create c asserts a; runOps c ops none : M _) calm w = (.error .abort, w') ∧
      (2 ^ 32 ≤ (attempted ops).length ∨ Big w'.fs)) := by
  rcases answers_or_big (c := c) (asserts := asserts) hc hs hm hw with h | ⟨w', h1, _, h2⟩
  · exact .inl h
  · refine .inr ⟨w', h1, ?_⟩
    by_cases h : (attempted ops).length < 2 ^ 32
    · exact .inr (h2 h)
    · exact .inl (by omega)

/-- C05: a bound on the amount of data that excludes the exception of `C05_answers`
beforehand. -/
theorem C05_fits {ops : List Op} {rets : List Ret} {asserts : Bool} {w : World} (hc : Creatable a lf)
    (hs : ∀ op ∈ ops, op.Sound a.keySize) (hm : mapOps ops false Map.empty = some rets)
    (hf : Fits a.blockSize (attempted ops)) (hw : ∀ p, w.fs p = none) :
    ∃ so w', (do create c asserts a; runOps c ops none : M _) calm w = (.ok (rets, so), w') := by
  rcases answers_or_big (c := c) (asserts := asserts) hc hs hm hw with h | ⟨w', h1, h2, _⟩
  · exact h
  · exact absurd hf h2

/-- The premises of C05 hold for the history of C01. -/
example : Creatable demoArgs 32768 ∧ (∀ op ∈ demoOps, op.Sound demoArgs.keySize) ∧
    mapOps demoOps false Map.empty = some demoAns ∧ Fits demoArgs.blockSize (attempted demoOps) := by
  exact ⟨demo_creatable, demoOps_sound 20, by decide +kernel, by unfold Fits; decide +kernel⟩

/-- C14: the answers do not depend on the hash function (nor on the content of fresh memory
and the iteration order of hash tables, which are the other parts of `Cfg`), even if all
keys collide. -/
theorem C14_any_hash {c₁ c₂ : Cfg} {ops : List Op} {rets rets₁ rets₂ : List Ret} {so₁ so₂ : Option Store}
    {asserts : Bool} {w w₁ w₂ : World} (hc : Creatable a lf) (hs : ∀ op ∈ ops, op.Sound a.keySize)
    (hm : mapOps ops false Map.empty = some rets) (hw : ∀ p, w.fs p = none)
    (h₁ : (do create c₁ asserts a; runOps c₁ ops none : M _) calm w = (.ok (rets₁, so₁), w₁))
    (h₂ : (do create c₂ asserts a; runOps c₂ ops none : M _) calm w = (.ok (rets₂, so₂), w₂)) :
    rets₁ = rets₂ := by
  have f : ∀ {c : Cfg} {rets' so' w'},
      (do create c asserts a; runOps c ops none : M _) calm w = (.ok (rets', so'), w') → rets' = rets := by
    intro c rets' so' w' h
    rcases C05_answers (c := c) (asserts := asserts) hc hs hm hw with ⟨so, v, e⟩ | ⟨v, e, _⟩
    · rw [e] at h; injection h with h _; injection h with h; injection h with h _; exact h.symm
    · rw [e] at h; injection h with h _; cases h
  rw [f h₁, f h₂]

/-- C14: with the bound of `C05_fits` both executions succeed. -/
theorem C14_fits {c₁ c₂ : Cfg} {ops : List Op} {rets : List Ret} {asserts : Bool} {w : World}
    (hc : Creatable a lf) (hs : ∀ op ∈ ops, op.Sound a.keySize)
    (hm : mapOps ops false Map.empty = some rets)
    (hf : Fits a.blockSize (attempted ops)) (hw : ∀ p, w.fs p = none) :
    ∃ so₁ so₂ w₁ w₂,
      (do create c₁ asserts a; runOps c₁ ops none : M _) calm w = (.ok (rets, so₁), w₁) ∧
      (do create c₂ asserts a; runOps c₂ ops none : M _) calm w = (.ok (rets, so₂), w₂) := by
  obtain ⟨so₁, w₁, e₁⟩ := C05_fits (c := c₁) (asserts := asserts) hc hs hm hf hw
  obtain ⟨so₂, w₂, e₂⟩ := C05_fits (c := c₂) (asserts := asserts) hc hs hm hf hw
  exact ⟨so₁, so₂, w₁, w₂, e₁, e₂⟩

/-- The premises of C14 hold for the history of C01 with a hash function that maps every
key to 0, and the one of the other examples. -/
example : ∃ so₁ so₂ w₁ w₂,
    (do create { demoCfg with H := fun _ _ => 0 } true demoArgs
        runOps { demoCfg with H := fun _ _ => 0 } demoOps none : M _) calm ⟨fun _ => none, 0, []⟩ =
      (.ok (demoAns, so₁), w₁) ∧
    (do create demoCfg true demoArgs; runOps demoCfg demoOps none : M _) calm ⟨fun _ => none, 0, []⟩ =
      (.ok (demoAns, so₂), w₂) :=
  C14_fits demo_creatable (demoOps_sound 20) (by decide +kernel) (by unfold Fits; decide +kernel) (fun _ => rfl)

end NuDB
