import Verif.Props.Demo
/-
C06-C09 and C12: crashes and failing file operations.
-/
namespace NuDB

open Spec

section
variable {c : Cfg} {cf : Conf} {short : Prop}

theorem Holds.db {ps : List (Bytes × Bytes)} {D K : Bytes} (h : Holds c cf D K ps) :
    ∃ recs B view, Db c cf D K recs B view ∧ pairsOf recs = ps := h

theorem commitGoal_db {D0 K0 : Bytes} {recs : List Rec} {B : Nat} {view : View} {ps : List (Bytes × Bytes)}
    (h : Db c cf D0 K0 recs B view) (D K : Bytes) (hg : CommitGoal c cf D0 K0 ps D K) :
    ∃ recs B view, Db c cf D K recs B view := by
  rcases hg with ⟨rfl, rfl⟩ | ⟨_, hh⟩
  · exact ⟨_, _, _, h⟩
  · obtain ⟨r, B, v, h, _⟩ := hh; exact ⟨r, B, v, h⟩

/-- Files left behind by a flush that did not succeed. -/
theorem flush_left {s s' : Store} {fs : Fs} {D K : Bytes} {recs : List Rec} {B : Nat} {view : View}
    (hS : Sess c cf s fs D K recs B view) {w w₁ : World} {σ : Schedule} {r : Except Exc Store} (hw : w.fs = fs)
    (h : flush c s σ w = (r, w₁)) (hr : (∃ e, r = .error e) ∨ r = .ok s' ∧ s'.ec ≠ none) :
    Safe c cf (logMax cf s.p1.length) (CommitGoal c cf D K (pairsOf recs ++ poolPairs s.p1)) w₁.fs := by
  subst hw
  have h1 := wp_flush (σ := σ) (G := CommitGoal c cf D K (pairsOf recs ++ poolPairs s.p1))
    (Q := fun s' w' => s'.ec ≠ none → Safe c cf (logMax cf s.p1.length)
      (CommitGoal c cf D K (pairsOf recs ++ poolPairs s.p1)) w'.fs)
    hS (fun _ => Nat.le_refl _) (.inl ⟨rfl, rfl⟩)
    (fun D' K' recs' B' view' h1 h2 h3 _ _ => .inr ⟨h1, recs', B', view', h2, h3⟩)
    (fun s' w' _ _ _ _ _ h1 _ _ _ _ _ _ _ h2 => absurd h1.ec h2)
    (fun s' w' _ _ _ h _ => h)
  unfold wp at h1
  rw [h] at h1
  rcases hr with ⟨e, rfl⟩ | ⟨rfl, he⟩
  · exact h1.1
  · exact h1 he

/-- Files left behind by a close that did not succeed. -/
theorem close_left {s : Store} {fs : Fs} {D K : Bytes} {recs : List Rec} {B : Nat} {view : View}
    (hS : Sess c cf s fs D K recs B view) {w w₁ : World} {σ : Schedule} {r : Except Exc (Option Err)} (hw : w.fs = fs)
    (h : close c s σ w = (r, w₁)) (hr : r ≠ .ok none) :
    Safe c cf (logMax cf s.p1.length) (CommitGoal c cf D K (pairsOf recs ++ poolPairs s.p1)) w₁.fs := by
  subst hw
  have h1 := wp_close (σ := σ) (G := CommitGoal c cf D K (pairsOf recs ++ poolPairs s.p1))
    (Q := fun r w' => r ≠ none → Safe c cf (logMax cf s.p1.length)
      (CommitGoal c cf D K (pairsOf recs ++ poolPairs s.p1)) w'.fs)
    hS (fun _ => Nat.le_refl _) (.inl ⟨rfl, rfl⟩)
    (fun D' K' recs' B' view' h1 h2 h3 _ _ => .inr ⟨h1, recs', B', view', h2, h3⟩)
    (fun w' _ _ _ _ _ _ _ _ _ _ _ _ h2 => absurd rfl h2)
    (fun w' _ h _ => h)
  unfold wp at h1
  rw [h] at h1
  cases r with
  | error e => exact h1.1
  | ok r => exact h1 (fun e => hr (by rw [e]))

/-- What such files hold. -/
theorem left_answers {L : Nat} {s : Store} {fs fs' : Fs} {D K : Bytes} {recs : List Rec} {B : Nat} {view : View}
    (hS : Sess c cf s fs D K recs B view)
    (hs : Safe c cf L (CommitGoal c cf D K (pairsOf recs ++ poolPairs s.p1)) fs') {fs₁ : Fs}
    (hr : Restart fs' fs₁) :
    Answers c cf.keySize fs₁ (kvOf (pairsOf recs)) ∨
      Answers c cf.keySize fs₁ (kvOf (pairsOf recs ++ poolPairs s.p1)) := by
  obtain ⟨D', K', hg, ha⟩ := (hs.restart hr).answers (commitGoal_db hS.db)
  rcases hg with ⟨rfl, rfl⟩ | ⟨_, rs, B', v', h1, h2⟩
  · exact .inl (ha _ _ _ hS.db)
  · exact .inr (h2 ▸ ha _ _ _ h1)

theorem Sess.answers {s : Store} {fs : Fs} {D K : Bytes} {recs : List Rec} {B : Nat} {view : View}
    (hS : Sess c cf s fs D K recs B view) : Answers c cf.keySize fs (kvOf (pairsOf recs)) := by
  have h : Safe c cf 0 (fun D' K' => D' = D ∧ K' = K) fs := hS.idle.safe ⟨rfl, rfl⟩
  obtain ⟨D', K', ⟨rfl, rfl⟩, ha⟩ := h.answers (by rintro D' K' ⟨rfl, rfl⟩; exact ⟨_, _, _, hS.db⟩)
  exact ha _ _ _ hS.db

end

section
variable {c : Cfg} {a : CreateArgs} {lf : Nat} {short : Prop}

/-- C06: when the process or the machine dies during a flush, recovery afterwards yields
exactly the pairs stored before it, or exactly these and all pairs that were to be
flushed. -/
theorem C06_commit_atomic {t : List Label} {s : Store} {fs : Fs} (hc : Creatable a lf)
    (hr : Reachable c a short t (some s, fs)) (he : s.ec = none) :
    ∃ before after : Map, Answers c a.keySize fs before ∧ Lookups c a.keySize s fs after ∧
      (∀ k v, before k = some v → after k = some v) ∧
      ∀ σ w w₁ fs₁, w.fs = fs → flush c s σ w = (.error .crash, w₁) → Restart w₁.fs fs₁ →
        Answers c a.keySize fs₁ before ∨ Answers c a.keySize fs₁ after := by
  obtain ⟨st, _, hR⟩ := simulation hc hr
  cases hR with
  | @opened _ _ D K recs B view hS base hz hf =>
    refine ⟨_, _, hS.answers, hS.lookups, ?_, ?_⟩
    · intro k v h; rw [kvOf_append, h]; rfl
    · intro σ w w₁ fs₁ hw h hs
      exact left_answers hS (flush_left (s' := s) hS hw h (.inl ⟨_, rfl⟩)) hs
  | failed h => rw [he] at h; cases h

/-- The premises of C06 hold for a flush of eight pairs that dies while writing a block. -/
example : ∃ t s fs σ w w₁ fs₁, Creatable demoArgs 32768 ∧ Reachable demoCfg demoArgs False t (some s, fs) ∧
    s.ec = none ∧ s.p1.length = 8 ∧ w.fs = fs ∧ flush demoCfg s σ w = (.error .crash, w₁) ∧
    Restart w₁.fs fs₁ := by
  obtain ⟨t, s, w, w₁, h1, h2, h3, h4, _⟩ := demo_crash
  exact ⟨t, s, w.fs, _, w, w₁, w₁.fs, demo_creatable, h1, h2, h3, rfl, h4, .inl rfl⟩

/-- C06 for the flush inside of `close`. -/
theorem C06_close_atomic {t : List Label} {s : Store} {fs : Fs} (hc : Creatable a lf)
    (hr : Reachable c a short t (some s, fs)) (he : s.ec = none) :
    ∃ before after : Map, Answers c a.keySize fs before ∧ Lookups c a.keySize s fs after ∧
      (∀ k v, before k = some v → after k = some v) ∧
      ∀ σ w w₁ fs₁, w.fs = fs → close c s σ w = (.error .crash, w₁) → Restart w₁.fs fs₁ →
        Answers c a.keySize fs₁ before ∨ Answers c a.keySize fs₁ after := by
  obtain ⟨st, _, hR⟩ := simulation hc hr
  cases hR with
  | @opened _ _ D K recs B view hS base hz hf =>
    refine ⟨_, _, hS.answers, hS.lookups, ?_, ?_⟩
    · intro k v h; rw [kvOf_append, h]; rfl
    · intro σ w w₁ fs₁ hw h hs
      exact left_answers hS (close_left hS hw h (by simp)) hs
  | failed h => rw [he] at h; cases h

/-- C12: when a flush reports an error, the files hold the pairs stored before it or these
and all pairs that were to be flushed, even after a crash. -/
theorem C12_failed_commit {t : List Label} {s : Store} {fs : Fs} (hc : Creatable a lf)
    (hr : Reachable c a short t (some s, fs)) (he : s.ec = none) :
    ∃ before after : Map, Answers c a.keySize fs before ∧ Lookups c a.keySize s fs after ∧
      (∀ k v, before k = some v → after k = some v) ∧
      (∀ σ w s' w₁ fs₁, w.fs = fs → flush c s σ w = (.ok s', w₁) → s'.ec ≠ none → Restart w₁.fs fs₁ →
        Answers c a.keySize fs₁ before ∨ Answers c a.keySize fs₁ after) ∧
      (∀ σ w e w₁ fs₁, w.fs = fs → close c s σ w = (.ok (some e), w₁) → Restart w₁.fs fs₁ →
        Answers c a.keySize fs₁ before ∨ Answers c a.keySize fs₁ after) := by
  obtain ⟨st, _, hR⟩ := simulation hc hr
  cases hR with
  | @opened _ _ D K recs B view hS base hz hf =>
    refine ⟨_, _, hS.answers, hS.lookups, ?_, ?_, ?_⟩
    · intro k v h; rw [kvOf_append, h]; rfl
    · intro σ w s' w₁ fs₁ hw h h' hs
      exact left_answers hS (flush_left (s' := s') hS hw h (.inr ⟨rfl, h'⟩)) hs
    · intro σ w e w₁ fs₁ hw h hs
      exact left_answers hS (close_left hS hw h (by simp)) hs
  | failed h => rw [he] at h; cases h

/-- The premises of C12 hold for a flush of eight pairs whose twelfth file operation fails. -/
example : ∃ t s fs σ w s' w₁, Creatable demoArgs 32768 ∧ Reachable demoCfg demoArgs False t (some s, fs) ∧
    s.ec = none ∧ s.p1.length = 8 ∧ w.fs = fs ∧ flush demoCfg s σ w = (.ok s', w₁) ∧ s'.ec ≠ none := by
  obtain ⟨t, s, w, s', w₁, h1, h2, h3, h4, h5⟩ := demo_fail
  exact ⟨t, s, w.fs, _, w, s', w₁, demo_creatable, h1, h2, h3, rfl, h4, h5⟩

/-- C12: however many calls, failures and crashes follow a failed flush, the files hold one
of the maps that `Step` permits: nothing else is ever readable. -/
theorem C12_any_history {t : List Label} {sys : Option Store × Fs} {fs' : Fs} (hc : Creatable a lf)
    (hr : Reachable c a short t sys) (hs : Restart sys.2 fs') :
    ∃ st m, Run Step (.closed Map.empty Map.empty) t st ∧ Answers c a.keySize fs' m ∧
      match st with
      | .opened d _ => m = d
      | .failed m₀ m₁ => m = m₀ ∨ m = m₁
      | .closed m₀ m₁ => m = m₀ ∨ m = m₁ := by
  obtain ⟨st, h, hR⟩ := simulation hc hr
  cases hR with
  | @opened _ _ D K recs B view hS base hz hf =>
    have h1 : Safe c (a.conf lf) 0 (fun D' K' => D' = D ∧ K' = K) fs' := (hS.idle.safe ⟨rfl, rfl⟩ : Safe _ _ _ _ _).restart hs
    obtain ⟨D', K', ⟨rfl, rfl⟩, ha⟩ := h1.answers (by rintro D' K' ⟨rfl, rfl⟩; exact ⟨_, _, _, hS.db⟩)
    exact ⟨_, _, h, ha _ _ _ hS.db, rfl⟩
  | failed _ _ _ h1 =>
    obtain ⟨D', K', hg, ha⟩ := (h1.restart hs).answers GoalM.db
    obtain ⟨rs, B, v, g1, _, g4⟩ := hg
    exact ⟨_, _, h, ha _ _ _ g1, g4⟩
  | closed _ h1 =>
    obtain ⟨D', K', hg, ha⟩ := (h1.restart hs).answers GoalM.db
    obtain ⟨rs, B, v, g1, _, g4⟩ := hg
    exact ⟨_, _, h, ha _ _ _ g1, g4⟩

/-- C07: a pair that was inserted before a successful flush or close is in the files
forever, whatever crashes and failures follow. -/
theorem C07_durable {t₁ t₂ t₃ : List Label} {k v : Bytes} {x y : Bool} {op : Op} {sys : Option Store × Fs}
    {fs' : Fs} (hc : Creatable a lf)
    (hr : Reachable c a short
      (t₁ ++ [.call (.insert k v) .done x] ++ t₂ ++ [.call op .done y] ++ t₃) sys)
    (hk : ∀ l ∈ t₂, Kept l) (hop : op = .flush ∨ op = .close) (hs : Restart sys.2 fs') :
    ∃ m, Answers c a.keySize fs' m ∧ m k = some v := by
  obtain ⟨st, m, h1, h2, h3⟩ := C12_any_history hc hr hs
  refine ⟨m, h2, ?_⟩
  obtain ⟨y1, r1, r2⟩ := h1.split rfl
  obtain ⟨y2, r3, r4⟩ := r1.split rfl
  obtain ⟨y3, r5, r6⟩ := r3.split rfl
  obtain ⟨y4, _, r7⟩ := r5.split rfl
  have s3 : Sure k v y3 := by
    cases r7.single with
    | insertNew h =>
      show Map.union _ _ k = _
      simp only [Map.union, Option.or_eq_none_iff] at h
      simp [Map.union, Map.add, h.1]
  have s2 : Sure k v y2 := r6.invariant (P := Sure k v) (Q := Kept) (fun _ _ _ h hl hx => hx.step h hl) hk s3
  have s1 : Durable k v y1 := by
    have := r4.single
    rcases hop with rfl | rfl
    · cases this with
      | flush => exact s2
    · cases this with
      | close => exact ⟨s2, s2⟩
  have s0 : Durable k v st := r2.invariant (P := Durable k v) (Q := fun _ => True) (fun _ _ _ h _ hx => hx.step h)
    (fun _ _ => trivial) s1
  cases st with
  | opened d b => rw [h3]; exact s0
  | failed m₀ m₁ =>
    rcases h3 with rfl | rfl
    · exact s0.1
    · exact s0.2
  | closed m₀ m₁ =>
    rcases h3 with rfl | rfl
    · exact s0.1
    · exact s0.2

/-- The premises of C07 hold in the history of C01, whose ninth call is a flush. -/
example : ∃ t₁ t₂ t₃ k v x y sys fs', Creatable demoArgs 32768 ∧
    Reachable demoCfg demoArgs False
      (t₁ ++ [.call (.insert k v) .done x] ++ t₂ ++ [.call .flush .done y] ++ t₃) sys ∧
    (∀ l ∈ t₂, Kept l) ∧ t₃.length = 10 ∧ Restart sys.2 fs' := by
  obtain ⟨so, fs, h1, h2⟩ := demo_at 20 demo_eval
  refine ⟨(labels demoOps demoAns).take 5, ((labels demoOps demoAns).drop 6).take 3, (labels demoOps demoAns).drop 10,
    [1, 5], [50], false, false, _, fs, demo_creatable, h2, ?_, rfl, .inl rfl⟩
  intro l hl
  simp only [labels, demoOps, demoAns, List.drop_succ_cons, List.drop_zero, List.take_succ_cons, List.take_zero,
    List.zipWith_cons_cons, List.zipWith_nil_left, List.mem_cons, List.not_mem_nil, or_false] at hl
  rcases hl with h | h | h <;> subst h <;> simp [Kept]

/-- C08 in part: recovery that is interrupted, any number of times and at any point, ends in one of
the maps that the first, undisturbed attempt could have produced. Missing: reads that fail
(rather than crash) while a log of more than 1024 blocks is replayed; there the claim is
wrong. -/
theorem C08_recover_interrupted_partial {t : List Label} {fs fs' : Fs} (hc : Creatable a lf)
    (hr : Reachable c a short t (none, fs)) (hs : Attempts c short fs fs') :
    ∃ m₀ m₁, Run Step (.closed Map.empty Map.empty) t (.closed m₀ m₁) ∧
      (Answers c a.keySize fs' m₀ ∨ Answers c a.keySize fs' m₁) := by
  obtain ⟨st, h, hR⟩ := simulation hc hr
  cases hR with
  | @closed _ L m₀ m₁ hL h1 =>
    have h2 : Safe c (a.conf lf) L (GoalM c (a.conf lf) (inserted t) m₀ m₁) fs' := by
      clear h
      induction hs with
      | none => exact h1
      | @more fs₁ fs₂ w w' r _ σ hσ hw hr' hs ih =>
        subst hw
        have hw := wp_recover (σ := σ) GoalM.db (hσ.imp_right hL) ih
          (Q := fun _ w' => Safe c (a.conf lf) L (GoalM c (a.conf lf) (inserted t) m₀ m₁) w'.fs)
          (fun w' D K hC hG _ => hC.safe hG)
        unfold wp at hw
        rw [hr'] at hw
        cases r with
        | ok _ => exact Safe.restart hw hs
        | error _ => exact Safe.restart hw.1 hs
    obtain ⟨D', K', hg, ha⟩ := h2.answers GoalM.db
    obtain ⟨rs, B, v, g1, _, g4⟩ := hg
    refine ⟨_, _, h, ?_⟩
    rcases g4 with g4 | g4
    · exact .inl (g4 ▸ ha _ _ _ g1)
    · exact .inr (g4 ▸ ha _ _ _ g1)

theorem reachable_died {t : List Label} {s : Store} {w w₁ : World} {σ : Schedule}
    (h : Reachable c a False t (some s, w.fs)) (hf : flush c s σ w = (.error .crash, w₁)) :
    Reachable c a False (t ++ [.died .flush]) (none, w₁.fs) := by
  obtain ⟨σ', b, v₀, v₁, i0, i1, i2⟩ := h
  refine ⟨σ', b, v₀, v₁, i0, i1, .snoc i2 (.died (w := w) σ trivial ⟨fun h => (by cases h), fun h => h.elim⟩ rfl
    (e := .crash) (w' := w₁) ?_ (.inl rfl) (.inl rfl))⟩
  simp only [perform, bind, M.bind, hf]

/-- The premises of C08 hold after the crash of the example of C06, with a first attempt
at recovery that dies in its tenth file operation. -/
example : ∃ t fs fs', Creatable demoArgs 32768 ∧ Reachable demoCfg demoArgs False t (none, fs) ∧
    Attempts demoCfg False fs fs' := by
  obtain ⟨t, s, w, w₁, h1, h2, h3, h4, w₂, h5⟩ := demo_crash
  exact ⟨_, w₁.fs, w₂.fs, demo_creatable, reachable_died h1 h4,
    .more (.none _) _ (.inl (by intro i k; unfold faultAt; split <;> simp)) rfl h5 (.inl rfl)⟩

/-- C09: when a flush is interrupted, recovery either restores both files byte for byte, or
the flush had been completed. No log file is left. -/
theorem C09_rollback_exact {t : List Label} {s : Store} {fs fs₁ : Fs} {σ : Schedule} {w w₁ : World}
    (hc : Creatable a lf) (hr : Reachable c a short t (some s, fs)) (he : s.ec = none) (hw : w.fs = fs)
    (h : flush c s σ w = (.error .crash, w₁)) (hs : Restart w₁.fs fs₁) :
    ∃ w₂, recover c calm ⟨fs₁, 0, []⟩ = (.ok (), w₂) ∧ w₂.fs .log = none ∧
      ((bytesOf w₂.fs .dat = bytesOf fs .dat ∧ bytesOf w₂.fs .key = bytesOf fs .key) ∨
        ∃ after, Lookups c a.keySize s fs after ∧ Answers c a.keySize fs₁ after) := by
  obtain ⟨st, _, hR⟩ := simulation hc hr
  cases hR with
  | @opened _ _ D K recs B view hS base hz hf =>
    have h1 := (flush_left (s' := s) hS hw h (.inl ⟨_, rfl⟩)).restart hs
    obtain ⟨D', K', w₂, hg, e, hC, ha⟩ := h1.recovers (commitGoal_db hS.db)
    refine ⟨w₂, e, hC.log, ?_⟩
    rcases hg with ⟨rfl, rfl⟩ | ⟨_, rs, B', v', h1, h2⟩
    · left
      obtain ⟨df, d1, d2⟩ := hC.dat
      obtain ⟨kf, k1, k2⟩ := hC.key
      obtain ⟨df', d1', d2'⟩ := hS.idle.dat
      obtain ⟨kf', k1', k2'⟩ := hS.idle.key
      simp [bytesOf, d1, k1, d1', k1', d2.cur, k2.cur, d2'.cur, k2'.cur]
    · right
      exact ⟨_, hS.lookups, h2 ▸ ha _ _ _ h1⟩
  | failed h => rw [he] at h; cases h

/-- The premises of C09 hold in the example of C06. -/
example : ∃ t s fs σ w w₁ fs₁, Creatable demoArgs 32768 ∧ Reachable demoCfg demoArgs False t (some s, fs) ∧
    s.ec = none ∧ s.p1.length = 8 ∧ w.fs = fs ∧ flush demoCfg s σ w = (.error .crash, w₁) ∧
    Restart w₁.fs fs₁ := by
  obtain ⟨t, s, w, w₁, h1, h2, h3, h4, _⟩ := demo_crash
  exact ⟨t, s, w.fs, _, w, w₁, w₁.fs, demo_creatable, h1, h2, h3, rfl, h4, .inl rfl⟩

end

end NuDB
