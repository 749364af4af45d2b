import Verif.Props.Atomic
import Verif.Proof.Frame
/-
C10 and C11: recovery of clean files, and stores after a failure.
-/
namespace NuDB

open Spec

section
variable {c : Cfg}

private theorem noop_wp {σ : Schedule} {w : World} {df kf : FileSt} (hd : w.fs .dat = some df)
    (hk : w.fs .key = some kf) (h92 : 92 ≤ df.cur.length)
    (hv : verifyDat (getDatHeader (df.cur.take 92)) = .ok ()) (h104 : 104 < kf.cur.length)
    (hl : ∀ lf, w.fs .log = some lf → lf.cur.length < 62) :
    wp σ (recover c)
      (fun _ w' => w'.fs .dat = w.fs .dat ∧ w'.fs .key = w.fs .key ∧ w'.fs .log = none ∧
        (w.fs .log = none → w'.fs = w.fs))
      (fun _ w' => w'.fs .dat = w.fs .dat ∧ w'.fs .key = w.fs .key ∧ Faulty σ) w := by
  have hX : ∀ (w' : World) (x : Exc), w'.fs = w.fs → IsFault x → Faulty σ →
      (w'.tick w'.fs).fs .dat = w.fs .dat ∧ (w'.tick w'.fs).fs .key = w.fs .key ∧ Faulty σ := by
    intro w' x h _ hf; exact ⟨by simp [h], by simp [h], hf⟩
  unfold recover
  apply wp_bind
  apply wp_fOpen hd _ (fun x hx hf => hX w x rfl hx hf)
  apply wp_bind
  apply wp_fSize (by exact hd) _ (by exact fun x hx hf => hX w x rfl hx hf)
  apply wp_bind
  unfold readDatHeader
  apply wp_bind
  apply wp_fRead (by exact hd) (by simpa [datHeaderSize] using h92) _ (by exact fun x hx hf => hX w x rfl hx hf)
  apply wp_ret
  apply wp_bind
  apply wp_check_ok (a := ()) (by rw [take_eq_slice']; exact hv)
  apply wp_bind
  apply wp_fOpen (by exact hk) _ (by exact fun x hx hf => hX w x rfl hx hf)
  apply wp_bind
  apply wp_fSize (by exact hk) _ (by exact fun x hx hf => hX w x rfl hx hf)
  rw [if_neg (by simp only [keyHeaderSize]; omega)]
  apply wp_bind
  apply wp_attempt
  have hio : ∀ x, IsFault x → Faulty σ → ∀ {α : Type} {Q : α → World → Prop} {w' : World}, w'.fs = w.fs →
      ∀ k : Except Err Unit → M α, (k (.error .io) = M.fail .io) →
      (match x with
        | .err e => wp σ (k (.error e)) Q (fun _ w' => w'.fs .dat = w.fs .dat ∧ w'.fs .key = w.fs .key ∧ Faulty σ) w'
        | _ => w'.fs .dat = w.fs .dat ∧ w'.fs .key = w.fs .key ∧ Faulty σ) := by
    intro x hx hf α Q w' hw k hk
    rcases hx with rfl | rfl
    · exact ⟨by simp [hw], by simp [hw], hf⟩
    · simp only [hk]; exact wp_fail ⟨by simp [hw], by simp [hw], hf⟩
  cases hlog : w.fs .log with
  | none =>
    apply wp_fOpen_none (by exact hlog)
    · apply wp_ret; exact ⟨rfl, rfl, hlog, fun _ => rfl⟩
    · intro x hx hf
      rcases hx with rfl | rfl
      · exact ⟨rfl, rfl, hf⟩
      · exact wp_fail ⟨rfl, rfl, hf⟩
  | some lf =>
    apply wp_fOpen (by exact hlog)
    · simp only
      apply wp_bind
      apply wp_fSize (by exact hlog) _ (by exact fun x hx hf => hX w x rfl hx hf)
      apply wp_bind
      apply wp_attempt
      unfold readLogHeader
      apply wp_bind
      apply wp_fRead_short (by exact hlog) (by decide) (by simpa [logHeaderSize] using hl lf hlog)
      · simp only
        unfold clearLog
        apply wp_bind
        apply wp_fTrunc (by exact hlog) _ (by exact fun x hx hf => hX w x rfl hx hf)
        apply wp_bind
        apply wp_fSync (f := lf.push (.trunc 0)) (by simp)
        · generalize hfs : Fs.set _ .log (some (FileSt.synced _)) = fs2
          have d2 : fs2 .dat = w.fs .dat := by rw [← hfs]; simp
          have k2 : fs2 .key = w.fs .key := by rw [← hfs]; simp
          have l2 : fs2 .log = some (lf.push (.trunc 0)).synced := by rw [← hfs]; simp
          apply wp_fErase (by exact l2)
          · exact ⟨by simpa using d2, by simpa using k2, by simp, fun h => by simp at h⟩
          · intro x hx hf; exact ⟨d2, k2, hf⟩
        · intro x hx hf; exact ⟨by simp, by simp, hf⟩
      · intro x hx hf
        rcases hx with rfl | rfl
        · exact ⟨rfl, rfl, hf⟩
        · exact wp_fail ⟨rfl, rfl, hf⟩
    · intro x hx hf
      rcases hx with rfl | rfl
      · exact ⟨rfl, rfl, hf⟩
      · exact wp_fail ⟨rfl, rfl, hf⟩

/-- C10: on files with a valid data file header and a key file longer than its header,
without a log or with one that is shorter than a log header, `recover` succeeds, changes
neither file, and no log is left. Faults do not change this, except for the success. -/
theorem C10_no_log {w : World} {df kf : FileSt} (hd : w.fs .dat = some df)
    (hk : w.fs .key = some kf) (h92 : 92 ≤ df.cur.length)
    (hv : verifyDat (getDatHeader (df.cur.take 92)) = .ok ()) (h104 : 104 < kf.cur.length)
    (hl : ∀ lf, w.fs .log = some lf → lf.cur.length < 62) :
    (∃ w', recover c calm w = (.ok (), w') ∧ w'.fs .log = none) ∧
    ∀ σ, (recover c σ w).2.fs .dat = some df ∧ (recover c σ w).2.fs .key = some kf := by
  constructor
  · have h := noop_wp (c := c) (σ := calm) hd hk h92 hv h104 hl
    unfold wp at h
    split at h
    · rename_i a w' e; exact ⟨w', e, h.2.2.1⟩
    · exact absurd h.2.2 not_faulty_calm
  · intro σ
    have h := noop_wp (c := c) (σ := σ) hd hk h92 hv h104 hl
    rw [hd, hk] at h
    unfold wp at h
    split at h
    · rename_i a w' e; rw [e]; exact ⟨h.1, h.2.1⟩
    · rename_i a w' e; rw [e]; exact ⟨h.1, h.2.1⟩

variable {a : CreateArgs} {lf : Nat} {short : Prop}

/-- C10: a second `recover` after a successful one changes nothing. -/
theorem C10_twice {t : List Label} {fs : Fs} (hc : Creatable a lf) (hr : Reachable c a short t (none, fs))
    {σ : Schedule} (hσ : (∀ i k, σ i ≠ .fail k) ∨ short) {w w₁ : World} (hw : w.fs = fs)
    (h : recover c σ w = (.ok (), w₁)) :
    ∃ w₂, recover c calm w₁ = (.ok (), w₂) ∧ w₂.fs = w₁.fs := by
  obtain ⟨st, _, hR⟩ := simulation hc hr
  cases hR with
  | @closed _ L m₀ m₁ hL h1 =>
    subst hw
    obtain ⟨D, K, hC, hg⟩ := wp_elim (wp_recover (σ := σ) GoalM.db (hσ.imp_right hL) h1
      (Q := fun _ w' => ∃ D K, Closed D K w'.fs ∧ GoalM c (a.conf lf) (inserted t) m₀ m₁ D K)
      (fun w' D K hC hG _ => ⟨D, K, hC, hG⟩)) h
    obtain ⟨recs, B, view, hdb, _⟩ := hg
    obtain ⟨df, d1, d2⟩ := hC.dat
    obtain ⟨kf, k1, k2⟩ := hC.key
    have hd' : DatFile (a.conf lf) D recs := hdb.dat
    have h2 := noop_wp (c := c) (σ := calm) (w := w₁) d1 k1
      (by rw [d2.cur, hd'.eq]; simp) (by
        have := get_dh hd' hdb.conf (List.prefix_refl D)
        rw [take_eq_slice'] at this
        rw [d2.cur, this]; exact verifyDat_ok hdb.conf)
      (by rw [k2.cur]; have := hdb.klen.1; omega) (by intro lf h; rw [hC.log] at h; cases h)
    unfold wp at h2
    split at h2
    · rename_i u w' e; exact ⟨w', e, h2.2.2.2 hC.log⟩
    · exact absurd h2.2.2 not_faulty_calm

/-- The premises of C10 hold after the first five calls and after a crash. -/
example : ∃ t fs w₁, Creatable demoArgs 32768 ∧ Reachable demoCfg demoArgs False t (none, fs) ∧
    recover demoCfg calm ⟨fs, 0, []⟩ = (.ok (), w₁) := by
  obtain ⟨t, s, w, w₁, h1, h2, h3, h4, w₂, h5⟩ := demo_crash
  have hr := reachable_died h1 h4
  obtain ⟨st, m, _, ⟨v₁, _, _, e, _⟩, _⟩ := C12_any_history demo_creatable hr (.inl rfl)
  exact ⟨_, _, v₁, demo_creatable, hr, e⟩

/-- `commit` on a store with an error. -/
private theorem commit_dead {s : Store} {e : Err} (he : s.ec = some e) {σ : Schedule} {w : World} :
    wp σ (commit c s) (fun r w' => w'.fs = w.fs ∧ r.2 ≠ none ∧ r.1.ec = some e) (fun _ w' => w'.fs = w.fs) w := by
  unfold commit
  apply wp_bind
  apply wp_readonly (fun _ => Spares.lift _)
  · intro _ w1 e1
    apply wp_bind
    apply wp_attempt
    have h : ReadOnly (commitPrepare c { s with p0 := s.p1, p1 := s.p0 }) := by
      intro p
      unfold commitPrepare
      simp only [he]
      exact Spares.bind (Spares.lift _) (fun _ => Spares.bind Spares.fSize (fun _ => Spares.fail _))
    have hx : wp σ (commitPrepare c { s with p0 := s.p1, p1 := s.p0 }) (fun _ _ => False)
        (fun _ w' => w'.fs = w.fs) w1 := by
      have h1 := wp_readonly h (σ := σ) (w := w1) (Q := fun _ w' => w'.fs = w.fs) (X := fun _ w' => w'.fs = w.fs)
        (fun _ w' e => e.trans e1) (fun _ w' e => e.trans e1)
      have h2 : wp σ (commitPrepare c { s with p0 := s.p1, p1 := s.p0 }) (fun _ _ => False) (fun _ _ => True) w1 := by
        unfold commitPrepare
        simp only [he]
        apply wp_bind
        refine wp_conseq (Q := fun _ _ => True) (X := fun _ _ => True) (by unfold wp; split <;> trivial) ?_ (fun _ _ _ => trivial)
        intro _ _ _
        apply wp_bind
        refine wp_conseq (Q := fun _ _ => True) (X := fun _ _ => True) (by unfold wp; split <;> trivial) ?_ (fun _ _ _ => trivial)
        intro _ _ _
        exact wp_fail trivial
      exact wp_conseq (wp_and h1 h2) (fun _ _ h => h.2) (fun _ _ h => h.1)
    refine wp_conseq hx (fun _ _ h => h.elim) ?_
    intro x w' hw
    cases x with
    | err e' => exact wp_ret ⟨hw, by simp, he⟩
    | _ => exact hw
  · intro _ w1 e1; exact e1

private theorem flush_dead {s : Store} {e : Err} (he : s.ec = some e) {σ : Schedule} {w : World} :
    wp σ (flush c s) (fun s' w' => w'.fs = w.fs ∧ s'.ec ≠ none ∧ (s.p1 = [] → s' = s)) (fun _ w' => w'.fs = w.fs) w := by
  unfold flush
  by_cases hp : s.p1 = []
  · rw [if_pos (by simp [hp])]
    exact wp_ret ⟨rfl, by simp [he], fun _ => rfl⟩
  · rw [if_neg (by simp [hp])]
    apply wp_bind
    refine wp_conseq (commit_dead he) ?_ (fun _ _ h => h)
    rintro ⟨s', x⟩ w' ⟨h1, h2, h3⟩
    refine wp_ret ⟨h1, ?_, fun h => absurd h hp⟩
    cases x with
    | none => exact absurd rfl h2
    | some x => simp

/-- C11: on a store with an error from an earlier commit, `fetch` and `insert` report this
error and do nothing else, and neither flush nor `close` changes any file or reports
success, whatever the environment does. -/
theorem C11_inert {s : Store} {e : Err} (he : s.ec = some e) (σ : Schedule) (w : World) :
    (∀ k, fetch c s k σ w = (.error (.err e), w)) ∧
    (∀ k v, insert c s k v σ w = (.error (.err e), w)) ∧
    (∀ p, (flush c s σ w).2.fs p = w.fs p) ∧ (∀ p, (close c s σ w).2.fs p = w.fs p) ∧
    (∀ s' w', flush c s σ w = (.ok s', w') → s'.ec ≠ none ∧ (s.p1 = [] → s' = s)) ∧
    (∀ r w', close c s σ w = (.ok r, w') → r ≠ none ∧ (s.p1 = [] → r = some e)) := by
  have hc : wp σ (close c s) (fun r w' => w'.fs = w.fs ∧ r ≠ none ∧ (s.p1 = [] → r = some e)) (fun _ w' => w'.fs = w.fs) w := by
    unfold close
    apply wp_bind
    refine wp_conseq (flush_dead he) ?_ (fun _ _ h => h)
    rintro s' w' ⟨h1, h2, h3⟩
    split
    · rename_i e' he'
      refine wp_ret ⟨h1, by simp, fun h => ?_⟩
      rw [h3 h, he] at he'
      exact he'.symm
    · rename_i he'; exact absurd he' h2
  have hf := flush_dead (c := c) he (σ := σ) (w := w)
  refine ⟨?_, ?_, ?_, ?_, ?_, ?_⟩
  · intro k; unfold fetch; rw [he]; rfl
  · intro k v; unfold insert; rw [he]; rfl
  · intro p; unfold wp at hf; split at hf
    · rename_i e; rw [e, hf.1]
    · rename_i e; rw [e, hf]
  · intro p; unfold wp at hc; split at hc
    · rename_i e; rw [e, hc.1]
    · rename_i e; rw [e, hc]
  · intro s' w' h; unfold wp at hf; rw [h] at hf; exact hf.2
  · intro s' w' h; unfold wp at hc; rw [h] at hc; exact hc.2

/-- C11: once a flush has failed, all further calls until the next `open` report the same
error, and the files do not change any more. -/
theorem C11_history {t t' : List Label} {s : Store} {fs fs' : Fs} {so' : Option Store} {e : Err} (hc : Creatable a lf)
    (hr : Reachable c a short t (some s, fs)) (he : s.ec = some e)
    (h : Run (Exec c a.keySize a.blockSize short) (some s, fs) t' (so', fs'))
    (hn : ∀ l ∈ t', ∃ op ret x, l = .call op ret x ∧ op ≠ .open) :
    (∀ l ∈ t', ∃ op x, l = .call op (.error e) x) ∧ fs' = fs := by
  have hp : s.p1 = [] := by
    obtain ⟨st, _, hR⟩ := simulation hc hr
    cases hR with
    | opened hS => rw [hS.ec] at he; cases he
    | failed _ h => exact h
  have key : ∀ {x y : Option Store × Fs} {t' : List Label}, Run (Exec c a.keySize a.blockSize short) x t' y →
      x = (some s, fs) → (∀ l ∈ t', ∃ op ret x, l = .call op ret x ∧ op ≠ .open) →
      (∀ l ∈ t', ∃ op x, l = .call op (.error e) x) ∧ y.2 = fs ∧ (y.1 = some s ∨ y.1 = none) := by
    intro x y t' h
    induction h with
    | nil => rintro rfl _; exact ⟨by simp, rfl, .inl rfl⟩
    | @snoc y z t' l h h' ih =>
      rintro rfl hn
      obtain ⟨i1, i2, i3⟩ := ih rfl (fun l hl => hn l (by simp [hl]))
      obtain ⟨op, ret, d, hl, hop⟩ := hn l (by simp)
      subst hl
      generalize hgl : Label.call op ret d = l at h'
      cases h' with
      | died => cases hgl
      | @call so so' fs1 w' op' ret' x w σ ha hm hw h hx =>
        cases hgl
        obtain ⟨j1, j2, j3, j4, j5, j6⟩ := C11_inert (c := c) he σ w
        have key : (ret = .error e ∧ w'.fs = fs1 ∧ (so' = some s ∨ so' = none)) := by
          rcases i3 with i3 | i3
          · simp only at i3
            subst i3
            cases op with
            | insert k v =>
              simp only [perform, bind, M.bind, M.attempt, j2, M.ret] at h
              cases h; exact ⟨rfl, hw, .inl rfl⟩
            | fetch k =>
              simp only [perform, bind, M.bind, M.attempt, j1, M.ret] at h
              cases h; exact ⟨rfl, hw, .inl rfl⟩
            | flush =>
              have hfs := funext j3
              have : flush c s = M.ret s := by unfold flush; rw [if_pos (by simp [hp])]
              simp only [perform, bind, M.bind, this, M.ret, he] at h
              cases h; exact ⟨rfl, hw, .inl rfl⟩
            | close =>
              have : close c s = M.ret (some e) := by
                unfold close
                have : flush c s = M.ret s := by unfold flush; rw [if_pos (by simp [hp])]
                rw [this]
                funext σ w
                simp only [bind, M.bind, M.ret, he]
              simp only [perform, bind, M.bind, this, M.ret] at h
              cases h; exact ⟨rfl, hw, .inr rfl⟩
            | «open» => exact absurd rfl hop
          · simp only at i3
            subst i3
            cases op with
            | «open» => exact absurd rfl hop
            | _ => exact ha.elim
        refine ⟨?_, key.2.1.trans i2, key.2.2⟩
        intro l hl
        rw [List.mem_append, List.mem_singleton] at hl
        rcases hl with hl | rfl
        · exact i1 l hl
        · exact ⟨op, _, by rw [key.1]⟩
  have := key h rfl hn
  exact ⟨this.1, this.2.1⟩

theorem reachable_failed {t : List Label} {s s' : Store} {w w₁ : World} {σ : Schedule} {e : Err}
    (h : Reachable c a False t (some s, w.fs)) (hf : flush c s σ w = (.ok s', w₁)) (he : s'.ec = some e) :
    Reachable c a False (t ++ [.call .flush (.error e) true]) (some s', w₁.fs) := by
  obtain ⟨σ', b, v₀, v₁, i0, i1, i2⟩ := h
  refine ⟨σ', b, v₀, v₁, i0, i1, .snoc i2 (.call (w := w) σ trivial ⟨fun h => (by cases h), fun h => h.elim⟩ rfl ?_
    (fun h => (by cases h)))⟩
  simp only [perform, bind, M.bind, hf, he, M.ret]

/-- The premises of C11 hold after the failed flush of the example of C12, followed by two
lookups. -/
example : ∃ t s fs e t' so' fs', Creatable demoArgs 32768 ∧ Reachable demoCfg demoArgs False t (some s, fs) ∧
    s.ec = some e ∧ Run (Exec demoCfg demoArgs.keySize demoArgs.blockSize False) (some s, fs) t' (so', fs') ∧
    (∀ l ∈ t', ∃ op ret x, l = .call op ret x ∧ op ≠ .open) ∧ t'.length = 2 := by
  obtain ⟨t, s, w, s', w₁, h1, h2, h3, h4, h5⟩ := demo_fail
  obtain ⟨e, he⟩ := Option.ne_none_iff_exists'.mp h5
  have hr := reachable_failed h1 h4 he
  obtain ⟨j1, j2, j3, j4, j5, j6⟩ := C11_inert (c := demoCfg) he calm w₁
  refine ⟨_, s', w₁.fs, e, [.call (.fetch [1, 2]) (.error e) true, .call (.fetch [1, 5]) (.error e) true], some s', w₁.fs,
    demo_creatable, hr, he, ?_, ?_, rfl⟩
  · have hx : ∀ k : Bytes, k.length = 2 → Exec demoCfg demoArgs.keySize demoArgs.blockSize False (some s', w₁.fs)
        (.call (.fetch k) (.error e) true) (some s', w₁.fs) := by
      intro k hk
      refine .call (w := w₁) calm hk ⟨fun h => (by cases h), fun h => h.elim⟩ rfl ?_ (fun h => (by cases h))
      simp only [perform, bind, M.bind, M.attempt, j1, M.ret]
    exact .snoc (.snoc (.nil _) (hx _ rfl)) (hx _ rfl)
  · intro l hl
    simp only [List.mem_cons, List.not_mem_nil, or_false] at hl
    rcases hl with rfl | rfl <;> exact ⟨_, _, _, rfl, by simp⟩

end

end NuDB
