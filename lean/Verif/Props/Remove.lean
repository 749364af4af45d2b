import Verif.Spec.Remove
import Verif.Proof.Remove
import Verif.Props.Rekey
/-
C67: the removal of the log file need not be durable.
-/
namespace NuDB

open Spec

section
variable {c : Cfg} {a : CreateArgs} {lf : Nat} {short : Prop} {t : List Label} {fs : Fs} {ra : RekeyArgs} {lf' : Nat}

/-- C67 for `open`, `insert`, `fetch`, `flush` and `close`: a log file that one of these calls removes is empty, and a
power failure cannot bring any other content back. Together with `C07_atomic`, where the log file may reappear like that,
this says that nothing depends on the removal being durable. -/
theorem C67_emptied_partial {so : Option Store} {op : Op} {σ : Schedule} {w : World} {f : FileSt} {img : Bytes}
    (hc : Creatable a lf) (hr : Reachable c a short t (so, fs)) (ha : Allowed a.keySize op so) (hw : w.fs = fs)
    (hf : RemovesLog (perform c op so) σ w f) (hi : Ordered f img ∨ Unordered f img) : img = [] := by
  obtain ⟨st, _, hR⟩ := simulation hc hr
  subst hw
  exact rl_perform hR ha f hf img hi

/-- C67 for `recover`, on any files whatsoever: the log file that it removes is empty, unless the key file is so short
that it removes the key file, too. -/
theorem C67_recover_partial {σ : Schedule} {w : World} {f : FileSt} {img : Bytes}
    (hk : ∀ K, bytesOf w.fs .key = some K → 104 < K.length)
    (hf : RemovesLog (recover c) σ w f) (hi : Ordered f img ∨ Unordered f img) : img = [] :=
  rl_recover (fun f hf => hk _ (by rw [bytesOf, hf]; rfl)) f hf img hi

/-- C67 is false for `rekey`: it removes the log file as it is. If a power failure brings it back after `rekey` has
succeeded then `recover` undoes the whole `rekey` and removes the new key file. -/
theorem C67_rekey_violated {D : Bytes} {σ : Schedule} {w w' : World} (hc : Creatable a lf)
    (hr : Reachable c a short t (none, fs)) (hl : fs .log = none) (hD : bytesOf fs .dat = some D)
    (hra : Rekeyable ra lf') (hw : w.fs = fs.set .key none) (hrun : rekey c ra σ w = (.ok (), w')) :
    ∃ f, RemovesLog (rekey c ra) σ w f ∧
      let fs₁ := w'.fs.set .log (some f)
      bytesOf (recover c calm ⟨fs₁, 0, []⟩).2.fs .dat = some D ∧ (recover c calm ⟨fs₁, 0, []⟩).2.fs .key = none := by
  obtain ⟨i, wA, f, h1, h2, h3, h4⟩ := rekey_end hrun
  have e : w'.fs.set .log (some f) = wA.fs := by
    rw [h3]; funext p; cases p <;> simp [Fs.set, h2]
  refine ⟨f, ⟨i, by rw [h1]; exact h2, by rw [h4, hrun, h3]; exact Fs.set_same _ _ _⟩, ?_⟩
  rw [e]
  have := C30_undone hc hr hl hD hra hw h1 (.inl rfl)
  exact ⟨this.1, this.2.1⟩

/-- The removal of the key file, however, has to be durable: `rekey` dies before its last operation and `recover`
undoes it. If the removal of the key file is lost then there may be a database that contains nothing. -/
theorem C67_key_violated {σ : Schedule} {w w' : World} (hc : Creatable a lf)
    (hr : Reachable c a short t (none, fs)) (hl : fs .log = none)
    (hra : Rekeyable ra lf') (hw : w.fs = fs.set .key none) (hrun : rekey c ra σ w = (.ok (), w')) :
    ∃ i w₁ kf img, rekey c ra (diesAt σ i) w = (.error .crash, w₁) ∧ w₁.fs .key = some kf ∧ Unordered kf img ∧
      let fs₂ := (recover c calm ⟨w₁.fs, 0, []⟩).2.fs
      fs₂ .key = none ∧ Answers c a.keySize (fs₂.set .key (some (FileSt.clean img))) (fun _ => none) := by
  obtain ⟨i, wA, f, h1, h2, h3, h4⟩ := rekey_end hrun
  obtain ⟨df, D, K, recs, B, view, hd, sd, hS, _⟩ := before_rekey hc hr hl
  obtain ⟨rs, view', df', kf, g1, g2, g3, g4, g5, g6, g7, ⟨g8, g9⟩, _⟩ := wp_elim (rekey_wp hra hS.db hd sd hl hw) hrun
  have hcf := (rekeyable_ok hra hS.db.conf).2
  have hb := db_blank (c := c) hcf hra.buckets.1 hra.buckets.2
  have key := wp_elim_error (rekey_wp hra hS.db hd sd hl hw) h1
  obtain ⟨⟨df2, k1, k2, k3⟩, _, k4⟩ := recover_undo hcf (hS.db.dat.rekey ra lf') hS.db.dlen key.1
  have k4 := k4.resolve_right id
  refine ⟨i, wA, kf, _, h1, ?_, unordered_version g9, k3, ?_⟩
  · rw [← g5, h3]; simp [Fs.set]
  · have := answers_prefix hb (fs := (recover c calm ⟨wA.fs, 0, []⟩).2.fs.set .key
      (some (FileSt.clean (blankKey c (ra.conf (a.conf lf) lf') ra.buckets)))) (df := df2) (by simpa [Fs.set] using k1) (by
        rw [k2.cur, (hS.db.dat.rekey ra lf').eq]
        exact List.prefix_append _ _) (Fs.set_same _ _ _) rfl (by simpa [Fs.set] using k4)
    exact answers_congr this fun k _ => rfl

end

/-- Four pairs that are flushed, and four that are not. -/
def fourOps : List Op :=
  [.open, .insert [1, 1] [10], .insert [1, 2] [20, 21], .insert [4, 3] [30], .insert [7, 4] [40],
   .flush, .insert [1, 5] [50], .insert [4, 6] [60], .insert [7, 7] [70], .insert [2, 8] [80]]

theorem fourOps_sound : ∀ op ∈ fourOps, op.Sound demoArgs.keySize := by
  intro op h
  simp only [fourOps, List.mem_cons, List.not_mem_nil, or_false] at h
  rcases h with h | h | h | h | h | h | h | h | h | h <;> subst h <;> simp [Op.Sound, demoArgs]

/-- What power failure leaves if the creation of the log file has been lost, the data file does not have the unsynced
changes and the key file has them. -/
def loglessImage (fs : Fs) : Fs := fun p => match p with
  | .dat => (fs .dat).map fun f => FileSt.clean f.base
  | .key => (fs .key).map fun f => FileSt.clean f.cur
  | .log => none

/-- The creation of the log file has to be durable, too, and `open` does not make sure of that. A pair is inserted and
flushed; while later pairs are flushed the power fails; the log file was never recorded in its directory. The next `open`
succeeds, but the pair cannot be read any more. -/
theorem C67_created_violated : ∃ rets s w w₁ s' w₂, Reachable demoCfg demoArgs False (labels fourOps rets) (some s, w.fs) ∧
    rets.take 6 = [.done, .done, .done, .done, .done, .done] ∧
    flush demoCfg s (diesAt calm (w.clock + 14)) w = (.error .crash, w₁) ∧ w₁.fs .log ≠ none ∧
    (∀ p, p ≠ .log → ∃ f img, w₁.fs p = some f ∧ loglessImage w₁.fs p = some (FileSt.clean img) ∧ Unordered f img) ∧
    openStore demoCfg calm ⟨loglessImage w₁.fs, 0, []⟩ = (.ok s', w₂) ∧
    (fetch demoCfg s' [1, 1] calm w₂).1 = .error (.err .short_read) := by
  have h : (match demo demoCfg demoArgs fourOps with
      | (.ok (rets, some s), w) => decide (rets.take 6 = [.done, .done, .done, .done, .done, .done]) &&
        (let r := flush demoCfg s (diesAt calm (w.clock + 14)) w
         crashed r && (r.2.fs .log).isSome && (r.2.fs .dat).isSome && (r.2.fs .key).isSome &&
         match openStore demoCfg calm ⟨loglessImage r.2.fs, 0, []⟩ with
         | (.ok s', w₂) => match (fetch demoCfg s' [1, 1] calm w₂).1 with
           | .error (.err .short_read) => true
           | _ => false
         | _ => false)
      | _ => false) = true := by
    decide +kernel
  split at h
  · rename_i rets s w e
    have hR : Reachable demoCfg demoArgs False (labels fourOps rets) (some s, w.fs) := by
      unfold demo at e
      simp only [bind, M.bind] at e
      cases hc : create demoCfg true demoArgs calm ⟨fun _ => none, 0, []⟩ with
      | mk r w1 =>
        rw [hc] at e
        cases r with
        | error x => simp at e
        | ok u => exact ⟨calm, true, _, w1, fun _ => rfl, hc, run_ops fourOps fourOps_sound e⟩
    simp only [Bool.and_eq_true, decide_eq_true_eq] at h
    obtain ⟨h1, ⟨⟨⟨h2, h3⟩, h4⟩, h5⟩, h6⟩ := h
    obtain ⟨w₁, h2⟩ := crashed_iff h2
    rw [h2] at h3 h4 h5 h6
    obtain ⟨df, h4⟩ := Option.isSome_iff_exists.mp h4
    obtain ⟨kf, h5⟩ := Option.isSome_iff_exists.mp h5
    split at h6
    · rename_i s' w₂ e'
      split at h6
      · rename_i e''
        refine ⟨rets, s, w, w₁, s', w₂, hR, h1, h2, ?_, ?_, e', e''⟩
        · intro h; rw [h] at h3; cases h3
        · intro p hp
          cases p with
          | dat => exact ⟨df, _, h4, (congrArg (Option.map _) h4 : (w₁.fs .dat).map _ = _), unordered_version (version_base df)⟩
          | key => exact ⟨kf, _, h5, (congrArg (Option.map _) h5 : (w₁.fs .key).map _ = _), unordered_version (version_cur kf)⟩
          | log => exact absurd rfl hp
      · cases h6
    · cases h6
  · cases h

/-! ### The premises are satisfiable -/

/-- The premises of `C67_emptied_partial`: closing the store removes the log file. -/
example : ∃ t s fs w f img, Creatable demoArgs 32768 ∧ Reachable demoCfg demoArgs False t (some s, fs) ∧
    Allowed demoArgs.keySize .close (some s) ∧ w.fs = fs ∧ s.p1 ≠ [] ∧ RemovesLog (perform demoCfg .close (some s)) calm w f ∧
    (Ordered f img ∨ Unordered f img) := by
  have h : demoTest demoCfg demoArgs (demoOps.take 9) (fun s w => !s.p1.isEmpty &&
      ((perform demoCfg .close (some s) (diesAt calm (w.clock + 18)) w).2.fs .log).isSome &&
      ((perform demoCfg .close (some s) (diesAt calm (w.clock + 19)) w).2.fs .log).isNone) = true := by
    decide +kernel
  obtain ⟨rets, s, w, h1, h2⟩ := demo_test (demoOps_sound 9) h
  simp only [Bool.and_eq_true, Option.isNone_iff_eq_none] at h2
  obtain ⟨⟨h2, h3⟩, h4⟩ := h2
  obtain ⟨f, h3⟩ := Option.isSome_iff_exists.mp h3
  refine ⟨_, s, w.fs, w, f, f.cur, demo_creatable, h1, trivial, rfl, ?_, ⟨_, h3, h4⟩, .inl (ordered_cur f)⟩
  intro h; rw [h] at h2; cases h2

/-- The premises of `C67_recover_partial`: `recover` after a crash in the middle of a flush. -/
example : ∃ w f img, (∀ K, bytesOf w.fs .key = some K → 104 < K.length) ∧
    (∃ L, bytesOf w.fs .log = some L ∧ 62 < L.length) ∧ RemovesLog (recover demoCfg) calm w f ∧
    (Ordered f img ∨ Unordered f img) := by
  have h : demoTest demoCfg demoArgs (demoOps.take 9) (fun s w =>
      let v := (flush demoCfg s (faultAt 11 (.crash 50) w) w).2
      (match bytesOf v.fs .key with | some K => decide (104 < K.length) | none => true) &&
      (match bytesOf v.fs .log with | some L => decide (62 < L.length) | none => false) &&
      ((recover demoCfg (diesAt calm (v.clock + 18)) v).2.fs .log).isSome &&
      ((recover demoCfg (diesAt calm (v.clock + 19)) v).2.fs .log).isNone) = true := by
    decide +kernel
  obtain ⟨rets, s, w, h1, h2⟩ := demo_test (demoOps_sound 9) h
  generalize (flush demoCfg s (faultAt 11 (.crash 50) w) w).2 = v at h2
  simp only [Bool.and_eq_true, Option.isNone_iff_eq_none] at h2
  obtain ⟨⟨⟨h2, h3⟩, h4⟩, h5⟩ := h2
  obtain ⟨f, h4⟩ := Option.isSome_iff_exists.mp h4
  refine ⟨v, f, f.cur, ?_, ?_, ⟨_, h4, h5⟩, .inl (ordered_cur f)⟩
  · intro K hK; rw [hK] at h2; exact of_decide_eq_true h2
  · split at h3
    · rename_i L e; exact ⟨L, e, of_decide_eq_true h3⟩
    · cases h3

/-- The premises of `C67_rekey_violated` and of `C67_key_violated`. -/
example : ∃ t fs D w w', Creatable demoArgs 32768 ∧ Reachable demoCfg demoArgs False t (none, fs) ∧ fs .log = none ∧
    bytesOf fs .dat = some D ∧ Rekeyable demoRekey 49152 ∧ w.fs = fs.set .key none ∧
    rekey demoCfg demoRekey calm w = (.ok (), w') := by
  obtain ⟨t, fs, D, h1, h2, h3, h4⟩ := demo_small
  obtain ⟨w', h⟩ := C29_succeeds (w := ⟨fs.set .key none, 0, []⟩) demo_creatable h1 h2 demo_rekeyable rfl h3 h4
  exact ⟨t, fs, D, _, w', demo_creatable, h1, h2, h3, demo_rekeyable, rfl, h⟩

end NuDB
