import Verif.Proof.Lived
import Verif.Props.Atomic
/-
C52: `rekey` does not end the story. Whatever is true of a database that was created and used
remains true when it is rebuilt by `rekey` with other parameters, any number of times.
-/
namespace NuDB

open Spec

section
variable {c : Cfg} {n : Nat} {short : Prop}

theorem pairsOf_length (recs : List Rec) : (pairsOf recs).length ≤ (encRecs recs).length := by
  induction recs with
  | nil => exact Nat.zero_le _
  | cons r recs ih =>
    rw [encRecs_cons, List.length_append]
    cases r with
    | data => simp only [pairsOf, List.length_cons, encRec, dataRecord, List.length_append, putU48_length]; omega
    | spill => simp only [pairsOf]; omega

/-- C52: all observations over the whole life of a database are those of the abstract store. -/
theorem C52_histories {ph : Phase} {x : Option Store × Fs} {es : List Change} (h : Lifetime c n short ph x es) :
    ∃ st, Lived es st :=
  let ⟨st, h, _⟩ := lifetime_held h
  ⟨st, h⟩

/-- C52: an open store answers as the abstract store does. -/
theorem C52_lookups {ph : Phase} {s : Store} {fs : Fs} {es : List Change} (h : Lifetime c n short ph (some s, fs) es)
    (he : s.ec = none) : ∃ d b, Lived es (.opened d b) ∧ Lookups c n s fs (Map.union d b) := by
  obtain ⟨st, h1, h2⟩ := lifetime_held h
  have key : ∀ {cf all gs}, Rel c cf short all (some s, gs) st → ∃ d b, st = .opened d b ∧
      Lookups c cf.keySize s gs (Map.union d b) := by
    intro cf all gs hR
    cases hR with
    | opened hS => exact ⟨_, _, rfl, by rw [union_kvOf]; exact hS.lookups⟩
    | failed h => rw [he] at h; cases h
  cases ph with
  | ready m =>
    obtain ⟨cf, all, _, rfl, rfl, hR⟩ := h2
    obtain ⟨d, b, rfl, hl⟩ := key hR
    exact ⟨d, b, h1, hl⟩
  | fresh m =>
    obtain ⟨cf, all, gs, _, rfl, rfl, hc, hR⟩ := h2
    obtain ⟨d, b, rfl, hl⟩ := key hR
    refine ⟨d, b, h1, ?_⟩
    intro w hw k hk
    rw [← hl ⟨gs, w.clock, w.out⟩ rfl k hk]
    exact ((Blind.fetch (c := c)).go calm w ⟨gs, w.clock, w.out⟩ ⟨by rw [hw]; exact hc, rfl, rfl⟩).1
  | keyless =>
    obtain ⟨cf, df, D, K, recs, B, view, g1, _⟩ := h2
    cases g1

/-- C52: whenever the process dies or power fails, `recover` and `open` find a map that the abstract
store may hold then. -/
theorem C52_restart {m : Nat} {x : Option Store × Fs} {es : List Change} {fs' : Fs}
    (h : Lifetime c n short (.ready m) x es) (hs : Restart x.2 fs') :
    ∃ st mp, Lived es st ∧ Answers c n fs' mp ∧ Files st mp := by
  obtain ⟨st, h1, cf, all, _, rfl, rfl, hR⟩ := lifetime_held h
  obtain ⟨mp, h2, h3⟩ := rel_answers hR hs
  exact ⟨st, mp, h1, h2, h3⟩

/-- C52: likewise if the process dies shortly after `rekey`, but the operating system does not. -/
theorem C52_fresh {m : Nat} {x : Option Store × Fs} {es : List Change}
    (h : Lifetime c n short (.fresh m) x es) :
    ∃ st mp, Lived es st ∧ Answers c n x.2 mp ∧ Files st mp := by
  obtain ⟨st, h1, cf, all, gs, _, rfl, rfl, hc, hR⟩ := lifetime_held h
  obtain ⟨mp, h2, h3⟩ := rel_answers hR (.inl rfl)
  exact ⟨st, mp, h1, CurEq.answers (fun p => (hc p).symm) h2, h3⟩

/-- C52: a pair that was inserted is found, before and after any number of `rekey`s. -/
theorem C52_found {ph : Phase} {e₁ e₂ : List Change} {k v : Bytes} {x : Bool} {s : Store} {fs : Fs}
    (h : Lifetime c n short ph (some s, fs) (e₁ ++ [.used (.call (.insert k v) .done x)] ++ e₂))
    (hk : ∀ e ∈ e₂, KeptBy e) (hl : k.length = n) (he : s.ec = none) (w : World) (hw : w.fs = fs) :
    (fetch c s k calm w).1 = .ok v := by
  obtain ⟨d, b, h1, h2⟩ := C52_lookups h he
  have h3 : Map.union d b k = some v := sure_inserted h1 hk
  rw [h2 w hw k hl, h3]

/-- C52: a pair that was inserted before a successful flush or close is in the files for ever, whatever
crashes and failures and `rekey`s follow. -/
theorem C52_durable {m : Nat} {e₁ e₂ e₃ : List Change} {k v : Bytes} {x y : Bool} {op : Op}
    {sys : Option Store × Fs} {fs' : Fs}
    (h : Lifetime c n short (.ready m) sys
      (e₁ ++ [.used (.call (.insert k v) .done x)] ++ e₂ ++ [.used (.call op .done y)] ++ e₃))
    (hk : ∀ e ∈ e₂, KeptBy e) (hop : op = .flush ∨ op = .close) (hs : Restart sys.2 fs') :
    ∃ mp, Answers c n fs' mp ∧ mp k = some v := by
  obtain ⟨st, mp, h1, h2, h3⟩ := C52_restart h hs
  refine ⟨mp, h2, ?_⟩
  exact (durable_flushed h1 hk hop).files h3

/-- C52: while there is no key file nothing is lost. As soon as `rekey` is not disturbed it succeeds, if
the overflow records fit into the 48-bit offsets of the file format, and lookups answer as before. -/
theorem C52_keyless {fs : Fs} {es : List Change} (h : Lifetime c n short .keyless (none, fs) es) :
    ∃ m D, Lived es (.closed m m) ∧ bytesOf fs .dat = some D ∧ ∀ ra lf w, Rekeyable ra lf → w.fs = fs →
      D.length * (ra.blockSize + 9) + 8 < 2 ^ 48 →
      ∃ w', rekey c ra calm w = (.ok (), w') ∧ Answers c n w'.fs m := by
  obtain ⟨st, h1, cf, df, D, K, recs, B, view, g1, g2, g3, g4, g5, g6, rfl, rfl⟩ := lifetime_held h
  refine ⟨_, D, h1, by rw [bytesOf, show fs .dat = _ from g2]; simp [g3.cur], ?_⟩
  intro ra lf w ha hw hfit
  have key := rekey_wp (σ := calm) ha g6 g2 g3 g5 (hw.trans (set_none_self g4))
  have hcf := (rekeyable_ok ha g6.conf).2
  have hrl : (ra.conf cf lf).recLen ≤ ra.blockSize + 8 := by
    have : bucketSize (ra.conf cf lf).cap ≤ ra.blockSize := hcf.cap_le
    unfold Conf.recLen; omega
  have hlen : (pairsOf recs).length ≤ D.length := by
    rw [g6.dat.eq, List.length_append]
    exact Nat.le_trans (pairsOf_length recs) (Nat.le_add_left _ _)
  have hm := Nat.mul_le_mul hlen hrl
  cases e : rekey c ra calm w with
  | mk r w' =>
    cases r with
    | ok u =>
      refine ⟨w', rfl, ?_⟩
      have hL : Lifetime c cf.keySize short (.fresh ra.blockSize) (none, w'.fs) (es ++ [.rekeyed]) :=
        .rekeyed calm h ha hw e
      obtain ⟨rs, view', df', kf, k1, k2, k3, _, k5, k6, k7, _⟩ := wp_elim key e
      have := answers_prefix k7 k2 (by rw [k3]; exact List.prefix_refl _) k5 rfl k6
      rwa [pairsOf_append, pairsOf_spills k1, List.append_nil] at this
    | error x =>
      rcases (wp_elim_error key e).2 with ⟨_, h⟩ | ⟨_, h, _⟩
      · exact absurd h not_faulty_calm
      · exact absurd (by rw [Nat.mul_add] at hfit hm; omega) h

/-- C52: a closed database can be opened if nothing goes wrong. -/
theorem C52_opens {m : Nat} {w : World} {es : List Change} (h : Lifetime c n short (.ready m) (none, w.fs) es) :
    ∃ s w', openStore c calm w = (.ok s, w') ∧ s.ec = none ∧
      Lifetime c n short (.ready m) (some s, w'.fs) (es ++ [.used (.call .open .done false)]) := by
  obtain ⟨st, h1, cf, all, _, rfl, rfl, hR⟩ := lifetime_held h
  cases hR with
  | closed hL hs =>
    obtain ⟨s, w', e, he⟩ := wp_calm_ok (wp_open (σ := calm) GoalM.db (.inl calm_nofail) hs
      (Q := fun s _ => s.ec = none) (by
        intro s w' D K recs B view _ hdb hS _ _ _ _
        exact (hS _ _ _ hdb).ec))
    refine ⟨s, w', e, he, .used h (.call (w := w) calm trivial ⟨fun _ => .inl calm_nofail, fun _ _ h => by cases h⟩ rfl ?_ (fun _ _ => rfl))⟩
    simp only [perform, bind, M.bind, M.attempt, e, M.ret]

/-- The lives considered here start as those considered in the other properties. -/
theorem C52_starts {a : CreateArgs} {lf : Nat} {t : List Label} {x : Option Store × Fs} (hc : Creatable a lf)
    (h : Reachable c a short t x) : Lifetime c a.keySize short (.ready a.blockSize) x (t.map .used) := by
  obtain ⟨σ, asserts, w₀, w₁, h0, h1, h2⟩ := h
  induction h2 with
  | nil => exact .created σ hc rfl h0 h1
  | snoc _ h' ih => rw [List.map_append]; exact .used ih h'

end

private def demoTestRekey : Bool :=
  match demo demoCfg demoArgs (demoOps.take 16) with
  | (.ok (rets, none), w) => rets == demoAns.take 16 && (w.fs .log).isNone &&
      (match bytesOf w.fs .dat with | some D => decide (D.length < 10000) | none => false) &&
      crashed (rekey demoCfg demoRekey (faultAt 11 (.crash 0) ⟨w.fs.set .key none, 0, []⟩) ⟨w.fs.set .key none, 0, []⟩)
  | _ => false

/-- A database with nine pairs is closed; `rekey` dies while it allocates the key file; it is repeated; the
database is opened. -/
theorem demo_lifetime : ∃ s fs e₂ e₃, Lifetime demoCfg 2 False (.ready 120) (some s, fs)
    ([.used (.call .open .done false)] ++ [.used (.call (.insert [1, 1] [10]) .done false)] ++ e₂ ++
      [.used (.call .flush .done false)] ++ e₃ ++ [.removed, .interrupted, .rekeyed, .settled, .used (.call .open .done false)]) ∧
    s.ec = none ∧ (∀ e ∈ e₂, KeptBy e) ∧ (∀ e ∈ e₃, KeptBy e) ∧ ∃ fs es, Lifetime demoCfg 2 False (.fresh 120) (none, fs) es := by
  have h : demoTestRekey = true := by decide +kernel
  unfold demoTestRekey at h
  split at h
  · rename_i rets w e
    simp only [Bool.and_eq_true, beq_iff_eq] at h
    obtain ⟨⟨⟨rfl, hl⟩, hD⟩, hc⟩ := h
    have hl : w.fs .log = none := by simpa using hl
    have hr : Reachable demoCfg demoArgs False (labels (demoOps.take 16) (demoAns.take 16)) (none, w.fs) := by
      unfold demo at e
      simp only [bind, M.bind] at e
      cases hc : create demoCfg true demoArgs calm ⟨fun _ => none, 0, []⟩ with
      | mk r w1 =>
        rw [hc] at e
        cases r with
        | error x => simp at e
        | ok u => exact ⟨calm, true, _, w1, fun _ => rfl, hc, run_ops _ (demoOps_sound 16) e⟩
    have g1 := (C52_starts demo_creatable hr).removed hl
    obtain ⟨w₁, hc⟩ := crashed_iff hc
    cases hv : recover demoCfg calm ⟨w₁.fs, 0, []⟩ with
    | mk r w₂ =>
    have g2 := Lifetime.interrupted _ g1 demo_rekeyable rfl hc (.inl rfl) hv
    obtain ⟨m, D, _, hD', hk⟩ := C52_keyless g2
    have hDl : D.length < 10000 := by
      split at hD
      · rename_i D0 e0
        have hu := C30_undone demo_creatable hr hl e0 demo_rekeyable rfl hc (.inl rfl)
        rw [hv] at hu
        rw [hD'] at hu
        cases hu.1
        simpa using hD
      · cases hD
    obtain ⟨w₃, e3, _⟩ := hk _ _ ⟨w₂.fs, 0, []⟩ demo_rekeyable rfl (by rw [show demoRekey.blockSize = 120 from rfl]; omega)
    have g3 := Lifetime.rekeyed (w := ⟨w₂.fs, 0, []⟩) _ g2 demo_rekeyable rfl e3
    have g4 := g3.settled (fun p => rfl)
    obtain ⟨s, w₄, _, he, g5⟩ := C52_opens (w := ⟨_, 0, []⟩) g4
    refine ⟨s, w₄.fs, (labels (demoOps.take 16) (demoAns.take 16)).map Change.used |>.extract 2 9,
      (labels (demoOps.take 16) (demoAns.take 16)).map Change.used |>.drop 10, g5, he, ?_, ?_, _, _, g3⟩
    all_goals
      clear g5
      simp only [labels, demoOps, demoAns, List.take, List.zipWith, List.map, List.extract, List.drop,
        List.forall_mem_cons, KeptBy, Kept, true_and]
      first | done | (intro e h; cases h)
  · cases h

/-- The pair inserted first is found. -/
example : ∃ s fs, (fetch demoCfg s [1, 1] calm ⟨fs, 0, []⟩).1 = .ok [10] := by
  obtain ⟨s, fs, e₂, e₃, h, he, h2, h3, -⟩ := demo_lifetime
  rw [List.append_assoc, List.append_assoc, List.append_assoc] at h
  refine ⟨s, fs, C52_found h ?_ rfl he _ rfl⟩
  intro e h'
  simp only [List.mem_append, List.mem_cons, List.not_mem_nil, or_false] at h'
  rcases h' with h' | rfl | h' | rfl | rfl | rfl | rfl | rfl
  · exact h2 e h'
  · rfl
  · exact h3 e h'
  all_goals trivial

/-- It was inserted before `flush`, so it is there even if the process dies now. (The premises of
`C52_keyless` and of `C52_opens` are met in the proof of `demo_lifetime`.) -/
example : ∃ (s : Store) (fs : Fs) (mp : Map), s.ec = none ∧ Answers demoCfg 2 fs mp ∧ mp [1, 1] = some [10] := by
  obtain ⟨s, fs, e₂, e₃, h, he, h2, h3, -⟩ := demo_lifetime
  rw [List.append_assoc _ e₃] at h
  obtain ⟨mp, h4, h5⟩ := C52_durable h h2 (.inl rfl) (.inl rfl)
  exact ⟨s, fs, mp, he, h4, h5⟩

/-- The database that `rekey` made, before the operating system has written it to disk. -/
example : ∃ fs es mp, Lifetime demoCfg 2 False (.fresh 120) (none, fs) es ∧ Answers demoCfg 2 fs mp := by
  obtain ⟨_, _, _, _, _, _, _, _, fs, es, h⟩ := demo_lifetime
  obtain ⟨_, mp, _, h1, _⟩ := C52_fresh h
  exact ⟨fs, es, mp, h, h1⟩

end NuDB
