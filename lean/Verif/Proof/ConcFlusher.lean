import Verif.Proof.ConcThread
/- Steps of the flusher preserve the invariant. -/
namespace NuDB

open Spec Conc

theorem fileOp_none (ok : Fs → Except Exc α × Fs) (part : Fs → Nat → Fs) (fs : Fs) :
    fileOp ok part (fun _ => .none) ⟨fs, 0, []⟩ = ((ok fs).1, ⟨(ok fs).2, 1, []⟩) := rfl

theorem fileOp_fail (ok : Fs → Except Exc α × Fs) (part : Fs → Nat → Fs) (fs : Fs) (j : Nat) :
    fileOp ok part (fun _ => .fail j) ⟨fs, 0, []⟩ = (.error (.err .io), ⟨part fs j, 1, []⟩) := rfl

theorem fileOp_crash (ok : Fs → Except Exc α × Fs) (part : Fs → Nat → Fs) (fs : Fs) (j : Nat) :
    fileOp ok part (fun _ => .crash j) ⟨fs, 0, []⟩ = (.error .crash, ⟨part fs j, 1, []⟩) := rfl

/-- Steps remove no file. -/
def HasKey (fs : Fs) : Prop := ∃ f, fs .key = some f

theorem HasKey.set {fs : Fs} (h : HasKey fs) (p : Path) (f : FileSt) : HasKey (fs.set p (some f)) := by
  unfold HasKey Fs.set
  by_cases hp : Path.key = p
  · simp [hp]
  · obtain ⟨g, hg⟩ := h
    exact ⟨g, by simp [hp, hg]⟩

theorem after_fs (m : M β) (k : β → Prog α) (f : Fault) (fs : Fs) :
    (Prog.after m k f fs).2 = (m (fun _ => f) ⟨fs, 0, []⟩).2.fs := by
  unfold Prog.after
  generalize m (fun _ => f) ⟨fs, 0, []⟩ = r
  obtain ⟨r, w⟩ := r
  cases r <;> rfl

theorem fileOp_key {ok : Fs → Except Exc β × Fs} {part : Fs → Nat → Fs} {fs : Fs} (f : Fault)
    (h1 : HasKey (ok fs).2) (h2 : ∀ j, HasKey (part fs j)) :
    HasKey (fileOp ok part (fun _ => f) ⟨fs, 0, []⟩).2.fs := by
  cases f with
  | none => exact h1
  | fail j => exact h2 j
  | crash j => exact h2 j

theorem step_key (p : Prog α) (f : Fault) {fs : Fs} (h : HasKey fs) : HasKey (p.step f fs).2 := by
  cases p with
  | ret a => exact h
  | raise x => exact h
  | size q k =>
    simp only [Prog.step, after_fs]
    refine fileOp_key f ?_ (fun _ => h)
    split <;> exact h
  | read q off n k =>
    simp only [Prog.step, after_fs]
    refine fileOp_key f ?_ (fun _ => h)
    split
    · split <;> exact h
    · exact h
  | write q off bs k =>
    simp only [Prog.step, after_fs]
    refine fileOp_key f ?_ (fun j => ?_)
    all_goals
      split
      · exact h.set _ _
      · exact h
  | append q off bs k =>
    simp only [Prog.step, after_fs]
    refine fileOp_key f ?_ (fun j => ?_)
    all_goals
      split
      · split
        · exact h.set _ _
        · exact h
      · exact h
  | sync q k =>
    simp only [Prog.step, after_fs]
    refine fileOp_key f ?_ (fun _ => h)
    split
    · exact h.set _ _
    · exact h
  | trunc q n k =>
    simp only [Prog.step, after_fs]
    refine fileOp_key f ?_ (fun _ => h)
    split
    · exact h.set _ _
    · exact h

section
variable {c : Cfg} {cf : Conf} {m : Map} {lo nx : Nat} {F F' : Prop} {x y : Sys} {tr tr' : List Ev} {D : Bytes} {recs : List Rec}
  {view : View} {t : Nat} {q : Pc} {f : Fault}

theorem Core.hasKey (h : Core c cf m lo nx F x tr D recs view) : HasKey x.fs := by
  obtain ⟨f, hf, _⟩ := h.ready.key
  exact ⟨f, hf⟩

theorem Inv.flusher {lo' nx' : Nat} (h : Inv c cf m lo nx F x tr) (hb : Bnd lo' nx' tr) (hF : F → F') (h1 : y.pc = x.pc) (h2 : y.shared = x.shared)
    (h3 : y.owner = x.owner) (hg : Lgen y.pc y.g)
    (hC : y.s.c1 = x.s.c1 ∨ x.shared = [])
    (hcore : ∀ D recs view, Core c cf m lo nx F x tr D recs view → ∃ D' recs' view', D <+: D' ∧
      Core c cf m lo' nx' F' y tr D' recs' view' ∧
      ∀ t n g blk, genOf (x.pc t) = some g → blockOf (x.pc t) = some n → KeyBlk cf.blockSize n blk x.fs → GenOk x g n →
        KeyBlk cf.blockSize n blk y.fs ∧ GenOk y g n) :
    Inv c cf m lo' nx' F' y tr := by
  refine ⟨h.hist.mono hF, h.owned, hb, ?_, by rw [h1, h2]; exact h.sh, by rw [h1, h3]; exact h.ow, hg⟩
  obtain ⟨D, recs, view, hc, hth⟩ := h.core
  obtain ⟨D', recs', view', hD, hc', hK⟩ := hcore D recs view hc
  refine ⟨D', recs', view', hc', fun t => ?_⟩
  rw [h1]
  refine (hth t).change hF hD (fun _ _ h => h) (fun _ h => h.mono hF) (fun _ => rfl) ?_ (hK t)
  intro hi n blob hb
  rcases hC with hC | hC
  · rw [hC]; exact hb
  · have := (h.sh.iff t).mpr hi
    rw [hC] at this; cases this

theorem Core.pool0 (h : Core c cf m lo nx F x tr D recs view) : PoolOk c cf (pairsOf recs) x.s.p0 := by
  refine ⟨fun it hit => h.each it (List.mem_append.mpr (.inl hit)), ?_⟩
  have := h.nodup
  unfold stored at this
  rw [List.map_append, List.nodup_append] at this
  exact this.1

theorem Core.pool1 (h : Core c cf m lo nx F x tr D recs view) (h0 : x.s.p0 = []) : PoolOk c cf (pairsOf recs) x.s.p1 := by
  refine ⟨fun it hit => h.each it (List.mem_append.mpr (.inr hit)), ?_⟩
  have := h.nodup
  unfold stored at this
  rw [h0] at this
  simpa [poolPairs] using this

/-- How the numbers of events that are, or will be, permanent change in a step. -/
def Grows (x y : Sys) (lo nx lo' nx' : Nat) : Prop :=
  lo ≤ lo' ∧ nx ≤ nx' ∧ (y.s.ec = none → x.s.ec = none ∧ (y.fl = .idle → x.fl = .idle ∨ nx ≤ lo'))

/-- If there is nothing to flush, everything is permanent. -/
theorem Inv.settled (h : Inv c cf m lo nx F x tr) (hfl : x.fl = .idle) (hp : x.s.p1 = []) (hec : x.s.ec = none) :
    Inv c cf m tr.length tr.length F x tr := by
  refine h.flusher ⟨Nat.le_refl _, Nat.le_refl _⟩ id rfl rfl rfl h.gen (.inl rfl) ?_
  intro D recs view hcore
  refine ⟨D, recs, view, List.prefix_refl _, ?_, fun _ _ _ _ _ _ hb hg => ⟨hb, hg⟩⟩
  obtain ⟨d1, d2, d3, d4, d5, d6, d7⟩ := hcore
  refine ⟨d1, d2, d3, d4, d5, d6, ?_⟩
  unfold FlOk at *
  rw [hfl] at d7 ⊢
  rcases d7 with ⟨h1, _⟩ | ⟨⟨a1, a2, a3⟩, h2, h3, h4⟩
  · rw [hec] at h1; cases h1
  · refine .inr ⟨⟨a1, a2, tr, List.prefix_refl _, rfl, fun k hk => ?_⟩, h2, h3, h4⟩
    rw [d4 k hk]
    unfold stored
    rw [h3, hp]
    simp [poolPairs]

theorem inv_flushStart (h : Inv c cf m lo nx F x tr) (hs : flushStart c x = some y) :
    ∃ lo' nx', Inv c cf m lo' nx' F y tr ∧ Grows x y lo nx lo' nx' ∧
      (y.s.ec = none → tr.length ≤ nx' ∧ (y.fl = .idle → tr.length ≤ lo')) ∧
      (lo' = lo ∨ lo' = tr.length) ∧ (nx' = nx ∨ nx' = tr.length) := by
  unfold flushStart at hs
  cases hfl : x.fl with
  | idle =>
    rw [hfl] at hs
    simp only at hs
    split at hs
    · split at hs
      · rename_i hsh hne
        cases hs
        cases hec : x.s.ec with
        | some e => exact ⟨lo, nx, h, ⟨Nat.le_refl _, Nat.le_refl _, fun e => by rw [hec] at e; cases e⟩,
            fun e => (by cases e), .inl rfl, .inl rfl⟩
        | none =>
          exact ⟨_, _, h.settled hfl (by simpa using hne) hec,
            ⟨Nat.le_trans h.bnd.1 h.bnd.2, h.bnd.2, fun _ => ⟨hec, fun _ => .inl hfl⟩⟩,
            fun _ => ⟨Nat.le_refl _, fun _ => Nat.le_refl _⟩, .inr rfl, .inr rfl⟩
      · rename_i hsh hne
        cases hs
        have key : ∀ nx', Bnd lo nx' tr → (x.s.ec = none → nx' = tr.length) → (x.s.ec ≠ none → nx' = nx) →
            Inv c cf m lo nx' F { x with s := { x.s with p0 := x.s.p1, p1 := x.s.p0 }
                                         fl := .prep (commitPrepareP c { x.s with p0 := x.s.p1, p1 := x.s.p0 }), wr := 0 } tr := by
          intro nx' hb hn1 hn2
          refine h.flusher hb id rfl rfl rfl h.gen (.inl rfl) ?_
          intro D recs view hcore
          refine ⟨D, recs, view, List.prefix_refl _, ?_, fun _ _ _ _ _ _ hb _ => ⟨hb, trivial⟩⟩
          have hperm : (stored { x.s with p0 := x.s.p1, p1 := x.s.p0 } recs).Perm (stored x.s recs) := by
            unfold stored
            simp only [List.append_assoc]
            exact List.Perm.append_left _ List.perm_append_comm
          have hnd' := (hperm.map (·.1)).nodup_iff.mpr hcore.nodup
          have hfl' := hcore.fl
          unfold FlOk at hfl'
          rw [hfl] at hfl'
          obtain ⟨r1, r2, r3, r4, r5, r6, r7, r8, r9⟩ := hcore.ready
          obtain ⟨Bk, hkh⟩ := r2
          refine ⟨⟨r1, ⟨Bk, hkh⟩, r3, r4, r5, r6, r7, r8, r9⟩, ?_, hnd', ?_, hcore.ec, hcore.thresh, ?_⟩
          · intro it hit
            exact hcore.each it (List.mem_append.mpr (List.mem_append.mp hit).symm)
          · intro k hk
            rw [kvOf_perm hperm hnd']
            exact hcore.cont k hk
          · refine ⟨uses_commitPrepareP, ?_⟩
            rcases hfl' with ⟨h1, h2⟩ | ⟨⟨a1, a2, a3⟩, h2, h3, K, h4, h5⟩
            · obtain ⟨kf, hkf⟩ := hcore.hasKey
              rw [hn2 (by rw [h1]; exact nofun)]
              exact .inl ⟨h1, prep_dead (s := { x.s with p0 := x.s.p1, p1 := x.s.p0 }) h2 h1 hkf r1 hkh⟩
            · have hst : stored x.s recs = pairsOf recs ++ poolPairs x.s.p1 := by
                unfold stored; rw [h3]; simp [poolPairs]
              have hp := prep_sure (s := { x.s with p0 := x.s.p1, p1 := x.s.p0 }) (m := m) (tr := tr)
                (S := Two lo nx') h4 a3 (.inl rfl) h5 hkh rfl a2 a1 (hcore.pool1 h3)
              refine .inr ⟨⟨a1, a2, a3⟩, h2, ?_, ?_, K, h4, hp.1, fun _ => hp.2⟩
              · intro e
                apply hne
                simp only at e
                rw [e]; rfl
              · refine ⟨tr, List.prefix_refl _, (hn1 a1).symm, fun k hk => ?_⟩
                show kvOf (pairsOf recs ++ poolPairs x.s.p1) k = _
                rw [← hst]
                exact (hcore.cont k hk).symm
        by_cases hec : x.s.ec = none
        · exact ⟨lo, tr.length, key _ ⟨Nat.le_trans h.bnd.1 h.bnd.2, Nat.le_refl _⟩ (fun _ => rfl) (fun e => absurd hec e),
            ⟨Nat.le_refl _, h.bnd.2, fun e => ⟨e, fun h => by cases h⟩⟩,
            fun _ => ⟨Nat.le_refl _, fun h => by cases h⟩, .inl rfl, .inr rfl⟩
        · exact ⟨lo, nx, key _ h.bnd (fun e => absurd e hec) (fun _ => rfl),
            ⟨Nat.le_refl _, Nat.le_refl _, fun e => absurd e hec⟩, fun e => absurd e hec, .inl rfl, .inl rfl⟩
    · cases hs
  | _ => rw [hfl] at hs; cases hs

/-- The files after a step of the flusher. -/
theorem Core.ready_step (h : Core c cf m lo nx F x tr D recs view) {T : Nat → Prop} {R : α → Prop} {p : Prog α}
    (hu : Uses (OpOk T cf.blockSize) R p) (hT : ∀ n, x.s.c1.find n = none → ¬ T n) :
    Ready c cf x.s (p.step f x.fs).2 D recs view :=
  h.ready.mono ((step_keeps hu).2.1 D h.hasD) (fun n blk hn hb => (step_keeps hu).2.2 n blk hb (hT n hn))
    (step_key p f h.hasKey)

theorem calm_step {A : Fs → Prop} {p : Prog α} {fs : Fs} (h : ¬ F → CalmP A p fs) (hn : ¬ (F ∨ f ≠ .none)) :
    CalmP A (p.step f fs).1 (p.step f fs).2 := by
  have hn' := not_or.mp hn
  have e : f = .none := Classical.not_not.mp hn'.2
  exact (h hn'.1).step f e

theorem inv_prepStep (h : Inv c cf m lo nx F x tr) {p : Prog Work} (hfl : x.fl = .prep p) :
    Inv c cf m lo nx (F ∨ f ≠ .none) { x with fs := (p.step f x.fs).2, fl := .prep (p.step f x.fs).1, wr := 0 } tr := by
  refine h.flusher h.bnd Or.inl rfl rfl rfl h.gen (.inl rfl) ?_
  intro D recs view hcore
  have hfl' := hcore.fl
  unfold FlOk at hfl'
  rw [hfl] at hfl'
  obtain ⟨hu, hfl'⟩ := hfl'
  refine ⟨D, recs, view, List.prefix_refl _, ?_, fun _ n _ blk _ _ hb _ => ⟨(step_keeps hu).2.2 n blk hb id, trivial⟩⟩
  refine ⟨hcore.ready_step hu (fun _ _ => id), hcore.each, hcore.nodup, hcore.cont,
    fun e he => ⟨(hcore.ec e he).1, .inl (hcore.ec e he).2⟩, hcore.thresh, ?_⟩
  refine ⟨(step_keeps hu).1, ?_⟩
  rcases hfl' with ⟨h1, h2⟩ | ⟨⟨a1, a2, a3⟩, h2, h3, h4, K, h5, h6, h7⟩
  · exact .inl ⟨h1, h2.step f trivial⟩
  · exact .inr ⟨⟨a1, a2, a3⟩, h2, h3, h4, K, h5, h6.step f trivial, calm_step h7⟩

theorem inv_logStep (h : Inv c cf m lo nx F x tr) {p : Prog Unit} (hfl : x.fl = .log p) :
    Inv c cf m lo nx (F ∨ f ≠ .none) { x with fs := (p.step f x.fs).2, fl := .log (p.step f x.fs).1, wr := 0 } tr := by
  refine h.flusher h.bnd Or.inl rfl rfl rfl h.gen (.inl rfl) ?_
  intro D recs view hcore
  have hfl' := hcore.fl
  unfold FlOk at hfl'
  rw [hfl] at hfl'
  obtain ⟨hu, ⟨a1, a2, a3⟩, h2, h3, h4, h5⟩ := hfl'
  refine ⟨D, recs, view, List.prefix_refl _, ?_, fun _ n g blk _ _ hb hg => ⟨(step_keeps hu).2.2 n blk hb id, ?_⟩⟩
  · refine ⟨hcore.ready_step hu (fun _ _ => id), hcore.each, hcore.nodup, hcore.cont,
      fun e he => ⟨(hcore.ec e he).1, .inl (hcore.ec e he).2⟩, hcore.thresh, ?_⟩
    exact ⟨(step_keeps hu).1, ⟨a1, a2, a3⟩, h2, h3, h4.step f trivial, calm_step h5⟩
  · unfold GenOk at *
    rw [hfl] at hg
    exact hg

theorem inv_keysStep (h : Inv c cf m lo nx F x tr) {p : Prog Unit} (hfl : x.fl = .keys p) :
    Inv c cf m lo nx (F ∨ f ≠ .none) { x with fs := (p.step f x.fs).2, fl := .keys (p.step f x.fs).1, wr := 0 } tr := by
  refine h.flusher h.bnd Or.inl rfl rfl rfl h.gen (.inl rfl) ?_
  intro D recs view hcore
  have hfl' := hcore.fl
  unfold FlOk at hfl'
  rw [hfl] at hfl'
  obtain ⟨hu, ⟨a1, a2, a3⟩, h2, h4, h5⟩ := hfl'
  refine ⟨D, recs, view, List.prefix_refl _, ?_, fun _ n g blk _ _ hb hg => ?_⟩
  · refine ⟨hcore.ready_step hu (fun n hn h => h hn), hcore.each, hcore.nodup, hcore.cont,
      fun e he => ⟨(hcore.ec e he).1, .inl (hcore.ec e he).2⟩, hcore.thresh, ?_⟩
    exact ⟨(step_keeps hu).1, ⟨a1, a2, a3⟩, h2, h4.step f trivial, calm_step h5⟩
  · unfold GenOk at hg
    rw [hfl] at hg
    exact ⟨(step_keeps hu).2.2 n blk hb (fun h => h hg), hg⟩

theorem inv_broken (h : Inv c cf m lo nx F x tr) {e : Err} (hx : ∀ D recs view, Core c cf m lo nx F x tr D recs view →
    (XM c cf m (Two lo nx) tr (.err e) x.fs) ∧ F) : Inv c cf m lo nx F (x.broken e) tr := by
  refine h.flusher h.bnd id rfl rfl rfl h.gen (.inl rfl) ?_
  intro D recs view hcore
  obtain ⟨⟨hsafe, hhalt⟩, hF⟩ := hx D recs view hcore
  have he : e = .io := by
    rcases hhalt with h | h | h
    · cases h
    · cases h; rfl
    · cases h
  subst he
  refine ⟨D, recs, view, List.prefix_refl _, ?_, fun _ n g blk _ _ hb hg => ⟨hb, trivial⟩⟩
  obtain ⟨r1, r2, r3, r4, r5, r6, r7, r8, r9⟩ := hcore.ready
  refine ⟨⟨r1, r2, r3, r4, r5, r6, r7, r8, r9⟩, hcore.each, hcore.nodup, hcore.cont, ?_, hcore.thresh, ?_⟩
  · intro e he
    cases he
    exact ⟨rfl, hF⟩
  · exact .inl ⟨rfl, hsafe⟩

theorem calm_raise {A : Fs → Prop} {e : Err} {fs : Fs} (h : ¬ F → CalmP A (.raise (.err e) : Prog α) fs) : F := by
  apply Classical.byContradiction
  intro hn
  cases ((h hn).raise rfl).1

theorem inv_publish (h : Inv c cf m lo nx F x tr) {w : Work} (hfl : x.fl = .prep (.ret w)) (hsh : x.shared = []) :
    Inv c cf m lo nx F { x with
          s := { x.s with c1 := w.c1, p0 := [], buckets := w.buckets, modulus := w.modulus, frac := w.frac }
          g := x.g.start
          fl := .log (commitLogP c x.s.kh.blockSize w.c0)
          wr := 0 } tr := by
  refine h.flusher h.bnd id rfl rfl rfl h.gen.start (.inr hsh) ?_
  intro D recs view hcore
  have hfl' := hcore.fl
  unfold FlOk at hfl'
  rw [hfl] at hfl'
  rcases hfl'.2 with ⟨_, h2⟩ | ⟨⟨a1, a2, a3⟩, h2, h3, h4, K, h5, h6, h7⟩
  · exact (h2.ret trivial).elim
  obtain ⟨D1, recs1, view1, hP⟩ := published (S := Two lo nx) h5 a3 (.inl rfl) hcore.pool0 h3 h4 (.inr rfl) (h6.ret trivial)
  have hbs := hcore.ready.bs
  obtain ⟨r1, r2, r3, r4, r5, r6, r7, r8, r9⟩ := hcore.ready
  have hst : ∀ s' : Store, s'.p0 = [] → s'.p1 = x.s.p1 → stored s' recs1 = stored x.s recs := by
    intro s' e0 e1
    unfold stored
    rw [e0, e1, hP.pairs]
    simp [poolPairs]
  refine ⟨D1, recs1, view1, hP.pre, ?_, ?_⟩
  · refine ⟨⟨r1, r2, hP.b1, hP.mod, hP.mle, hP.dat, hP.file, hP.filed, ?_⟩, ?_, ?_, ?_, hcore.ec, hcore.thresh, ?_⟩
    · obtain ⟨kf, hkf, hkey⟩ := r9
      refine ⟨kf, hkf, fun n hn => ?_⟩
      by_cases hni : n ∈ w.c1.idx
      · cases hfind : w.c1.find n with
        | none => exact absurd hni (Cache.find_none.mp hfind)
        | some p => exact .inl ⟨p, rfl, hP.blob n p (Cache.find_mem hfind)⟩
      · have hfind := Cache.find_none.mpr hni
        obtain ⟨hB, hv⟩ := hP.old n hn hni
        rcases hkey n hB with ⟨p, hp, _⟩ | ⟨_, e1, e2⟩
        · rw [h2] at hp; cases hp
        · exact .inr ⟨hfind, e1, by rw [hv]; exact e2⟩
    · intro it hit
      exact hcore.each it (List.mem_append.mpr (.inr (by simpa using hit)))
    · refine (congrArg (fun l => (l.map (·.1)).Nodup) (hst _ ?_ ?_)).mpr hcore.nodup <;> rfl
    · intro k hk
      refine (hcore.cont k hk).trans (congrArg (kvOf · k) (hst _ ?_ ?_).symm) <;> rfl
    · refine ⟨uses_commitLogP, ⟨a1, hP.pow, ?_⟩, rfl, fun n p hm => ?_, ?_, fun _ => ?_⟩
      · rw [hP.pairs]; exact h4
      · rw [(hP.blob n p hm).len]; exact Nat.le_refl _
      · rw [hbs]; exact hP.log
      · rw [hbs]; exact hP.logCalm
  · intro t n g blk hg hn hb _
    refine ⟨hb, fun e => ?_⟩
    have := h.gen.le t g hg
    simp only [Gentex.start] at e
    omega

theorem inv_finish (h : Inv c cf m lo nx F x tr) {u : Unit} (hfl : x.fl = .log (.ret u)) (hp : x.g.prev = 0) :
    Inv c cf m lo nx F { x with fl := .keys (commitKeysP c x.s.kh.blockSize x.s.c1), wr := 0 } tr := by
  refine h.flusher h.bnd id rfl rfl rfl h.gen (.inl rfl) ?_
  intro D recs view hcore
  have hfl' := hcore.fl
  unfold FlOk at hfl'
  rw [hfl] at hfl'
  obtain ⟨hu, ⟨a1, a2, a3⟩, h2, h3, h4, h5⟩ := hfl'
  obtain ⟨b1, b2, b3⟩ := h4.ret trivial
  have hbs := hcore.ready.bs
  obtain ⟨r1, r2, r3, r4, r5, r6, r7, r8, r9⟩ := hcore.ready
  refine ⟨D, recs, view, List.prefix_refl _, ?_, ?_⟩
  · refine ⟨⟨r1, r2, r3, r4, r5, r6, r7, r8, r9⟩, hcore.each, hcore.nodup, hcore.cont, hcore.ec, hcore.thresh, ?_⟩
    refine ⟨?_, ⟨a1, a2, a3⟩, h2, ?_, fun _ => ?_⟩
    · rw [hbs]
      refine uses_commitKeysP fun n p hm => ⟨fun hn => ?_, h3 n p hm⟩
      exact Cache.find_none.mp hn (List.mem_map.mpr ⟨_, hm, rfl⟩)
    · rw [hbs]; exact b2
    · rw [hbs]; exact b3
  · intro t n g blk hg hn hb hG
    unfold GenOk at hG
    rw [hfl] at hG
    exact ⟨hb, hG (h.gen.none_old hp hg)⟩

theorem inv_done (h : Inv c cf m lo nx F x tr) {u : Unit} (hfl : x.fl = .keys (.ret u)) (hsh : x.shared = []) :
    Inv c cf m nx nx F { x with s := { x.s with c1 := [] }, fl := .idle, wr := 0 } tr := by
  refine h.flusher ⟨Nat.le_refl _, h.bnd.2⟩ id rfl rfl rfl h.gen (.inr hsh) ?_
  intro D recs view hcore
  have hfl' := hcore.fl
  unfold FlOk at hfl'
  rw [hfl] at hfl'
  obtain ⟨hu, ⟨a1, a2, a3⟩, h2, h4, h5⟩ := hfl'
  obtain ⟨K, b1, b2⟩ := h4.ret trivial
  refine ⟨D, recs, view, List.prefix_refl _, ?_, fun _ n g blk _ _ hb _ => ⟨hb, trivial⟩⟩
  have hS : Sess c cf { x.s with c1 := [] } x.fs D K recs x.s.buckets view :=
    ⟨b2, b1, a1, h2, rfl, hcore.ready.kh, rfl, a2, hcore.pool1 h2, hcore.thresh⟩
  refine ⟨hS.ready, hcore.each, hcore.nodup, hcore.cont, hcore.ec, hcore.thresh, ?_⟩
  exact .inr ⟨⟨a1, a2, a3⟩, rfl, h2, K, b2, b1⟩

theorem inv_flusherStep (h : Inv c cf m lo nx F x tr) (hs : flusherStep c x f = some y) :
    ∃ lo', Inv c cf m lo' nx (F ∨ f ≠ .none) y tr ∧ Grows x y lo nx lo' nx ∧ (lo' = lo ∨ lo' = nx) := by
  have same : ∀ {y : Sys}, y.fl ≠ .idle → y.s.ec = x.s.ec → Grows x y lo nx lo nx := fun h1 h2 =>
    ⟨Nat.le_refl _, Nat.le_refl _, fun e => ⟨by rw [← h2]; exact e, fun h => absurd h h1⟩⟩
  have bad : ∀ e, Grows x (x.broken e) lo nx lo nx := fun _ =>
    ⟨Nat.le_refl _, Nat.le_refl _, fun e => by cases e⟩
  unfold flusherStep at hs
  cases hfl : x.fl with
  | idle => rw [hfl] at hs; cases hs
  | prep p =>
    rw [hfl] at hs
    cases p with
    | ret w =>
      simp only at hs
      split at hs
      · rename_i hsh
        cases hs
        exact ⟨lo, (inv_publish h hfl hsh).mono Or.inl, same (fun e => by cases e) rfl, .inl rfl⟩
      · cases hs
    | raise ex =>
      cases ex with
      | err e =>
        cases hs
        refine ⟨lo, (inv_broken h ?_).mono Or.inl, bad _, .inl rfl⟩
        intro D recs view hcore
        have hfl' := hcore.fl
        unfold FlOk at hfl'
        rw [hfl] at hfl'
        rcases hfl'.2 with ⟨h1, h2⟩ | ⟨_, _, _, _, K, _, h6, h7⟩
        · exact ⟨h2.raise trivial, (hcore.ec _ h1).2⟩
        · exact ⟨h6.raise trivial, calm_raise h7⟩
      | _ => cases hs
    | _ => cases hs; exact ⟨lo, inv_prepStep h hfl, same (fun e => by cases e) rfl, .inl rfl⟩
  | log p =>
    rw [hfl] at hs
    cases p with
    | ret w =>
      simp only at hs
      split at hs
      · rename_i hsh
        cases hs
        exact ⟨lo, (inv_finish h hfl hsh).mono Or.inl, same (fun e => by cases e) rfl, .inl rfl⟩
      · cases hs
    | raise ex =>
      cases ex with
      | err e =>
        cases hs
        refine ⟨lo, (inv_broken h ?_).mono Or.inl, bad _, .inl rfl⟩
        intro D recs view hcore
        have hfl' := hcore.fl
        unfold FlOk at hfl'
        rw [hfl] at hfl'
        obtain ⟨hu, _, h2, h3, h4, h5⟩ := hfl'
        exact ⟨h4.raise trivial, calm_raise h5⟩
      | _ => cases hs
    | _ => cases hs; exact ⟨lo, inv_logStep h hfl, same (fun e => by cases e) rfl, .inl rfl⟩
  | keys p =>
    rw [hfl] at hs
    cases p with
    | ret w =>
      simp only at hs
      split at hs
      · rename_i hsh
        cases hs
        exact ⟨nx, (inv_done h hfl hsh).mono Or.inl, ⟨h.bnd.1, Nat.le_refl _, fun e => ⟨e, fun _ => .inr (Nat.le_refl _)⟩⟩, .inr rfl⟩
      · cases hs
    | raise ex =>
      cases ex with
      | err e =>
        cases hs
        refine ⟨lo, (inv_broken h ?_).mono Or.inl, bad _, .inl rfl⟩
        intro D recs view hcore
        have hfl' := hcore.fl
        unfold FlOk at hfl'
        rw [hfl] at hfl'
        obtain ⟨hu, _, h2, h4, h5⟩ := hfl'
        exact ⟨h4.raise trivial, calm_raise h5⟩
      | _ => cases hs
    | _ => cases hs; exact ⟨lo, inv_keysStep h hfl, same (fun e => by cases e) rfl, .inl rfl⟩

/-- Threads do not touch the flusher, and do not reset errors. -/
theorem thread_grows {es : List Ev} (hs : threadStep c x t f = some (y, es)) : y.fl = x.fl ∧ y.s.ec = x.s.ec ∧ ∀ u op, Ev.call u op ∉ es := by
  have rd : ∀ {α : Type} {p : Prog α} {q : Prog α → Pc},
      (readStep f x.seen p).map (fun r => (x.goto t (q r), ([] : List Ev))) = some (y, es) →
      y.fl = x.fl ∧ y.s.ec = x.s.ec ∧ ∀ u op, Ev.call u op ∉ es := by
    intro α p q h
    obtain ⟨r, _, e⟩ := Option.map_eq_some_iff.mp h
    cases e
    exact ⟨rfl, rfl, by simp⟩
  unfold threadStep at hs
  cases hpc : x.pc t with
  | out => rw [hpc] at hs; cases hs
  | ret r => rw [hpc] at hs; cases hs; exact ⟨rfl, rfl, by simp⟩
  | fetch0 k =>
    rw [hpc] at hs
    simp only at hs
    split at hs <;> (cases hs; exact ⟨rfl, rfl, by simp⟩)
  | fetch1 k =>
    rw [hpc] at hs
    obtain ⟨z, hz, e⟩ := Option.map_eq_some_iff.mp hs
    cases e
    unfold fetchLocked at hz
    split at hz
    · cases hz; exact ⟨rfl, rfl, by simp⟩
    · split at hz
      · cases hz; exact ⟨rfl, rfl, by simp⟩
      · simp only at hz
        split at hz
        · cases hz
        · split at hz <;> (cases hz; exact ⟨rfl, rfl, by simp⟩)
  | fetchC k n blob p =>
    rw [hpc] at hs
    simp only at hs
    split at hs
    · cases hs; exact ⟨rfl, rfl, by simp⟩
    · cases hs; exact ⟨rfl, rfl, by simp⟩
    · exact rd hs
  | fetchK k n g p =>
    rw [hpc] at hs
    simp only at hs
    split at hs
    · cases hs; exact ⟨rfl, rfl, by simp⟩
    · cases hs; exact ⟨rfl, rfl, by simp⟩
    · exact rd hs
  | ins0 k v =>
    rw [hpc] at hs
    simp only at hs
    split at hs <;> (cases hs; exact ⟨rfl, rfl, by simp⟩)
  | ins1 k v =>
    rw [hpc] at hs
    simp only at hs
    split at hs <;> cases hs
    exact ⟨rfl, rfl, by simp⟩
  | ins2 k v =>
    rw [hpc] at hs
    obtain ⟨z, hz, e⟩ := Option.map_eq_some_iff.mp hs
    cases e
    unfold insertLocked at hz
    split at hz
    · cases hz; exact ⟨rfl, rfl, by simp⟩
    · split at hz
      · cases hz
      · simp only at hz
        split at hz <;> (cases hz; exact ⟨rfl, rfl, by simp⟩)
  | insC k v n blob p rest =>
    rw [hpc] at hs
    simp only at hs
    split at hs
    · cases hs; exact ⟨rfl, rfl, by simp⟩
    · cases hs; exact ⟨rfl, rfl, by simp⟩
    · cases hs; exact ⟨rfl, rfl, by simp⟩
    · exact rd hs
  | insS k v p =>
    rw [hpc] at hs
    simp only at hs
    split at hs
    · cases hs; exact ⟨rfl, rfl, by simp⟩
    · cases hs; exact ⟨rfl, rfl, by simp⟩
    · cases hs; exact ⟨rfl, rfl, by simp⟩
    · exact rd hs
  | insK k v n g p =>
    rw [hpc] at hs
    simp only at hs
    split at hs
    · cases hs; exact ⟨rfl, rfl, by simp⟩
    · cases hs; exact ⟨rfl, rfl, by simp⟩
    · cases hs; exact ⟨rfl, rfl, by simp⟩
    · exact rd hs
  | ins3 k v =>
    rw [hpc] at hs
    simp only at hs
    split at hs
    · split at hs
      · cases hs
      · cases hs; exact ⟨rfl, rfl, by simp⟩
    · cases hs

/-- Every step preserves the invariant. -/
theorem inv_step (h : Inv c cf m lo nx F x tr) {a : Act} {es : List Ev} (hs : step c x a = some (y, es)) :
    ∃ lo' nx', Inv c cf m lo' nx' (F ∨ Act.Faulty a) y (tr ++ es) ∧ Grows x y lo nx lo' nx' ∧
      (a = .flush → y.s.ec = none → tr.length ≤ nx' ∧ (y.fl = .idle → tr.length ≤ lo')) ∧
      (lo' = lo ∨ lo' = nx ∨ a = .flush ∧ lo' = tr.length) ∧ (nx' = nx ∨ a = .flush ∧ nx' = tr.length) := by
  have same : ∀ {y : Sys}, y.fl = x.fl → y.s.ec = x.s.ec → Grows x y lo nx lo nx := fun h1 h2 =>
    ⟨Nat.le_refl _, Nat.le_refl _, fun e => ⟨by rw [← h2]; exact e, fun h => .inl (by rw [← h1]; exact h)⟩⟩
  cases a with
  | call t op =>
    refine ⟨lo, nx, (inv_call h hs).mono Or.inl, ?_, fun e => (by cases e), .inl rfl, .inl rfl⟩
    simp only [step] at hs
    split at hs
    · split at hs
      · split at hs <;> (cases hs; exact same rfl rfl)
      · cases hs
    · cases hs
  | go t f =>
    simp only [step] at hs
    split at hs
    · rename_i hf
      exact ⟨lo, nx, inv_threadStep h hf hs, same (thread_grows hs).1 (thread_grows hs).2.1, fun e => (by cases e), .inl rfl, .inl rfl⟩
    · cases hs
  | flush =>
    obtain ⟨z, hz, e⟩ := Option.map_eq_some_iff.mp hs
    cases e
    rw [List.append_nil]
    obtain ⟨lo', nx', h1, h2, h3, h4, h5⟩ := inv_flushStart h hz
    exact ⟨lo', nx', h1.mono Or.inl, h2, fun _ => h3, h4.imp_right fun e => .inr ⟨rfl, e⟩, h5.imp_right fun e => ⟨rfl, e⟩⟩
  | goF f =>
    simp only [step] at hs
    split at hs
    · obtain ⟨z, hz, e⟩ := Option.map_eq_some_iff.mp hs
      cases e
      rw [List.append_nil]
      obtain ⟨lo', h1, h2, h3⟩ := inv_flusherStep h hz
      exact ⟨lo', nx, h1, h2, fun e => (by cases e), h3.imp_right .inl, .inl rfl⟩
    · cases hs
  | part j =>
    simp only [step] at hs
    split at hs
    · cases hs
      rw [List.append_nil]
      refine ⟨lo, nx, Inv.mono (F := F) ?_ Or.inl, same rfl rfl, fun e => (by cases e), .inl rfl, .inl rfl⟩
      refine h.flusher h.bnd id rfl rfl rfl h.gen (.inl rfl) ?_
      intro D recs view hcore
      exact ⟨D, recs, view, List.prefix_refl _, hcore.congr rfl rfl rfl, fun _ _ _ _ _ _ hb hg => ⟨hb, hg.congr rfl rfl rfl⟩⟩
    · cases hs

/-- The number of events `n` before a flush starts, in an execution from `x` in which there were `n₀`
events before. -/
def Starts (c : Cfg) (acts : List Act) (x : Sys) (n₀ n : Nat) : Prop :=
  ∃ a₁ a₂ x₁ tr₁, acts = a₁ ++ .flush :: a₂ ∧ run c a₁ x = some (x₁, tr₁) ∧ n = n₀ + tr₁.length

theorem Starts.cons {acts : List Act} {a : Act} {z : Sys} {es : List Ev} {n : Nat} (h : Starts c acts z (tr ++ es).length n)
    (hs : step c x a = some (z, es)) : Starts c (a :: acts) x tr.length n := by
  obtain ⟨a₁, a₂, x₁, tr₁, h1, h2, h3⟩ := h
  refine ⟨a :: a₁, a₂, x₁, es ++ tr₁, by rw [h1]; rfl, ?_, ?_⟩
  · simp only [run, hs, h2, Option.map_some]
  · rw [h3]; simp [Nat.add_assoc]

/-- In some state that is passed no flush is running and none has failed. -/
def Rests (c : Cfg) (acts : List Act) (x : Sys) : Prop :=
  ∃ a₁ a₂ x₁ tr₁, acts = a₁ ++ a₂ ∧ run c a₁ x = some (x₁, tr₁) ∧ x₁.fl = .idle ∧ x₁.s.ec = none

/-- The number of events `n` before a flush starts that completes. -/
def Done (c : Cfg) (acts : List Act) (x : Sys) (n₀ n : Nat) : Prop :=
  ∃ a₁ a₂ x₁ z tr₁ es, acts = a₁ ++ .flush :: a₂ ∧ run c a₁ x = some (x₁, tr₁) ∧ n = n₀ + tr₁.length ∧
    step c x₁ .flush = some (z, es) ∧ Rests c a₂ z

/-- `n` events are permanent once the running flush has completed. -/
def Will (x : Sys) (lo nx n : Nat) : Prop := x.s.ec = none → n ≤ nx ∧ (x.fl = .idle → n ≤ lo)

theorem run_cons {acts : List Act} {a : Act} {es : List Ev} (h : run c (a :: acts) x = some (y, es)) :
    ∃ z es₁ es₂, step c x a = some (z, es₁) ∧ run c acts z = some (y, es₂) ∧ es = es₁ ++ es₂ := by
  simp only [run] at h
  cases hs : step c x a with
  | none => rw [hs] at h; cases h
  | some z =>
    obtain ⟨z, es1⟩ := z
    rw [hs] at h
    simp only at h
    obtain ⟨⟨w, es2⟩, hw, e⟩ := Option.map_eq_some_iff.mp h
    cases e
    exact ⟨z, es1, es2, rfl, hw, rfl⟩

/-- What was permanent stays so; flushes that complete make events permanent; the moments that
recovery may restore are those at which flushes started. -/
theorem inv_run_from : ∀ {acts : List Act} {x y : Sys} {F : Prop} {tr es : List Ev} {lo nx : Nat},
    Inv c cf m lo nx F x tr → run c acts x = some (y, es) →
    ∃ lo' nx', Inv c cf m lo' nx' (F ∨ Faults acts) y (tr ++ es) ∧ lo ≤ lo' ∧
      (∀ n, Will x lo nx n → Rests c acts x → n ≤ lo') ∧ (∀ n, Done c acts x tr.length n → n ≤ lo') ∧
      (lo' = lo ∨ lo' = nx ∨ Starts c acts x tr.length lo') ∧ (nx' = nx ∨ Starts c acts x tr.length nx') := by
  intro acts
  induction acts with
  | nil =>
    intro x y F tr es lo nx h hr
    cases hr
    rw [List.append_nil]
    refine ⟨lo, nx, h.mono Or.inl, Nat.le_refl _, fun n hn hx => ?_, fun n hn => ?_, .inl rfl, .inl rfl⟩
    · obtain ⟨a₁, a₂, x₁, tr₁, e1, e2, e3, e4⟩ := hx
      obtain ⟨rfl, rfl⟩ := List.append_eq_nil_iff.mp e1.symm
      cases e2
      exact (hn e4).2 e3
    · obtain ⟨a₁, a₂, x₁, z, tr₁, es, e1, _⟩ := hn
      simp at e1
  | cons a rest ih =>
    intro x y F tr es lo nx h hr
    obtain ⟨z, es1, es2, hs, hw, rfl⟩ := run_cons hr
    rw [← List.append_assoc]
    obtain ⟨lo1, nx1, g1, ⟨g2, g3, g4⟩, g7, g5, g6⟩ := inv_step h hs
    obtain ⟨lo2, nx2, k1, k2, k3, k6, k4, k5⟩ := ih g1 hw
    have now : ∀ {l : Nat}, a = .flush ∧ l = tr.length → Starts c (a :: rest) x tr.length l := by
      rintro l ⟨rfl, rfl⟩
      exact ⟨[], rest, x, [], rfl, rfl, rfl⟩
    have onx : nx1 = nx ∨ Starts c (a :: rest) x tr.length nx1 := g6.imp_right now
    refine ⟨lo2, nx2, k1.mono ?_, Nat.le_trans g2 k2, ?_, ?_, ?_, ?_⟩
    · rintro ((h | h) | ⟨b, hb, h⟩)
      · exact .inl h
      · exact .inr ⟨a, by simp, h⟩
      · exact .inr ⟨b, by simp [hb], h⟩
    · rintro n hn ⟨a₁, a₂, x₁, tr₁, e1, e2, e3, e4⟩
      cases a₁ with
      | nil =>
        cases e2
        exact Nat.le_trans ((hn e4).2 e3) (Nat.le_trans g2 k2)
      | cons b a₁ =>
        cases e1
        obtain ⟨z', t1, t2, q1, q2, _⟩ := run_cons e2
        rw [hs] at q1
        cases q1
        refine k3 n (fun hz => ?_) ⟨a₁, a₂, x₁, t2, rfl, q2, e3, e4⟩
        obtain ⟨q1, q2⟩ := g4 hz
        obtain ⟨q3, q4⟩ := hn q1
        refine ⟨Nat.le_trans q3 g3, fun hi => ?_⟩
        rcases q2 hi with q | q
        · exact Nat.le_trans (q4 q) g2
        · exact Nat.le_trans q3 q
    · rintro n ⟨a₁, a₂, x₁, z', tr₁, es, e1, e2, e3, e4, e5⟩
      cases a₁ with
      | nil =>
        cases e2
        cases e1
        rw [hs] at e4
        cases e4
        rw [e3]
        exact k3 _ (g7 rfl) e5
      | cons b a₁ =>
        cases e1
        obtain ⟨w, t1, t2, q1, q2, rfl⟩ := run_cons e2
        rw [hs] at q1
        cases q1
        exact k6 n ⟨a₁, a₂, x₁, z', t2, es, rfl, q2, by rw [e3]; simp [Nat.add_assoc], e4, e5⟩
    · rcases k4 with e | e | e
      · rw [e]; exact g5.imp_right (Or.imp_right now)
      · rw [e]; exact .inr onx
      · exact .inr (.inr (e.cons hs))
    · rcases k5 with e | e
      · rw [e]; exact onx
      · exact .inr (e.cons hs)

/-- Calls are legal. -/
theorem inv_calls : ∀ {acts : List Act} {x y : Sys} {F : Prop} {tr es : List Ev} {lo nx : Nat},
    Inv c cf m lo nx F x tr → run c acts x = some (y, es) → ∀ t k v, .call t (.insert k v) ∈ es → k.length = cf.keySize := by
  intro acts
  induction acts with
  | nil =>
    intro x y F tr es lo nx h hr t k v hm
    cases hr
    cases hm
  | cons a rest ih =>
    intro x y F tr es lo nx h hr t k v hm
    simp only [run] at hr
    cases hs : step c x a with
    | none => rw [hs] at hr; cases hr
    | some z =>
      obtain ⟨z, es1⟩ := z
      rw [hs] at hr
      simp only at hr
      obtain ⟨⟨w, es2⟩, hw, e⟩ := Option.map_eq_some_iff.mp hr
      cases e
      obtain ⟨lo1, nx1, g1, -⟩ := inv_step h hs
      rcases List.mem_append.mp hm with hm | hm
      · cases a with
        | call u op =>
          simp only [step] at hs
          split at hs
          · split at hs
            · rename_i hleg
              obtain ⟨D, recs, view, hcore, -⟩ := h.core
              obtain ⟨Bk, hkh⟩ := hcore.ready.kh
              split at hs
              · cases hs; simp at hm
              · cases hs
                simp only [List.mem_singleton, Ev.call.injEq, COp.insert.injEq] at hm
                obtain ⟨rfl, rfl, rfl⟩ := hm
                simp only [Legal, Bool.and_eq_true, beq_iff_eq] at hleg
                rw [hleg.1.1, hkh]; rfl
            · cases hs
          · cases hs
        | go u f =>
          simp only [step] at hs
          split at hs
          · exact absurd hm ((thread_grows hs).2.2 _ _)
          · cases hs
        | flush =>
          obtain ⟨z, hz, e⟩ := Option.map_eq_some_iff.mp hs
          cases e; cases hm
        | goF f =>
          simp only [step] at hs
          split at hs
          · obtain ⟨z, hz, e⟩ := Option.map_eq_some_iff.mp hs
            cases e; cases hm
          · cases hs
        | part j =>
          simp only [step] at hs
          split at hs
          · cases hs; cases hm
          · cases hs
      · exact ih g1 hw t k v hm

theorem inv_run {acts : List Act} {tr es : List Ev} (h : Inv c cf m lo nx F x tr)
    (hr : run c acts x = some (y, es)) : ∃ lo' nx', Inv c cf m lo' nx' (F ∨ Faults acts) y (tr ++ es) := by
  obtain ⟨lo', nx', h1, -⟩ := inv_run_from h hr
  exact ⟨lo', nx', h1⟩

end

end NuDB
