import Verif.Proof.RaceOrder
/-
When `ec_` is written although `ecb_` is already set.
-/
namespace NuDB.Race

/-- The size of the key file could not be determined (basic_store.ipp 613). -/
def sizeFailed : Sk := .op .fail (.test fun b => if b then commitFailed else commitRest)

mutual
/-- With `ec_` set, errors are assigned only when the size of the key file is determined. -/
def Bad : Sk → Prop
  | .done => True
  | .op .fail k => Sk.op .fail k = sizeFailed ∧ Bad k
  | .op .take k => Bad k ∧ Good k
  | .op _ k => Bad k
  | .load k => ∀ b, Bad (k b)
  | .test k => Bad (k true)
  | .pick k => ∀ n, Bad (k n)

/-- With `ec_` not set, the same after an error or a return, and `ecb_` is not set. -/
def Good : Sk → Prop
  | .done => True
  | .op .fail k => Bad k
  | .op .put k => Bad k
  | .op .store _ => False
  | .op _ k => Good k
  | .load k => ∀ b, Good (k b)
  | .test k => Good (k false)
  | .pick k => ∀ n, Good (k n)
end

/-- Steps that are neither an assignment of an error nor the beginning of a flush. -/
def plain (o : Op) : Bool := o != .fail && o != .take

/-- Steps that are none of the exceptions in `Good`. -/
def inner (o : Op) : Bool := o != .fail && o != .put && o != .store

theorem Bad.op {o : Op} {k : Sk} (h : plain o = true) : Bad (.op o k) ↔ Bad k := by
  cases o <;> first | rfl | cases h

theorem Good.op {o : Op} {k : Sk} (h : inner o = true) : Good (.op o k) ↔ Good k := by
  cases o <;> first | rfl | cases h

theorem Bad.ops {k : Sk} (hk : Bad k) : ∀ {l : List Op}, l.all plain = true → Bad (.ops l k)
  | [], _ => hk
  | o :: l, h => by
    simp only [List.all_cons, Bool.and_eq_true] at h
    exact (Bad.op h.1).mpr (Bad.ops hk h.2)

theorem Good.ops {k : Sk} (hk : Good k) : ∀ {l : List Op}, l.all inner = true → Good (.ops l k)
  | [], _ => hk
  | o :: l, h => by
    simp only [List.all_cons, Bool.and_eq_true] at h
    exact (Good.op h.1).mpr (Good.ops hk h.2)

theorem Bad.either {a b : Sk} (ha : Bad a) (hb : Bad b) : Bad (.either a b) := by
  intro n
  show Bad (if n = 0 then a else b)
  by_cases h : n = 0
  · rw [if_pos h]; exact ha
  · rw [if_neg h]; exact hb

theorem Good.either {a b : Sk} (ha : Good a) (hb : Good b) : Good (.either a b) := by
  intro n
  show Good (if n = 0 then a else b)
  by_cases h : n = 0
  · rw [if_pos h]; exact ha
  · rw [if_neg h]; exact hb

theorem Bad.loop {body : Sk → Sk} {k : Sk} (hb : ∀ k, Bad k → Bad (body k)) (hk : Bad k) : Bad (.loop body k) := by
  intro n
  show Bad (Sk.rounds body n k)
  induction n with
  | zero => exact hk
  | succ n ih => exact hb _ ih

theorem Good.loop {body : Sk → Sk} {k : Sk} (hb : ∀ k, Good k → Good (body k)) (hk : Good k) : Good (.loop body k) := by
  intro n
  show Good (Sk.rounds body n k)
  induction n with
  | zero => exact hk
  | succ n ih => exact hb _ ih

theorem bad_done : Bad .done := trivial

theorem bad_return : Bad flushReturn := Bad.ops bad_done rfl

theorem good_return : Good flushReturn := trivial

theorem bad_failed : Bad commitFailed := Bad.ops (l := [.store]) bad_return rfl

theorem good_failed : Good commitFailed := good_return

theorem good_file {k : Sk} (hk : Good k) : Good (fileOp commitFailed k) :=
  Good.either (show Bad (.test _) from bad_failed) hk

theorem good_flushEnd : Good flushEnd := good_return

theorem bad_flushEnd : Bad flushEnd := by
  refine Bad.ops (k := .test _) ?_ rfl
  show Bad (Sk.ops [.store] flushReturn)
  exact Bad.ops bad_return rfl

theorem good_keys : Good commitKeysSk := by
  refine Good.ops (Good.loop (fun k hk => Good.ops hk rfl) (Good.ops (Good.ops ?_ rfl) rfl)) rfl
  refine Good.loop (fun k hk => Good.ops (good_file hk) rfl) (good_file (good_file (good_file (good_file (Good.ops ?_ rfl)))))
  exact Good.ops good_flushEnd rfl

theorem good_publish : Good commitPublish :=
  Good.ops (good_file (Good.loop (fun _ hk => good_file hk) (good_file (good_file good_keys)))) rfl

theorem good_rest : Good commitRest := by
  refine good_file (good_file (good_file (Good.ops (good_file (Good.ops ?_ rfl)) rfl)))
  refine Good.loop (fun k hk => Good.ops (good_file (Good.ops hk rfl)) rfl) ?_
  refine Good.loop (fun k hk => Good.ops (Good.loop (fun k hk => Good.ops (good_file hk) rfl) (Good.ops hk rfl)) rfl) ?_
  exact good_file good_publish

theorem good_commit : Good commitSk := Good.ops (good_file good_rest) rfl

theorem bad_size : Bad (fileOp commitFailed commitRest) := Bad.either (a := sizeFailed) ⟨rfl, bad_failed⟩ bad_failed

theorem bad_commit : Bad commitSk := Bad.ops bad_size rfl

theorem bad_call (c : Call) : Bad c.sk := by
  cases c with
  | fetch =>
    intro b
    cases b
    · refine Bad.ops (Bad.either (Bad.ops bad_done rfl) (Bad.ops (Bad.either (Bad.ops bad_done rfl) (Bad.ops (Bad.either ?_ ?_) rfl)) rfl)) rfl
      · exact Bad.loop (fun k hk => Bad.ops hk rfl) (Bad.ops bad_done rfl)
      · exact Bad.ops (Bad.ops (Bad.loop (fun k hk => Bad.ops hk rfl) (Bad.ops bad_done rfl)) rfl) rfl
    · exact Bad.ops bad_done rfl
  | insert =>
    intro b
    cases b
    · refine Bad.ops (Bad.either (Bad.ops bad_done rfl) (Bad.ops (Bad.either (Bad.ops bad_done rfl) (Bad.ops (Bad.either ?_ ?_) rfl)) rfl)) rfl
      · refine Bad.loop (fun k hk => Bad.ops hk rfl) (Bad.either (Bad.ops bad_done rfl) (Bad.ops ?_ rfl))
        exact Bad.loop (fun k hk => Bad.ops hk rfl) (Bad.either (Bad.ops bad_done rfl) (Bad.ops bad_done rfl))
      · refine Bad.ops (Bad.ops (Bad.loop (fun k hk => Bad.ops hk rfl) (Bad.ops ?_ rfl)) rfl) rfl
        exact Bad.either (Bad.ops bad_done rfl) (Bad.ops bad_done rfl)
    · exact Bad.ops bad_done rfl
  | setBurst => exact Bad.ops bad_done rfl
  | observe => exact Bad.ops bad_done rfl
  | flushOne => 
    refine Bad.ops (Bad.either (Bad.ops bad_done rfl) ?_) rfl
    have hb : Bad (Sk.ops [.wr (.fld .list), .unlock .ctx .excl, .lock .m .excl, .rd (.fld .kh), .wr (.fld .when), .rd (.fld .p1)]
      (.either flushEnd commitSk)) := Bad.ops (Bad.either bad_flushEnd bad_commit) rfl
    have hg : Good (Sk.ops [.wr (.fld .list), .unlock .ctx .excl, .lock .m .excl, .rd (.fld .kh), .wr (.fld .when), .rd (.fld .p1)]
      (.either flushEnd commitSk)) := Good.ops (Good.either good_flushEnd good_commit) rfl
    exact ⟨hb, hg⟩

/-- The invariant: `ecb_` is set only with `ec_`; and what remains to be done. -/
structure Errs (x : Sys) : Prop where
  both : x.ecb = true → x.ec = true
  good : ∀ t, x.token = some t → x.ec = false → Good (x.pc t)
  bad : ∀ t, x.token ≠ some t ∨ x.ec = true → Bad (x.pc t)

theorem errs_init : Errs Sys.init where
  both := fun h => by cases h
  good := fun _ h => by cases h
  bad := fun _ _ => trivial

/-- A step that changes nothing but the place of one thread. -/
theorem errs_move {x y : Sys} {t : Nat} {k : Sk} (hi : Errs x) (h1 : y.ec = x.ec) (h2 : y.ecb = true → y.ec = true) (h3 : y.token = x.token)
    (h4 : y.pc = fun u => if u = t then k else x.pc u)
    (hg : x.token = some t → x.ec = false → Good k) (hb : x.token ≠ some t ∨ x.ec = true → Bad k) : Errs y := by
  refine ⟨h2, fun u hu he => ?_, fun u hu => ?_⟩
  · rw [h4]
    rw [h3] at hu
    rw [h1] at he
    by_cases hut : u = t
    · subst hut; simp only [if_true]; exact hg hu he
    · simp only [if_neg hut]; exact hi.good u hu he
  · rw [h4]
    rw [h3, h1] at hu
    by_cases hut : u = t
    · subst hut; simp only [if_true]; exact hb hu
    · simp only [if_neg hut]; exact hi.bad u hu

theorem errs_op {x : Sys} {t : Nat} {o : Op} {k : Sk} (hv : Inv x) (hi : Errs x) (hp : x.pc t = .op o k) (he : (o.run x t).1) :
    Errs ((o.run x t).2.1.goto t k) := by
  have ha := hv.ok t
  rw [hp] at ha
  have ha := ha.1
  have hg := hi.good t
  have hb := hi.bad t
  rw [hp] at hg hb
  have other : ∀ u, u ≠ t → ((o.run x t).2.1.goto t k).pc u = x.pc u := by
    intro u hu; simp only [Sys.goto, if_neg hu, run_pc]
  cases o with
  | fail =>
    have ht : x.token = some t := tok_iff.mp ha
    refine ⟨fun _ => rfl, fun u _ h => (by cases h), fun u hu => ?_⟩
    by_cases hut : u = t
    · subst hut
      have : (((Op.fail).run x u).2.1.goto u k).pc u = k := by simp [Sys.goto]
      rw [this]
      by_cases hec : x.ec = true
      · exact (hb (Or.inr hec)).2
      · exact hg ht (by simpa using hec)
    · rw [other u hut]
      refine hi.bad u (Or.inl fun h => ?_)
      rw [ht] at h; cases h; exact hut rfl
  | store =>
    have ht : x.token = some t := tok_iff.mp ha
    have hec : x.ec = true := by
      cases h : x.ec with
      | true => rfl
      | false => exact (hg ht h).elim
    exact errs_move (k := k) hi rfl (fun _ => hec) rfl (by simp only [Sys.goto, run_pc]) (fun _ h => by rw [hec] at h; cases h) hb
  | take =>
    have ht : x.token = none := he
    obtain ⟨hb1, hb2⟩ : Bad k ∧ Good k := hb (Or.inl (by rw [ht]; intro h; cases h))
    refine ⟨hi.both, fun u hu h => ?_, fun u hu => ?_⟩
    · have hut : u = t := by cases hu; rfl
      subst hut
      simp only [Sys.goto, if_true]; exact hb2
    · by_cases hut : u = t
      · subst hut
        simp only [Sys.goto, if_true]; exact hb1
      · rw [other u hut]
        exact hi.bad u (Or.inl (by rw [ht]; intro h; cases h))
  | put =>
    have ht : x.token = some t := he
    refine ⟨hi.both, fun u hu h => ?_, fun u hu => ?_⟩
    · cases hu
    · by_cases hut : u = t
      · subst hut
        simp only [Sys.goto, if_true]
        by_cases hec : x.ec = true
        · exact hb (Or.inr hec)
        · exact hg ht (by simpa using hec)
      · rw [other u hut]
        refine hi.bad u (Or.inl fun h => ?_)
        rw [ht] at h; cases h; exact hut rfl
  | _ => exact errs_move (k := k) hi rfl hi.both rfl (by simp only [Sys.goto, run_pc]) hg hb

theorem errs_step {x y : Sys} {t : Nat} {e} (hv : Inv x) (hi : Errs x) (h : Step x t y e) : Errs y := by
  have hok := hv.ok t
  have hg := hi.good t
  have hb := hi.bad t
  cases h with
  | call c hp =>
    rw [hp] at hok
    refine errs_move (t := t) (k := c.sk) hi rfl hi.both rfl rfl (fun h _ => ?_) (fun _ => bad_call c)
    have := congrArg Ctx.tok (idle_eq hok)
    rw [tok_iff.mpr h] at this; cases this
  | op hp he => exact errs_op hv hi hp he
  | load hp =>
    rw [hp] at hg hb
    exact errs_move (t := t) hi rfl hi.both rfl rfl (fun h1 h2 => hg h1 h2 _) (fun h => hb h _)
  | test hp =>
    rw [hp] at hg hb hok
    have ht := tok_iff.mp hok.1
    refine errs_move (t := t) hi rfl hi.both rfl rfl (fun h1 h2 => ?_) (fun h => ?_)
    · rw [h2]; exact hg h1 h2
    · have hec : x.ec = true := h.resolve_left (fun h => h ht)
      rw [hec]; exact hb h
  | pick n hp =>
    rw [hp] at hg hb
    exact errs_move (t := t) hi rfl hi.both rfl rfl (fun h1 h2 => hg h1 h2 _) (fun h => hb h _)

theorem errs_exec {tr : Trace Loc Mu} {x : Sys} (h : Exec tr x) : Inv x ∧ Errs x := by
  induction h with
  | init => exact ⟨inv_init, errs_init⟩
  | step _ hs ih => exact ⟨inv_step ih.1 hs, errs_step ih.1 ih.2 hs⟩

/-- Where `ec_` is written with `ecb_` set, the size of the key file could not be determined. -/
theorem write_ec {tr : Trace Loc Mu} {x y : Sys} {t : Nat} (h : Exec tr x) (hs : Step x t y (.write (.fld .ec))) (hb : x.ecb = true) :
    x.pc t = sizeFailed := by
  obtain ⟨hv, he⟩ := errs_exec h
  have hbad := he.bad t (Or.inr (he.both hb))
  have hok := hv.ok t
  generalize hE : (Ev.write (.fld .ec) : Ev Loc Mu) = E at hs
  cases hs with
  | op hp hr =>
    rename_i o k
    rw [hp] at hok hbad
    cases o with
    | fail => rw [hp]; exact hbad.1
    | wr v =>
      exfalso
      simp only [Op.run, Ev.write.injEq] at hE
      have ha : (x.ctx t).write v = true := hok.1
      cases v with
      | fld f => simp only [Sys.loc, Loc.fld.injEq] at hE; subst hE; cases ha
      | _ => cases hE
    | _ => simp [Op.run] at hE
  | _ => cases hE

end NuDB.Race
