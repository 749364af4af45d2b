import Verif.Model.Race
/-
Absence of data races, first part: every step obeys a discipline that depends on what its thread
holds (`Ctx`); this is checked for the steps of all calls (`Ok`).
-/
namespace NuDB.Race

/-- What a thread holds: the four mutexes, the right to flush, and whether it has seen `ecb_` set. -/
structure Ctx where
  m : Option Mode
  u : Option Mode
  g : Option Mode
  x : Option Mode
  tok : Bool
  saw : Bool
deriving DecidableEq

namespace Ctx

def held (c : Ctx) : Mu → Option Mode
  | .m => c.m
  | .u => c.u
  | .g => c.g
  | .ctx => c.x

def set (c : Ctx) (k : Option Mode) : Mu → Ctx
  | .m => { c with m := k }
  | .u => { c with u := k }
  | .g => { c with g := k }
  | .ctx => { c with x := k }

/-- Nothing. -/
def idle (c : Ctx) : Bool := c.m.isNone && c.u.isNone && c.g.isNone && c.x.isNone && !c.tok

/-- Holds `m_` exclusively. -/
def X (c : Ctx) : Bool := c.m = some .excl
/-- Holds `m_`. -/
def S (c : Ctx) : Bool := c.m.isSome

/-- Reads that are allowed. -/
def read (c : Ctx) : Var → Bool
  | .fld .open_ => true
  | .fld .kh => true
  | .fld .buckets => c.S || c.tok
  | .fld .frac => c.tok
  | .fld .p0 => c.S || c.tok
  | .fld .p1 => c.S
  | .fld .c1 => c.S || c.tok
  | .fld .ec => c.tok || c.saw
  | .fld .when => c.S
  | .fld .burst => c.S
  | .fld .gen => c.g = some .excl
  | .fld .list => c.x = some .excl
  | .first0 => c.S || c.tok
  | .first1 => c.S
  | .second0 => c.tok
  | .second1 => c.X
  | .own => c.tok
  | .pub => c.S || c.tok
  | .padOwn => c.tok
  | .padPub => c.tok

/-- Writes that are allowed. -/
def write (c : Ctx) : Var → Bool
  | .fld .open_ => false
  | .fld .kh => false
  | .fld .buckets => c.X && c.tok
  | .fld .frac => c.tok
  | .fld .p0 => c.X && c.tok
  | .fld .p1 => c.X
  | .fld .c1 => c.X && c.tok
  | .fld .ec => false
  | .fld .when => c.X
  | .fld .burst => c.X
  | .fld .gen => c.g = some .excl
  | .fld .list => c.x = some .excl
  | .first0 => c.X && c.tok
  | .first1 => c.X
  | .second0 => c.tok
  | .second1 => c.X
  | .own => c.tok
  | .pub => c.X && c.tok
  | .padOwn => c.tok
  | .padPub => c.tok

/-- Steps that are allowed. -/
def allows (c : Ctx) : Op → Bool
  | .rd v => c.read v
  | .wr v => c.write v
  | .lock m _ => (c.held m).isNone
  | .unlock m k => c.held m = some k
  | .fail => c.tok
  | .store => c.tok
  | .swapPools => c.X && c.tok
  | .newCache => c.tok
  | .publish => c.X && c.tok
  | .take => c.x = some .excl && !c.tok
  | .put => c.x = some .excl && c.tok

/-- What a thread holds after a step. -/
def after (c : Ctx) : Op → Ctx
  | .lock m k => c.set (some k) m
  | .unlock m _ => c.set none m
  | .take => { c with tok := true }
  | .put => { c with tok := false }
  | _ => c

/-- A list of steps: what the thread holds afterwards, if all are allowed. -/
def through : List Op → Ctx → Option Ctx
  | [], c => some c
  | o :: l, c => if c.allows o then through l (c.after o) else none

end Ctx

/-- All steps are allowed, whatever the decisions. -/
def Ok : Ctx → Sk → Prop
  | c, .done => c.idle = true
  | c, .op o k => c.allows o = true ∧ Ok (c.after o) k
  | c, .load k => ∀ b, Ok { c with saw := b } (k b)
  | c, .test k => c.tok = true ∧ ∀ b, Ok c (k b)
  | c, .pick k => ∀ n, Ok c (k n)

theorem Ok.ops {l : List Op} {k : Sk} {d : Ctx} : ∀ {c : Ctx}, c.through l = some d → Ok d k → Ok c (.ops l k) := by
  induction l with
  | nil => intro c h hk; cases h; exact hk
  | cons o l ih =>
    intro c h hk
    rw [Ctx.through] at h
    by_cases ha : c.allows o = true
    · rw [if_pos ha] at h; exact ⟨ha, ih h hk⟩
    · rw [if_neg ha] at h; cases h

theorem Ok.either {c : Ctx} {a b : Sk} (ha : Ok c a) (hb : Ok c b) : Ok c (.either a b) := by
  intro n
  show Ok c (if n = 0 then a else b)
  by_cases h : n = 0
  · rw [if_pos h]; exact ha
  · rw [if_neg h]; exact hb

/-- Rule for loops: the body keeps what the thread holds. -/
theorem Ok.loop {c : Ctx} {body : Sk → Sk} {k : Sk} (hb : ∀ k, Ok c k → Ok c (body k)) (hk : Ok c k) :
    Ok c (.loop body k) := by
  intro n
  show Ok c (Sk.rounds body n k)
  induction n with
  | zero => exact hk
  | succ n ih => exact hb _ ih

theorem Ok.branch {c : Ctx} {a b : Sk} (ha : Ok c a) (hb : Ok c b) (h : c.tok = true) :
    Ok c (.test fun n => if n then a else b) := by
  refine ⟨h, fun n => ?_⟩
  cases n
  · exact hb
  · exact ha

theorem ok_fetch : Ok ⟨none, none, none, none, false, false⟩ fetchSk := by
  refine ⟨rfl, fun b => ?_⟩
  cases b
  · refine Ok.ops rfl (Ok.either (Ok.ops rfl rfl) (Ok.ops rfl (Ok.either (Ok.ops rfl rfl) (Ok.ops rfl (Ok.either ?_ ?_)))))
    · exact Ok.loop (fun k hk => Ok.ops rfl hk) (Ok.ops rfl rfl)
    · exact Ok.ops rfl (Ok.ops rfl (Ok.loop (fun k hk => Ok.ops rfl hk) (Ok.ops rfl rfl)))
  · exact Ok.ops rfl rfl

theorem ok_insert : Ok ⟨none, none, none, none, false, false⟩ insertSk := by
  refine ⟨rfl, fun b => ?_⟩
  cases b
  · refine Ok.ops rfl (Ok.either (Ok.ops rfl rfl) (Ok.ops rfl (Ok.either (Ok.ops rfl rfl) (Ok.ops rfl (Ok.either ?_ ?_)))))
    · refine Ok.loop (fun k hk => Ok.ops rfl hk) (Ok.either (Ok.ops rfl rfl) (Ok.ops rfl ?_))
      exact Ok.loop (fun k hk => Ok.ops rfl hk) (Ok.either (Ok.ops rfl rfl) (Ok.ops rfl rfl))
    · refine Ok.ops rfl (Ok.ops rfl (Ok.loop (fun k hk => Ok.ops rfl hk) (Ok.ops rfl ?_)))
      exact Ok.either (Ok.ops rfl rfl) (Ok.ops rfl rfl)
  · exact Ok.ops rfl rfl

theorem ok_setBurst : Ok ⟨none, none, none, none, false, false⟩ setBurstSk := Ok.ops rfl rfl

theorem ok_observe : Ok ⟨none, none, none, none, false, false⟩ observeSk := Ok.ops rfl rfl

/-- What the flusher holds while `commit` works without `m_`. -/
def flusherCtx : Ctx := ⟨none, none, none, none, true, false⟩

theorem ok_fileOp {bad k : Sk} (hb : Ok flusherCtx bad) (hk : Ok flusherCtx k) : Ok flusherCtx (fileOp bad k) :=
  ⟨rfl, Ok.either ⟨rfl, Ok.branch hb hk rfl⟩ (Ok.branch hb hk rfl)⟩

theorem ok_flushReturn : Ok flusherCtx flushReturn := Ok.ops rfl rfl

theorem ok_failed : Ok flusherCtx commitFailed :=
  ⟨rfl, Ok.branch (Ok.ops rfl ok_flushReturn) ok_flushReturn rfl⟩

theorem ok_flushEnd : Ok ⟨some .excl, none, none, none, true, false⟩ flushEnd :=
  Ok.ops rfl (Ok.branch (Ok.ops rfl ok_flushReturn) ok_flushReturn rfl)

theorem ok_file {k : Sk} (hk : Ok flusherCtx k) : Ok flusherCtx (fileOp commitFailed k) := ok_fileOp ok_failed hk

theorem ok_keys : Ok flusherCtx commitKeysSk := by
  refine Ok.ops rfl (Ok.loop (fun k hk => Ok.ops rfl hk) (Ok.ops (d := flusherCtx) rfl (Ok.ops rfl ?_)))
  refine Ok.loop (fun k hk => Ok.ops rfl (ok_file hk)) (ok_file (ok_file (ok_file (ok_file (Ok.ops rfl ?_)))))
  exact Ok.branch (Ok.ops rfl ok_flushReturn) (Ok.ops rfl ok_flushEnd) rfl

theorem ok_publish : Ok flusherCtx commitPublish :=
  Ok.ops (d := flusherCtx) rfl (ok_file (Ok.loop (fun _ hk => ok_file hk) (ok_file (ok_file ok_keys))))

theorem ok_rest : Ok flusherCtx commitRest := by
  refine ok_file (ok_file (ok_file (Ok.ops rfl (ok_file (Ok.ops rfl ?_)))))
  refine Ok.loop (fun k hk => Ok.ops rfl (ok_file (Ok.ops rfl hk))) ?_
  refine Ok.loop (fun k hk => Ok.ops rfl (Ok.loop (fun k hk => Ok.ops rfl (ok_file hk)) (Ok.ops rfl hk))) ?_
  exact ok_file ok_publish

theorem ok_commit : Ok ⟨some .excl, none, none, none, true, false⟩ commitSk :=
  Ok.ops (d := flusherCtx) rfl (ok_file ok_rest)

theorem ok_flush : Ok ⟨none, none, none, none, false, false⟩ flushSk :=
  Ok.ops rfl (Ok.either (Ok.ops rfl rfl) (Ok.ops rfl (Ok.either ok_flushEnd ok_commit)))

theorem ok_call (c : Call) : Ok ⟨none, none, none, none, false, false⟩ c.sk := by
  cases c
  · exact ok_fetch
  · exact ok_insert
  · exact ok_setBurst
  · exact ok_observe
  · exact ok_flush

/-- What thread `t` holds. -/
def Sys.ctx (x : Sys) (t : Nat) : Ctx :=
  ⟨x.held t .m, x.held t .u, x.held t .g, x.held t .ctx, x.token == some t, x.saw t⟩

theorem Sys.ctx_held (x : Sys) (t : Nat) (m : Mu) : (x.ctx t).held m = x.held t m := by cases m <;> rfl

/-- The state is consistent: the threads obey the discipline, locks exclude each other, and the caches are different. -/
structure Inv (x : Sys) : Prop where
  ok : ∀ t, Ok (x.ctx t) (x.pc t)
  excl : ∀ m t u, t ≠ u → x.held t m = some .excl → x.held u m = none
  caches : x.own < x.next ∧ x.pub < x.next ∧ x.own ≠ x.pub

theorem inv_init : Inv Sys.init where
  ok := fun _ => rfl
  excl := fun _ _ _ _ h => by cases h
  caches := by decide

/-- Other threads hold what they held. -/
theorem ctx_other {x : Sys} {o : Op} {t u : Nat} (hne : u ≠ t) (ha : (x.ctx t).allows o = true) (he : (o.run x t).1) :
    (o.run x t).2.1.ctx u = x.ctx u := by
  cases o with
  | lock m k => simp [Op.run, Sys.ctx, Sys.hold, hne]
  | unlock m k => simp [Op.run, Sys.ctx, Sys.hold, hne]
  | take =>
    have h : x.token = none := he
    simp only [Op.run, Sys.ctx, h]
    have : (some t == some u) = false := by simp; exact fun h => hne h.symm
    rw [this]; rfl
  | put =>
    have h : x.token = some t := he
    simp only [Op.run, Sys.ctx, h]
    have : (some t == some u) = false := by simp; exact fun h => hne h.symm
    rw [this]; rfl
  | _ => rfl

/-- The thread holds what `Ctx.after` says. -/
theorem ctx_self {x : Sys} {o : Op} {t : Nat} : (o.run x t).2.1.ctx t = (x.ctx t).after o := by
  cases o with
  | lock m k => cases m <;> simp [Op.run, Sys.ctx, Sys.hold, Ctx.after, Ctx.set]
  | unlock m k => cases m <;> simp [Op.run, Sys.ctx, Sys.hold, Ctx.after, Ctx.set]
  | take => simp [Op.run, Sys.ctx, Ctx.after]
  | put => simp [Op.run, Sys.ctx, Ctx.after]
  | _ => rfl

theorem excl_run {x : Sys} {o : Op} {t : Nat} (hi : Inv x) (he : (o.run x t).1) :
    ∀ m a b, a ≠ b → (o.run x t).2.1.held a m = some .excl → (o.run x t).2.1.held b m = none := by
  cases o with
  | lock n k =>
    intro m a b hab h
    simp only [Op.run, Sys.hold] at h ⊢
    have hf : x.Free n k := he
    by_cases ha : a = t ∧ m = n
    · rw [if_pos ha] at h
      cases h
      have hb : ¬ (b = t ∧ m = n) := fun hb => hab (ha.1.trans hb.1.symm)
      rw [if_neg hb, ha.2]
      exact hf b
    · rw [if_neg ha] at h
      by_cases hb : b = t ∧ m = n
      · exfalso
        rw [hb.2] at h
        cases k with
        | shared => exact hf a h
        | excl => have := hf a; rw [this] at h; cases h
      · rw [if_neg hb]; exact hi.excl m a b hab h
  | unlock n k =>
    intro m a b hab h
    simp only [Op.run, Sys.hold] at h ⊢
    by_cases hb : b = t ∧ m = n
    · rw [if_pos hb]
    · rw [if_neg hb]
      by_cases ha : a = t ∧ m = n
      · rw [if_pos ha] at h; cases h
      · rw [if_neg ha] at h; exact hi.excl m a b hab h
  | _ => exact hi.excl

theorem caches_run {x : Sys} {o : Op} {t : Nat} (hi : Inv x) :
    (o.run x t).2.1.own < (o.run x t).2.1.next ∧ (o.run x t).2.1.pub < (o.run x t).2.1.next ∧
      (o.run x t).2.1.own ≠ (o.run x t).2.1.pub := by
  have h := hi.caches
  cases o with
  | newCache => simp only [Op.run]; omega
  | publish => simp only [Op.run]; omega
  | _ => exact h

theorem ctx_goto (x : Sys) (t u : Nat) (k : Sk) : (x.goto t k).ctx u = x.ctx u := rfl

theorem run_pc (o : Op) (x : Sys) (t : Nat) : (o.run x t).2.1.pc = x.pc := by cases o <;> rfl

/-- An idle context, up to what it has seen. -/
theorem idle_eq {c : Ctx} (h : c.idle = true) : c = ⟨none, none, none, none, false, c.saw⟩ := by
  obtain ⟨m, u, g, x, tok, saw⟩ := c
  simp only [Ctx.idle, Bool.and_eq_true, Option.isNone_iff_eq_none, Bool.not_eq_true'] at h
  obtain ⟨⟨⟨⟨rfl, rfl⟩, rfl⟩, rfl⟩, rfl⟩ := h
  rfl

/-- Steps keep the state consistent. -/
theorem inv_step {x y : Sys} {t : Nat} {e} (hi : Inv x) (h : Step x t y e) : Inv y := by
  cases h with
  | call c hp =>
    have hd := hi.ok t
    rw [hp] at hd
    refine ⟨fun u => ?_, hi.excl, hi.caches⟩
    by_cases hu : u = t
    · subst hu
      have := idle_eq hd
      simp only [Sys.goto, if_true]
      have hc : ({ x with saw := fun v => if v = u then false else x.saw v } : Sys).ctx u = ⟨none, none, none, none, false, false⟩ := by
        simp only [Sys.ctx, Ctx.mk.injEq] at this
        obtain ⟨h1, h2, h3, h4, h5, -⟩ := this
        simp only [Sys.ctx, if_true, h1, h2, h3, h4, h5]
      show Ok (({ x with saw := fun v => if v = u then false else x.saw v } : Sys).ctx u) _
      rw [hc]
      exact ok_call c
    · have hc : ({ x with saw := fun v => if v = t then false else x.saw v } : Sys).ctx u = x.ctx u := by
        simp only [Sys.ctx, if_neg hu]
      show Ok (({ x with saw := fun v => if v = t then false else x.saw v } : Sys).ctx u) (if u = t then _ else x.pc u)
      rw [hc, if_neg hu]
      exact hi.ok u
  | op hp he =>
    rename_i o k
    have hd := hi.ok t
    rw [hp] at hd
    refine ⟨fun u => ?_, excl_run hi he, caches_run hi⟩
    rw [ctx_goto]
    by_cases hu : u = t
    · subst hu
      rw [ctx_self]
      simp only [Sys.goto, if_true]
      exact hd.2
    · rw [ctx_other hu hd.1 he]
      simp only [Sys.goto, if_neg hu, run_pc]
      exact hi.ok u
  | load hp =>
    have hd := hi.ok t
    rw [hp] at hd
    refine ⟨fun u => ?_, hi.excl, hi.caches⟩
    rw [ctx_goto]
    by_cases hu : u = t
    · subst hu
      simp only [Sys.goto, if_true]
      have := hd x.ecb
      simpa only [Sys.ctx, if_true] using this
    · simp only [Sys.goto, if_neg hu]
      have hc : ({ x with saw := fun v => if v = t then x.ecb else x.saw v } : Sys).ctx u = x.ctx u := by
        simp only [Sys.ctx, if_neg hu]
      rw [hc]; exact hi.ok u
  | test hp =>
    have hd := hi.ok t
    rw [hp] at hd
    refine ⟨fun u => ?_, hi.excl, hi.caches⟩
    rw [ctx_goto]
    by_cases hu : u = t
    · subst hu
      simp only [Sys.goto, if_true]
      exact hd.2 _
    · simp only [Sys.goto, if_neg hu]
      exact hi.ok u
  | pick n hp =>
    have hd := hi.ok t
    rw [hp] at hd
    refine ⟨fun u => ?_, hi.excl, hi.caches⟩
    rw [ctx_goto]
    by_cases hu : u = t
    · subst hu
      simp only [Sys.goto, if_true]
      exact hd _
    · simp only [Sys.goto, if_neg hu]
      exact hi.ok u

end NuDB.Race
