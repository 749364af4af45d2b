import Verif.Proof.Handle
/- The library functions and descriptors. -/
namespace NuDB.Handle
open Spec

section
variable {excl stale : Bool} {S0 : Var → Bool} {ob : Bool} {w : W} {R : Bool → W → Prop} {Q : Bool → W → Prop}

/-- No variable of `S` has the file, `S` being `S0` with some changes and nothing being open in `S0`. -/
local macro "free" h:term : tactic => `(tactic| (
  intro he u hu
  have h0 := $h he
  try simp only [upd] at hu
  repeat' split at hu
  all_goals first
    | (rw [h0] at hu; cases hu; done)
    | (subst_vars; simp [lvar, ivar, tvar, mvar]; done)
    | (cases hu; done)))

/-- `S` is `S0` except for the variables of the function. -/
local macro "same" : tactic => `(tactic| (
  intro u hu
  simp only [List.mem_cons, List.not_mem_nil, or_false, not_or, lvar, ivar, tvar, mvar] at hu
  first
    | rfl
    | (simp [upd, lvar, ivar, tvar, mvar, hu]; done)))

local macro "kept" : term => `(fun w h => ⟨_, h, by same⟩)

theorem recover_ok {o : Owner} (hx : excl = true → ∀ u, S0 u = false) (h0 : ∀ p, S0 ⟨o, p⟩ = false) (h : Holds excl S0 ob w)
    (hq : ∀ b w', Holds excl S0 ob w' → Q b w') : wp (recover stale o) Q R w := by
  refine wp_fun (S0 := S0) (by intro v hv; simp at hv; rcases hv with rfl | rfl | rfl <;> exact h0 _) ?_ hq
  refine wp_bind (h.openR (h0 _) (by free hx) (fun w h => ?_) kept kept)
  refine wp_bind (h.uses (by simp [upd]) (by simp) (fun w h => ?_) kept)
  refine wp_bind (h.check (fun w h => ?_) kept)
  refine wp_bind (h.openR (by simp [upd, h0]) (by free hx) (fun w h => ?_) kept kept)
  refine wp_bind (h.useR (by simp [upd]) (fun w h => ?_) kept)
  refine wp_bind (h.choose fun n w h => ?_)
  dsimp only
  have clear : ∀ (S : Var → Bool) (w : W), Holds excl S ob w → S ⟨o, .log⟩ = true →
      (∀ u, u ∉ [Var.mk o .log, ⟨o, .key⟩, ⟨o, .dat⟩] → S u = S0 u) →
      wp (do uses ⟨o, .log⟩ []; closeF ⟨o, .log⟩; orRet (eraseF .log) : HM Unit)
        (fun _ w => ∃ S, Holds excl S ob w ∧ ∀ u, u ∉ [Var.mk o .log, ⟨o, .key⟩, ⟨o, .dat⟩] → S u = S0 u)
        (fun _ w => ∃ S, Holds excl S ob w ∧ ∀ u, u ∉ [Var.mk o .log, ⟨o, .key⟩, ⟨o, .dat⟩] → S u = S0 u) w := by
    intro S w h hl hs
    have hs' : ∀ u, u ∉ [Var.mk o .log, ⟨o, .key⟩, ⟨o, .dat⟩] → upd S ⟨o, .log⟩ false u = S0 u := by
      intro u hu
      rw [← hs u hu]
      unfold upd
      rw [if_neg]
      rintro rfl; simp at hu
    refine wp_bind (h.uses hl (by simp) (fun w h => ?_) (fun w h => ⟨_, h, hs⟩))
    refine wp_bind (h.closeF fun w h => ?_)
    refine h.eraseR ?_ (fun w h => ⟨_, h, hs'⟩) (fun w h => ⟨_, h, hs'⟩)
    intro he u hu hf
    by_cases hm : u ∈ [Var.mk o .log, ⟨o, .key⟩, ⟨o, .dat⟩]
    · simp only [List.mem_cons, List.not_mem_nil, or_false] at hm
      rcases hm with rfl | rfl | rfl
      · simp [upd] at hu
      · cases hf
      · cases hf
    · rw [hs' u hm, hx he] at hu; cases hu
  by_cases hn : n = 1
  · rw [if_pos hn]
    refine wp_bind (h.closeF fun w h => ?_)
    refine wp_bind (h.eraseR (by free hx) (fun w h => ?_) kept)
    refine wp_bind (h.eraseR (by free hx) (fun w h => ?_) kept)
    exact ⟨_, h, by same⟩
  · rw [if_neg hn]
    refine wp_bind (h.openF (by simp [upd, h0]) (by free hx) (fun w h => ?_) (fun w h => ⟨_, h, by same⟩) (fun w h => ⟨_, h, by same⟩)
      (fun w h => ⟨_, h, by same⟩) (fun _ w h => ⟨_, h, by same⟩))
    refine wp_bind (h.useR (by simp [upd]) (fun w h => ?_) kept)
    refine wp_bind (h.use (by simp [upd]) fun _ w h => ?_)
    refine wp_bind (h.choose fun n w h => ?_)
    by_cases hn : n = 0
    · rw [if_pos hn]
      refine wp_bind (h.uses (by simp [upd]) (by simp) (fun w h => ?_) kept)
      refine wp_bind (h.check (fun w h => ?_) kept)
      refine wp_bind (h.choose fun n w h => ?_)
      by_cases hn : n = 0
      · rw [if_pos hn]
        refine wp_bind (h.uses (by simp [upd]) (by simp) (fun w h => ?_) kept)
        refine wp_bind (h.closeF fun w h => ?_)
        refine wp_bind (h.eraseR (by free hx) (fun w h => ?_) kept)
        exact clear _ w h (by simp [upd]) (by same)
      · rw [if_neg hn]
        refine wp_bind (h.uses (by simp [upd]) (by simp [upd]) (fun w h => ?_) kept)
        refine wp_bind (h.uses (by simp [upd]) (by simp) (fun w h => ?_) kept)
        refine wp_bind (h.uses (by simp [upd]) (by simp) (fun w h => ?_) kept)
        exact clear _ w h (by simp [upd]) (by same)
    · rw [if_neg hn]
      exact clear _ w h (by simp [upd]) (by same)

theorem create_ok (hx : excl = true → ∀ u, S0 u = false) (h0 : ∀ p, S0 (lvar p) = false) (h : Holds excl S0 ob w)
    (hq : ∀ b w', Holds excl S0 ob w' → Q b w') : wp (create stale) Q R w := by
  have hf : ∀ p, Free excl S0 p := fun p he u hu => by rw [hx he] at hu; cases hu
  refine wp_bind (wp_fun (excl := excl) (ob := ob) (S0 := S0) (by intro v hv; simp at hv; rcases hv with rfl | rfl | rfl <;> exact h0 _) ?_ fun b w h => ?_)
  · refine wp_bind (h.openR (h0 _) (hf _) (fun w h => ?_) kept kept)
    refine wp_bind (h.openR (by simpa [upd, lvar] using h0 .key) (by free hx) (fun w h => ?_) kept kept)
    refine wp_bind (h.openR (by simpa [upd, lvar] using h0 .log) (by free hx) (fun w h => ?_) kept kept)
    exact h.uses (by simp [upd, lvar]) (by simp [upd, lvar]) kept kept
  · cases b with
    | true => exact hq _ _ h
    | false =>
      have step : ∀ {w : W} {p : Path} {m : HM Bool}, (∀ w, Holds excl S0 ob w → wp m Q R w) → Holds excl S0 ob w →
          wp (do if (← choose) = 0 then (do let _ ← eraseF p; m) else m : HM Bool) Q R w := by
        intro w p m hm h
        refine wp_bind (h.choose fun n w h => ?_)
        by_cases e : n = 0
        · rw [if_pos e]; exact wp_bind (h.eraseF (hf p) fun _ w h => hm w h)
        · rw [if_neg e]; exact hm w h
      exact step (fun w h => step (fun w h => step (fun w h => hq _ _ h) h) h) h

theorem rekey_ok (hx : excl = true → ∀ u, S0 u = false) (h0 : ∀ p, S0 (lvar p) = false) (h : Holds excl S0 ob w)
    (hq : ∀ b w', Holds excl S0 ob w' → Q b w') : wp (rekey false) Q R w := by
  refine wp_fun (S0 := S0) (by intro v hv; simp at hv; rcases hv with rfl | rfl | rfl <;> exact h0 _) ?_ hq
  refine wp_bind (h.openR (h0 _) (by free hx) (fun w h => ?_) kept kept)
  refine wp_bind (h.uses (by simp [upd]) (by simp) (fun w h => ?_) kept)
  refine wp_bind (h.check (fun w h => ?_) kept)
  refine wp_bind (h.openF (by simpa [upd, lvar] using h0 .log) (by free hx) kept (fun w h => ?_) kept kept (by simp))
  refine wp_bind (h.openR (by simpa [upd, lvar] using h0 .key) (by free hx) (fun w h => ?_) kept kept)
  refine wp_bind (h.uses (by simp [upd]) (by simp) (fun w h => ?_) kept)
  refine wp_bind (h.openR (by simpa [upd, lvar] using h0 .log) (by free hx) (fun w h => ?_) kept kept)
  refine wp_bind (h.uses (by simp [upd]) (by simp) (fun w h => ?_) kept)
  refine wp_bind (h.uses (by simp [upd, lvar]) (by simp) (fun w h => ?_) kept)
  refine wp_bind (h.uses (by simp [upd, lvar]) (by simp [upd, lvar]) (fun w h => ?_) kept)
  refine wp_bind (h.closeF fun w h => ?_)
  exact h.eraseR (by free hx) kept kept

theorem visit_ok (hx : excl = true → ∀ u, S0 u = false) (h0 : ∀ p, S0 (lvar p) = false) (h : Holds excl S0 ob w)
    (hq : ∀ b w', Holds excl S0 ob w' → Q b w') : wp (visit stale) Q R w := by
  refine wp_fun (S0 := S0) (by intro v hv; simp at hv; rcases hv with rfl; exact h0 _) ?_ hq
  refine wp_bind (h.openR (h0 _) (by free hx) (fun w h => ?_) kept kept)
  exact h.uses (by simp [upd]) (by simp) kept kept

theorem verify_ok (hx : excl = true → ∀ u, S0 u = false) (h0 : ∀ p, S0 (lvar p) = false) (h : Holds excl S0 ob w)
    (hq : ∀ b w', Holds excl S0 ob w' → Q b w') : wp (verify stale) Q R w := by
  refine wp_fun (S0 := S0) (by intro v hv; simp at hv; rcases hv with rfl | rfl <;> exact h0 _) ?_ hq
  refine wp_bind (h.openR (h0 _) (by free hx) (fun w h => ?_) kept kept)
  refine wp_bind (h.openR (by simpa [upd, lvar] using h0 .key) (by free hx) (fun w h => ?_) kept kept)
  exact h.uses (by simp [upd, lvar]) (by simp [upd, lvar]) kept kept

/-- The files of the store are open, or not; no others are. -/
def memS (m : Bool) : Var → Bool := fun u => decide (u.o = .member) && m

theorem memS_other {m : Bool} {o : Owner} (ho : o ≠ .member) (p : Path) : memS m ⟨o, p⟩ = false := by simp [memS, ho]

theorem memS_free {m : Bool} (hm : excl = true → m = false) : excl = true → ∀ u, memS m u = false := by
  intro he u; simp [memS, hm he]

/-- A block whose variables are closed at the end, with different states for the two ways to leave it. -/
theorem wp_fun2 {ob1 ob2 : Bool} {vs : List Var} {body : HM Unit} {S1 S2 : Var → Bool} (h1 : ∀ v ∈ vs, S1 v = false)
    (h2 : ∀ v ∈ vs, S2 v = false)
    (h : wp body (fun _ w => ∃ S, Holds excl S ob1 w ∧ ∀ u, u ∉ vs → S u = S1 u)
      (fun _ w => ∃ S, Holds excl S ob2 w ∧ ∀ u, u ∉ vs → S u = S2 u) w)
    (hq1 : ∀ w', Holds excl S1 ob1 w' → Q true w') (hq2 : ∀ b w', Holds excl S2 ob2 w' → Q b w') : wp (scope vs body) Q R w := by
  have key : ∀ S0 : Var → Bool, (∀ v ∈ vs, S0 v = false) → ∀ S, (∀ u, u ∉ vs → S u = S0 u) → without S vs = S0 := by
    intro S0 h0 S hs
    funext u
    unfold without
    by_cases e : u ∈ vs
    · rw [if_pos e, h0 u e]
    · rw [if_neg e, hs u e]
  refine wp_scope (wp_mono h ?_ ?_)
  · rintro _ w ⟨S, h, hs⟩
    refine h.destroy fun w' h' => hq1 w' ?_
    rw [key S1 h1 S hs] at h'; exact h'
  · rintro b w ⟨S, h, hs⟩
    refine h.destroy fun w' h' => hq2 b w' ?_
    rw [key S2 h2 S hs] at h'; exact h'

theorem Holds.congr {S S' : Var → Bool} (h : Holds excl S ob w) (e : S = S') : Holds excl S' ob w := e ▸ h

theorem Holds.moveState {S : Var → Bool} {o o' : Owner} (h : Holds excl S ob w) (ho : o ≠ o') (hv : ∀ p, S ⟨o', p⟩ = false)
    {Q : Unit → W → Prop}
    (hq : ∀ w', Holds excl (fun u => if u.o = o' then S ⟨o, u.f⟩ else if u.o = o then false else S u) ob w' → Q () w') :
    wp (moveState o o') Q R w := by
  have hne : ∀ p, Var.mk o p ≠ ⟨o', p⟩ := by intro p e; injection e; contradiction
  refine wp_bind (h.moveF (u := ⟨o, .dat⟩) (v := ⟨o', .dat⟩) (hv _) rfl (hne _) fun w h => ?_)
  refine wp_bind (h.moveF (u := ⟨o, .key⟩) (v := ⟨o', .key⟩) (by simp [upd, hv, ho, Ne.symm ho]) rfl (hne _) fun w h => ?_)
  refine h.moveF (u := ⟨o, .log⟩) (v := ⟨o', .log⟩) (by simp [upd, hv, ho, Ne.symm ho]) rfl (hne _) fun w h => hq w ?_
  refine h.congr ?_
  · funext u
    obtain ⟨x, p⟩ := u
    by_cases e1 : x = o'
    · subst e1; cases p <;> simp [upd, ho, Ne.symm ho]
    · by_cases e2 : x = o
      · subst e2; cases p <;> simp [upd, ho]
      · simp [upd, e1, e2]

theorem setOpen_ok {S : Var → Bool} (h : Holds excl S ob w) {b : Bool} {Q : Unit → W → Prop}
    (hq : ∀ w', Holds excl S b w' → Q () w') : wp (setOpen b) Q R w := hq _ ⟨h.sound, h.inj, h.is, rfl⟩

theorem openStore_ok {m : Bool} (hm : excl = true → m = false) (h : Holds excl (memS m) false w)
    (hq1 : ∀ b w', Holds excl (memS m) false w' → Q b w') (hq2 : ∀ w', Holds excl (memS true) true w' → Q true w') :
    wp (openStore stale) Q R w := by
  have hx := memS_free (excl := excl) hm
  refine wp_bind (recover_ok hx (memS_other (by simp)) h fun b w h => ?_)
  cases b with
  | false => exact hq1 _ _ h
  | true =>
    refine wp_fun2 (excl := excl) (ob1 := true) (ob2 := false) (S1 := memS true) (S2 := memS m)
      (by simp [memS, tvar, lvar]) (by simp [memS, tvar, lvar]) ?_ hq2 hq1
    refine wp_bind (h.openR (by simp [memS, lvar]) (by free hx) (fun w h => ?_) kept kept)
    refine wp_bind (h.openR (by simp [upd, memS, lvar]) (by free hx) (fun w h => ?_) kept kept)
    refine wp_bind (h.openR (by simp [upd, memS, lvar]) (by free hx) (fun w h => ?_) kept kept)
    refine wp_bind (h.uses (by simp [upd, lvar]) (by simp [upd, lvar]) (fun w h => ?_) kept)
    refine wp_bind (h.check (fun w h => ?_) kept)
    refine wp_bind (h.moveState (by simp) (by simp [upd, memS, lvar]) fun w h => ?_)
    refine wp_bind (h.check (fun w h => ?_) (fun w h => ⟨_, h, ?_⟩))
    · refine wp_bind (h.destroy fun w h => ?_)
      refine wp_bind (h.moveState (by simp) (by intro p; cases p <;> simp [without]) fun w h => ?_)
      refine setOpen_ok h fun w h => ⟨_, h, ?_⟩
      intro u hu
      obtain ⟨o, p⟩ := u
      cases o <;> cases p <;> simp [lvar, tvar] at hu <;> simp [without, upd, memS, lvar]
    · intro u hu
      obtain ⟨o, p⟩ := u
      cases o <;> cases p <;> simp [lvar, tvar] at hu <;> simp [upd, memS, lvar]

theorem useStore_ok (h : Holds excl (memS true) true w) (hq : ∀ b w', Holds excl (memS true) true w' → Q b w') :
    wp useStore Q R w := by
  refine wp_fun (excl := excl) (ob := true) (S0 := memS true) (by simp) ?_ hq
  exact h.uses (by simp [memS, mvar]) (by simp [memS, mvar]) (fun w h => ⟨_, h, fun _ _ => rfl⟩) (fun w h => ⟨_, h, fun _ _ => rfl⟩)

theorem closeStore_ok (h : Holds excl (memS true) true w)
    (hq : ∀ b w' m, Holds excl (memS m) false w' → (b = true → m = false) → Q b w') : wp closeStore Q R w := by
  refine wp_bind (setOpen_ok h fun w h => ?_)
  refine wp_bind (wp_fun (excl := excl) (ob := false) (S0 := memS true) (by simp) ?_ fun b w h => ?_)
  · refine wp_bind (h.uses (by simp [memS, mvar]) (by simp [memS, mvar]) (fun w h => ?_) (fun w h => ⟨_, h, fun _ _ => rfl⟩))
    exact h.check (fun w h => ⟨_, h, fun _ _ => rfl⟩) (fun w h => ⟨_, h, fun _ _ => rfl⟩)
  · cases b with
    | false => exact hq _ _ _ h (fun hb => by cases hb)
    | true =>
      refine wp_bind (h.closeF fun w h => ?_)
      refine wp_fun (excl := excl) (ob := false) (S0 := memS false) (by simp [memS]) ?_ (fun b w h => hq b w false h fun _ => rfl)
      refine wp_bind (h.moveState (by simp) (by simp [upd, memS, mvar]) fun w h => ?_)
      have hs : ∀ u : Var, u ∉ [tvar .log, tvar .key, tvar .dat] →
          (if u.o = .temp then upd (memS true) (mvar .log) false ⟨.member, u.f⟩
            else if u.o = .member then false else upd (memS true) (mvar .log) false u) = memS false u := by
        intro u hu
        obtain ⟨o, p⟩ := u
        cases o <;> cases p <;> simp [tvar] at hu <;> simp [upd, memS, mvar]
      refine h.eraseR ?_ (fun w h => ⟨_, h, hs⟩) (fun w h => ⟨_, h, hs⟩)
      intro _ u hu
      obtain ⟨o, p⟩ := u
      cases o <;> cases p <;> simp [upd, memS, mvar] at hu <;> simp

theorem destroyStore_ok {m ob : Bool} (hob : ob = true → m = true) (h : Holds excl (memS m) ob w)
    (hq : ∀ w', Holds excl (memS false) false w' → Q true w') : wp destroyStore Q R w := by
  have drop : ∀ m w, Holds excl (memS m) false w → wp (do dropState .member; pure true : HM Bool) Q R w := by
    intro m w h
    refine wp_bind (h.destroy fun w h => hq w ?_)
    have : without (memS m) [⟨Owner.member, Path.log⟩, ⟨.member, .key⟩, ⟨.member, .dat⟩] = memS false := by
      funext u
      obtain ⟨o, p⟩ := u
      cases o <;> cases p <;> simp [without, memS]
    rw [this] at h; exact h
  show wp (if w.isOpen = true then (do let _ ← closeStore; dropState .member; pure true) else (do dropState .member; pure true))
    Q R w
  rw [h.op]
  cases ob with
  | false => exact drop m w h
  | true =>
    cases hob rfl
    exact wp_bind (closeStore_ok h fun b w m h _ => drop m w h)

/-- Between calls. -/
def Idle (excl : Bool) (w : W) : Prop :=
  ∃ m ob, Holds excl (memS m) ob w ∧ (ob = true → m = true) ∧ (excl = true → ob = false → m = false)

theorem call_ok {c : Call} (hs : stale = true → c ≠ .rekey) (h : Idle excl w)
    (hq : ∀ b w', ((excl = true → c = .close → b = true) → Idle excl w') → (c = .destroy → Holds excl (memS false) false w') →
      Q b w') : wp (call stale c) Q R w := by
  obtain ⟨m, ob, h, h1, h2⟩ := h
  have other : ∀ b w', c ≠ .destroy → Holds excl (memS m) ob w' → Q b w' :=
    fun b w' hc h' => hq b w' (fun _ => ⟨m, ob, h', h1, h2⟩) (fun e => absurd e hc)
  have hx : ob = false → excl = true → ∀ u, memS m u = false := fun e => memS_free fun he => h2 he e
  have hl : ∀ p, memS m (lvar p) = false := memS_other (by simp)
  have key : ∀ m' : HM Bool, call stale c w = m' w → wp m' Q R w → wp (call stale c) Q R w := by
    intro m' e hm; unfold wp at *; rw [e]; exact hm
  have ho := h.op
  cases ob with
  | false =>
    cases c with
    | create => exact key (create stale) (by simp [call, ho]) (create_ok (hx rfl) hl h fun b w h => other b w (by simp) h)
    | recover => exact key (recover stale .local) (by simp [call, ho]) (recover_ok (hx rfl) hl h fun b w h => other b w (by simp) h)
    | rekey =>
      cases stale with
      | true => exact absurd rfl (hs rfl)
      | false => exact key (rekey false) (by simp [call, ho]) (rekey_ok (hx rfl) hl h fun b w h => other b w (by simp) h)
    | visit => exact key (visit stale) (by simp [call, ho]) (visit_ok (hx rfl) hl h fun b w h => other b w (by simp) h)
    | verify => exact key (verify stale) (by simp [call, ho]) (verify_ok (hx rfl) hl h fun b w h => other b w (by simp) h)
    | «open» =>
      refine key (openStore stale) (by simp [call, ho]) (openStore_ok (fun he => h2 he rfl) h (fun b w h => other b w (by simp) h)
        fun w h => hq _ w (fun _ => ⟨true, true, h, fun _ => rfl, fun _ e => by cases e⟩) (by simp))
    | use => exact key (pure false) (by simp [call, ho]; rfl) (other _ w (by simp) h)
    | close => exact key (pure true) (by simp [call, ho]; rfl) (other _ w (by simp) h)
    | destroy =>
      exact key destroyStore (by simp [call]) (destroyStore_ok h1 h fun w h =>
        hq _ w (fun _ => ⟨false, false, h, (fun e => by cases e), fun _ _ => rfl⟩) (fun _ => h))
  | true =>
    cases h1 rfl
    cases c with
    | use => exact key useStore (by simp [call, ho]) (useStore_ok h fun b w h => other b w (by simp) h)
    | close =>
      exact key closeStore (by simp [call, ho]) (closeStore_ok h fun b w m h hm =>
        hq b w (fun hb => ⟨m, false, h, (fun e => by cases e), fun he _ => hm (hb he rfl)⟩) (by simp))
    | destroy =>
      exact key destroyStore (by simp [call]) (destroyStore_ok h1 h fun w h =>
        hq _ w (fun _ => ⟨false, false, h, (fun e => by cases e), fun _ _ => rfl⟩) (fun _ => h))
    | create => exact key (pure false) (by simp [call, ho]; rfl) (other _ w (by simp) h)
    | recover => exact key (pure false) (by simp [call, ho]; rfl) (other _ w (by simp) h)
    | rekey => exact key (pure false) (by simp [call, ho]; rfl) (other _ w (by simp) h)
    | visit => exact key (pure false) (by simp [call, ho]; rfl) (other _ w (by simp) h)
    | verify => exact key (pure false) (by simp [call, ho]; rfl) (other _ w (by simp) h)
    | «open» => exact key (pure false) (by simp [call, ho]; rfl) (other _ w (by simp) h)

theorem bind_ok {m : HM α} {f : α → HM β} {a : α} {w1 : W} (h : m w = .ok a w1) : (m >>= f) w = f a w1 := by
  show (match m w with | .ok a w => f a w | .ret b w => .ret b w | .ub => .ub) = _
  rw [h]

theorem bind_inv {m : HM α} {f : α → HM β} {b : β} {w2 : W} (h : (m >>= f) w = .ok b w2) : ∃ a w1, m w = .ok a w1 ∧
    f a w1 = .ok b w2 := by
  change (match m w with | .ok a w => f a w | .ret b w => .ret b w | .ub => .ub) = _ at h
  cases e : m w with
  | ok a w1 => rw [e] at h; exact ⟨a, w1, rfl, h⟩
  | ret b w => rw [e] at h; cases h
  | ub => rw [e] at h; cases h

theorem calls_cons {c : Call} {cs : List Call} {r : List (Call × Bool)} {w' : W} (h : calls stale (c :: cs) w = .ok r w') :
    ∃ b w1 r1, call stale c w = .ok b w1 ∧ calls stale cs w1 = .ok r1 w' ∧ r = (c, b) :: r1 := by
  rw [calls] at h
  obtain ⟨b, w1, h1, h⟩ := bind_inv h
  obtain ⟨r1, w2, h2, h⟩ := bind_inv h
  cases h
  exact ⟨b, w1, r1, h1, h2, rfl⟩

/-- The functions return. -/
theorem calls_ok {cs : List Call} (hs : stale = true → .rekey ∉ cs) (h : Idle false w) :
    ∃ r w', calls stale cs w = .ok r w' ∧ Idle false w' := by
  induction cs generalizing w with
  | nil => exact ⟨[], w, rfl, h⟩
  | cons c cs ih =>
    have := call_ok (Q := fun b w' => Idle false w') (R := fun _ _ => False) (c := c)
      (fun e hc => hs e (by rw [hc]; exact List.mem_cons_self ..)) h (fun b w' h _ => h (fun e => by cases e))
    unfold wp at this
    cases e : call stale c w with
    | ok b w1 =>
      rw [e] at this
      obtain ⟨r, w', h1, h2⟩ := ih (fun e hc => hs e (List.mem_cons_of_mem _ hc)) this
      refine ⟨(c, b) :: r, w', ?_, h2⟩
      rw [calls, bind_ok e, bind_ok h1]; rfl
    | ret b w => rw [e] at this; exact this.elim
    | ub => rw [e] at this; exact this.elim

/-- If no `close` fails. -/
theorem calls_excl {cs : List Call} (hs : stale = true → .rekey ∉ cs) (h : Idle true w) {r : List (Call × Bool)} {w' : W}
    (hc : calls stale cs w = .ok r w') (hr : (.close, false) ∉ r) : Idle true w' := by
  induction cs generalizing w r with
  | nil => cases hc; exact h
  | cons c cs ih =>
    obtain ⟨b, w1, r1, h1, h2, rfl⟩ := calls_cons hc
    refine ih (fun e hc => hs e (List.mem_cons_of_mem _ hc)) ?_ h2 (fun hm => hr (List.mem_cons_of_mem _ hm))
    have := call_ok (Q := fun b w' => (c = .close → b = true) → Idle true w') (R := fun _ _ => False) (c := c)
      (fun e hc => hs e (by rw [hc]; exact List.mem_cons_self ..)) h (fun b w' h _ hb => h (fun _ => hb))
    unfold wp at this
    rw [h1] at this
    refine this ?_
    rintro rfl
    cases b with
    | true => rfl
    | false => exact absurd (List.mem_cons_self ..) hr

/-- What is open after calls. -/
theorem Idle.init {dec : Nat → Nat} : Idle excl (W.init dec) :=
  ⟨false, false, ⟨⟨fun _ => none, .nil, (fun _ _ h => by cases h), (fun _ h => absurd rfl h), (fun _ h => absurd rfl h)⟩,
    (fun _ _ _ h => by cases h), (fun v => by simp [W.init, memS]), rfl⟩, (fun h => by cases h), fun _ _ => rfl⟩

theorem Holds.opened {m : Bool} (h : Holds excl (memS m) ob w) :
    ∃ L, Sound excl w.trace L ∧ (m = true → OneEach L) ∧ (m = false → ∀ d, L d = none) := by
  obtain ⟨L, h1, h2, h3, h4⟩ := h.sound
  have mem : ∀ v d, w.fd v = some d → m = true ∧ v = mvar v.f := by
    intro v d hv
    have := h.is v
    rw [hv] at this
    obtain ⟨o, p⟩ := v
    simp [memS] at this
    exact ⟨this.2, by rw [this.1]; rfl⟩
  refine ⟨L, h1, ?_, ?_⟩
  · rintro rfl
    refine ⟨fun p => ?_, fun d d' p hd hd' => ?_⟩
    · have := h.is (mvar p)
      obtain ⟨d, hd⟩ := Option.isSome_iff_exists.1 (this.trans (by simp [memS, mvar]))
      exact ⟨d, h2 _ d hd⟩
    · obtain ⟨v, hv⟩ := h3 d (by rw [hd]; simp)
      obtain ⟨v', hv'⟩ := h3 d' (by rw [hd']; simp)
      have e1 := h2 v d hv
      have e2 := h2 v' d' hv'
      rw [hd] at e1; rw [hd'] at e2
      have : v = v' := by
        rw [(mem v d hv).2, (mem v' d' hv').2, ← Option.some.inj e1, ← Option.some.inj e2]
      rw [this, hv'] at hv
      exact (Option.some.inj hv).symm
  · rintro rfl d
    cases e : L d with
    | none => rfl
    | some p =>
      obtain ⟨v, hv⟩ := h3 d (by rw [e]; simp)
      exact absurd (mem v d hv).1 (by simp)

end

theorem snoc_ind {α : Type} {P : List α → Prop} (h0 : P []) (h1 : ∀ b x, P b → P (b ++ [x])) (b : List α) : P b := by
  have : ∀ c : List α, P c.reverse := by
    intro c
    induction c with
    | nil => exact h0
    | cons x c ih => rw [List.reverse_cons]; exact h1 _ _ ih
  rw [← List.reverse_reverse b]; exact this _

/-- One system call. -/
def After (excl : Bool) (L' L : Nat → Option Path) : Sys → Prop
  | .open d p => L' d = none ∧ (excl = true → ∀ y, L' y ≠ some p) ∧ L = rebind L' d (some p)
  | .use d => L' d ≠ none ∧ L = L'
  | .close d => L' d ≠ none ∧ L = rebind L' d none
  | .erase p => (excl = true → ∀ y, L' y ≠ some p) ∧ L = L'

theorem _root_.NuDB.Spec.Sound.inv {excl : Bool} {tr : List Sys} {L : Nat → Option Path} {x : Sys} (h : Sound excl (tr ++ [x]) L) :
    ∃ L', Sound excl tr L' ∧ After excl L' L x := by
  generalize e : tr ++ [x] = t at h
  cases h with
  | nil => simp at e
  | «open» h h1 h2 => obtain ⟨rfl, e2⟩ := List.append_inj' e rfl; cases e2; exact ⟨_, h, h1, h2, rfl⟩
  | use h h1 => obtain ⟨rfl, e2⟩ := List.append_inj' e rfl; cases e2; exact ⟨_, h, h1, rfl⟩
  | close h h1 => obtain ⟨rfl, e2⟩ := List.append_inj' e rfl; cases e2; exact ⟨_, h, h1, rfl⟩
  | erase h h1 => obtain ⟨rfl, e2⟩ := List.append_inj' e rfl; cases e2; exact ⟨_, h, h1, rfl⟩

theorem _root_.NuDB.Spec.Sound.prefix {excl : Bool} {a b : List Sys} {L : Nat → Option Path} (h : Sound excl (a ++ b) L) :
    ∃ L', Sound excl a L' := by
  induction b using snoc_ind generalizing L with
  | h0 => exact ⟨L, by simpa using h⟩
  | h1 b x ih =>
    rw [← List.append_assoc] at h
    obtain ⟨L', h', -⟩ := h.inv
    exact ih h'

/-- A descriptor remains open until it is closed. -/
theorem _root_.NuDB.Spec.Sound.remains {excl : Bool} {a b : List Sys} {d : Nat} {p : Path} {L : Nat → Option Path}
    (h : Sound excl (a ++ .open d p :: b) L) (hb : .close d ∉ b) : L d = some p := by
  induction b using snoc_ind generalizing L with
  | h0 =>
    obtain ⟨L', -, -, -, rfl⟩ := h.inv
    simp [rebind]
  | h1 b x ih =>
    have e : a ++ .open d p :: (b ++ [x]) = (a ++ .open d p :: b) ++ [x] := by simp
    rw [e] at h
    obtain ⟨L', h', hx⟩ := h.inv
    have hi := ih h' (fun hm => hb (by simp [hm]))
    cases x with
    | «open» d' p' =>
      obtain ⟨h1, -, rfl⟩ := hx
      have : d ≠ d' := by rintro rfl; rw [hi] at h1; cases h1
      simp [rebind, this, hi]
    | use d' => obtain ⟨-, rfl⟩ := hx; exact hi
    | close d' =>
      obtain ⟨-, rfl⟩ := hx
      have : d ≠ d' := by rintro rfl; simp at hb
      simp [rebind, this, hi]
    | erase p' => obtain ⟨-, rfl⟩ := hx; exact hi

/-- A file opened while it is open. -/
theorem _root_.NuDB.Spec.Sound.twice {a b c : List Sys} {d d' : Nat} {p : Path} {L : Nat → Option Path}
    (h : Sound true (a ++ .open d p :: b ++ .open d' p :: c) L) (hb : .close d ∉ b) : False := by
  have e : a ++ .open d p :: b ++ .open d' p :: c = (a ++ .open d p :: b ++ [.open d' p]) ++ c := by simp
  rw [e] at h
  obtain ⟨L1, h1⟩ := h.prefix
  obtain ⟨L2, h2, -, h3, -⟩ := h1.inv
  exact h3 rfl d (h2.remains hb)

theorem _root_.NuDB.Spec.Sound.last_close {excl : Bool} {tr : List Sys} {d : Nat} {L : Nat → Option Path}
    (h : Sound excl (tr ++ [.close d]) L) : L d = none := by
  obtain ⟨L', -, -, rfl⟩ := h.inv
  simp [rebind]

theorem _root_.NuDB.Spec.Sound.last_use {excl : Bool} {tr : List Sys} {d : Nat} {L : Nat → Option Path}
    (h : Sound excl (tr ++ [.use d]) L) (hn : ∀ L', Sound excl tr L' → L' d = none) : False := by
  obtain ⟨L', h1, h2, -⟩ := h.inv
  exact h2 (hn L' h1)

theorem _root_.NuDB.Spec.Sound.last_close2 {excl : Bool} {tr : List Sys} {d : Nat} {L : Nat → Option Path}
    (h : Sound excl (tr ++ [.close d]) L) (hn : ∀ L', Sound excl tr L' → L' d = none) : False := by
  obtain ⟨L', h1, h2, -⟩ := h.inv
  exact h2 (hn L' h1)

end NuDB.Handle
