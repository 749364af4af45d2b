import Verif.Spec.Handle
/- Which descriptors are open. -/
namespace NuDB.Handle
open Spec

/-- Pieces of code: if it goes on `Q`, if the function returns `R`. -/
def wp (m : HM α) (Q : α → W → Prop) (R : Bool → W → Prop) (w : W) : Prop :=
  match m w with
  | .ok a w => Q a w
  | .ret b w => R b w
  | .ub => False

section
variable {α β : Type} {Q : α → W → Prop} {Q' : β → W → Prop} {R : Bool → W → Prop} {w : W}

theorem wp_bind {m : HM β} {f : β → HM α} (h : wp m (fun a w => wp (f a) Q R w) R w) : wp (m >>= f) Q R w := by
  show wp (fun w => match m w with | .ok a w => f a w | .ret b w => .ret b w | .ub => .ub) Q R w
  unfold wp at *
  dsimp only
  cases e : m w with
  | ok a w => rw [e] at h; exact h
  | ret b w => rw [e] at h; exact h
  | ub => rw [e] at h; exact h

theorem wp_pure {a : α} (h : Q a w) : wp (pure a : HM α) Q R w := h

theorem wp_ret {b : Bool} (h : R b w) : wp (ret b : HM α) Q R w := h

theorem wp_mono {m : HM α} {Q1 : α → W → Prop} {R1 : Bool → W → Prop} (h : wp m Q1 R1 w) (hq : ∀ a w, Q1 a w → Q a w)
    (hr : ∀ b w, R1 b w → R b w) : wp m Q R w := by
  unfold wp at *
  cases e : m w with
  | ok a w => rw [e] at h; exact hq _ _ h
  | ret b w => rw [e] at h; exact hr _ _ h
  | ub => rw [e] at h; exact h

end

/-- Another set of open variables. -/
def upd (S : Var → Bool) (v : Var) (b : Bool) : Var → Bool := fun u => if u = v then b else S u

/-- Exactly the variables of `S` are open, all descriptors have been used properly so far, and none is open that is not
in a variable. -/
structure Holds (excl : Bool) (S : Var → Bool) (ob : Bool) (w : W) : Prop where
  sound : ∃ L, Sound excl w.trace L ∧ (∀ v d, w.fd v = some d → L d = some v.f) ∧ (∀ d, L d ≠ none → ∃ v, w.fd v = some d) ∧
    ∀ d, L d ≠ none → d < w.next
  inj : ∀ u v d, w.fd u = some d → w.fd v = some d → u = v
  is : ∀ v, (w.fd v).isSome = S v
  op : w.isOpen = ob

/-- No variable of `S` has the file `p`, if this matters. -/
def Free (excl : Bool) (S : Var → Bool) (p : Path) : Prop := excl = true → ∀ u, S u = true → u.f ≠ p

section
variable {excl stale : Bool} {S : Var → Bool} {ob : Bool} {w : W} {v : Var} {R : Bool → W → Prop}

theorem Holds.tick (h : Holds excl S ob w) {t : Nat} : Holds excl S ob { w with t := t } := ⟨h.sound, h.inj, h.is, h.op⟩

theorem Holds.free (h : Holds excl S ob w) {p : Path} (hf : Free excl S p) {L : Nat → Option Path}
    (hL : ∀ v d, w.fd v = some d → L d = some v.f) (hL2 : ∀ d, L d ≠ none → ∃ v, w.fd v = some d) :
    excl = true → ∀ x, L x ≠ some p := by
  intro he x hx
  obtain ⟨v, hv⟩ := hL2 x (by rw [hx]; simp)
  have := hL v x hv
  rw [hx] at this
  refine hf he v ?_ (Option.some.inj this).symm
  rw [← h.is v, hv]; rfl

theorem Holds.give (h : Holds excl S ob w) (hv : S v = false) (hf : Free excl S v.f) {Q : Unit → W → Prop}
    (hq : ∀ w', Holds excl (upd S v true) ob w' → Q () w') : wp (give v) Q R w := by
  obtain ⟨L, h1, h2, h3, h4⟩ := h.sound
  have hn : L w.next = none := by
    cases e : L w.next with
    | none => rfl
    | some p => have := h4 w.next (by rw [e]; simp); omega
  have hnext : ∀ u, w.fd u ≠ some w.next := by
    intro u hu
    rw [h2 u _ hu] at hn; cases hn
  refine hq _ ⟨⟨rebind L w.next (some v.f), .open h1 hn (h.free hf h2 h3), ?_, ?_, ?_⟩, ?_, ?_, h.op⟩
  · intro u d hu
    dsimp only at hu
    unfold rebind
    by_cases e : u = v
    · rw [if_pos e] at hu; cases hu; rw [if_pos rfl, e]
    · rw [if_neg e] at hu
      rw [if_neg (fun hd => hnext u (by rw [hu, hd]))]
      exact h2 u d hu
  · intro d hd
    unfold rebind at hd
    by_cases e : d = w.next
    · exact ⟨v, by dsimp only; rw [if_pos rfl, e]⟩
    · rw [if_neg e] at hd
      obtain ⟨u, hu⟩ := h3 d hd
      refine ⟨u, ?_⟩
      dsimp only
      rw [if_neg]; · exact hu
      intro hu'
      have := h.is v
      rw [← hu', hu, hu', hv] at this
      cases this
  · intro d hd
    unfold rebind at hd
    by_cases e : d = w.next
    · rw [e]; exact Nat.lt_succ_self _
    · rw [if_neg e] at hd
      exact Nat.lt_succ_of_lt (h4 d hd)
  · intro a b d ha hb
    dsimp only at ha hb
    by_cases ea : a = v <;> by_cases eb : b = v
    · rw [ea, eb]
    · rw [if_pos ea] at ha; rw [if_neg eb] at hb; cases ha; exact absurd hb (hnext b)
    · rw [if_neg ea] at ha; rw [if_pos eb] at hb; cases hb; exact absurd ha (hnext a)
    · rw [if_neg ea] at ha; rw [if_neg eb] at hb; exact h.inj a b d ha hb
  · intro u
    dsimp only
    unfold upd
    by_cases e : u = v
    · rw [if_pos e, if_pos e]; rfl
    · rw [if_neg e, if_neg e]; exact h.is u

theorem Holds.choose (h : Holds excl S ob w) {Q : Nat → W → Prop} (hq : ∀ n w', Holds excl S ob w' → Q n w') : wp choose Q R w :=
  hq _ _ h.tick

theorem Holds.openF (h : Holds excl S ob w) (hv : S v = false) (hf : Free excl S v.f) {Q : Opened → W → Prop}
    (h1 : ∀ w', Holds excl (upd S v true) ob w' → Q .ok w') (h2 : ∀ w', Holds excl S ob w' → Q .noent w')
    (h3 : ∀ w', Holds excl (upd S v true) ob w' → Q .fail w') (h4 : ∀ w', Holds excl S ob w' → Q .fail w')
    (h5 : stale = true → ∀ w', Holds excl (upd S v true) ob w' → Q .noent w') : wp (openF stale v) Q R w := by
  have hi : ¬ ((w.fd v).isSome = true) := by rw [h.is v, hv]; simp
  have key : ∀ (m : HM Opened), wp m Q R w → wp (fun w => if (w.fd v).isSome then .ub else m w) Q R w := by
    intro m hm
    unfold wp at *
    simp only [hi]
    exact hm
  refine key _ (wp_bind (h.choose fun n w' h' => ?_))
  match n with
  | 0 => exact wp_bind (h'.give hv hf h1)
  | 1 => exact h2 w' h'
  | 2 => exact wp_bind (h'.give hv hf h3)
  | 3 =>
    show wp (if stale = true then _ else _) Q R w'
    by_cases e : stale = true
    · rw [if_pos e]; exact wp_bind (h'.give hv hf (h5 e))
    · rw [if_neg e]; exact h4 w' h'
  | n + 4 => exact h4 w' h'

theorem Holds.use (h : Holds excl S ob w) (hv : S v = true) {Q : Bool → W → Prop} (hq : ∀ b w', Holds excl S ob w' → Q b w') :
    wp (use v) Q R w := by
  have hi := h.is v
  rw [hv] at hi
  obtain ⟨d, hd⟩ := Option.isSome_iff_exists.1 hi
  unfold wp Handle.use
  rw [hd]
  obtain ⟨L, h1, h2, h3, h4⟩ := h.sound
  exact hq _ _ ⟨⟨L, .use h1 (by rw [h2 v d hd]; simp), h2, h3, h4⟩, h.inj, h.is, h.op⟩

theorem Holds.closeF (h : Holds excl S ob w) {Q : Unit → W → Prop} (hq : ∀ w', Holds excl (upd S v false) ob w' → Q () w') :
    wp (closeF v) Q R w := by
  unfold wp Handle.closeF
  cases hd : w.fd v with
  | none =>
    refine hq _ ⟨h.sound, h.inj, fun u => ?_, h.op⟩
    unfold upd
    by_cases e : u = v
    · rw [if_pos e, e, hd]; rfl
    · rw [if_neg e]; exact h.is u
  | some d =>
    obtain ⟨L, h1, h2, h3, h4⟩ := h.sound
    refine hq _ ⟨⟨rebind L d none, .close h1 (by rw [h2 v d hd]; simp), ?_, ?_, ?_⟩, ?_, ?_, h.op⟩
    · intro u x hu
      dsimp only at hu
      by_cases e : u = v
      · rw [if_pos e] at hu; cases hu
      · rw [if_neg e] at hu
        unfold rebind
        rw [if_neg (fun hx => e (h.inj u v d (by rw [hu, hx]) hd))]
        exact h2 u x hu
    · intro x hx
      unfold rebind at hx
      by_cases e : x = d
      · rw [if_pos e] at hx; exact absurd rfl hx
      · rw [if_neg e] at hx
        obtain ⟨u, hu⟩ := h3 x hx
        refine ⟨u, ?_⟩
        dsimp only
        rw [if_neg]; · exact hu
        intro hu'
        rw [hu', hd] at hu; cases hu; exact e rfl
    · intro x hx
      unfold rebind at hx
      by_cases e : x = d
      · rw [if_pos e] at hx; exact absurd rfl hx
      · rw [if_neg e] at hx; exact h4 x hx
    · intro a b x ha hb
      dsimp only at ha hb
      by_cases ea : a = v
      · rw [if_pos ea] at ha; cases ha
      · by_cases eb : b = v
        · rw [if_pos eb] at hb; cases hb
        · rw [if_neg ea] at ha; rw [if_neg eb] at hb; exact h.inj a b x ha hb
    · intro u
      dsimp only
      unfold upd
      by_cases e : u = v
      · rw [if_pos e, if_pos e]; rfl
      · rw [if_neg e, if_neg e]; exact h.is u

theorem Holds.moveF {u : Var} (h : Holds excl S ob w) (hv : S v = false) (hf : u.f = v.f) (hne : u ≠ v) {Q : Unit → W → Prop}
    (hq : ∀ w', Holds excl (upd (upd S u false) v (S u)) ob w' → Q () w') : wp (moveF u v) Q R w := by
  obtain ⟨L, h1, h2, h3, h4⟩ := h.sound
  have hn : w.fd v = none := by
    cases e : w.fd v with
    | none => rfl
    | some d => have := h.is v; rw [e, hv] at this; cases this
  refine hq _ ⟨⟨L, h1, ?_, ?_, h4⟩, ?_, ?_, h.op⟩
  · intro x d hx
    dsimp only at hx
    by_cases e : x = v
    · rw [if_pos e] at hx; rw [h2 u d hx, hf, e]
    · rw [if_neg e] at hx
      by_cases e' : x = u
      · rw [if_pos e'] at hx; cases hx
      · rw [if_neg e'] at hx; exact h2 x d hx
  · intro d hd
    obtain ⟨x, hx⟩ := h3 d hd
    by_cases e : x = u
    · exact ⟨v, by dsimp only; rw [if_pos rfl, ← e]; exact hx⟩
    · refine ⟨x, ?_⟩
      dsimp only
      rw [if_neg (fun e' => by rw [e', hn] at hx; cases hx), if_neg e]; exact hx
  · intro a b d ha hb
    dsimp only at ha hb
    by_cases ea : a = v <;> by_cases eb : b = v
    · rw [ea, eb]
    · rw [if_pos ea] at ha; rw [if_neg eb] at hb
      by_cases e' : b = u
      · rw [if_pos e'] at hb; cases hb
      · rw [if_neg e'] at hb; exact absurd (h.inj u b d ha hb).symm e'
    · rw [if_neg ea] at ha; rw [if_pos eb] at hb
      by_cases e' : a = u
      · rw [if_pos e'] at ha; cases ha
      · rw [if_neg e'] at ha; exact absurd (h.inj u a d hb ha).symm e'
    · rw [if_neg ea] at ha; rw [if_neg eb] at hb
      by_cases e1 : a = u
      · rw [if_pos e1] at ha; cases ha
      · by_cases e2 : b = u
        · rw [if_pos e2] at hb; cases hb
        · rw [if_neg e1] at ha; rw [if_neg e2] at hb; exact h.inj a b d ha hb
  · intro x
    dsimp only
    unfold upd
    by_cases e : x = v
    · rw [if_pos e, if_pos e]; exact h.is u
    · rw [if_neg e, if_neg e]
      by_cases e' : x = u
      · rw [if_pos e', if_pos e']; rfl
      · rw [if_neg e', if_neg e']; exact h.is x

theorem Holds.eraseF {p : Path} (h : Holds excl S ob w) (hf : Free excl S p) {Q : Bool → W → Prop}
    (hq : ∀ b w', Holds excl S ob w' → Q b w') : wp (eraseF p) Q R w := by
  obtain ⟨L, h1, h2, h3, h4⟩ := h.sound
  exact hq _ _ ⟨⟨L, .erase h1 (h.free hf h2 h3), h2, h3, h4⟩, h.inj, h.is, h.op⟩

theorem wp_orRet {m : HM Bool} {Q : Unit → W → Prop}
    (h : wp m (fun b w => if b = true then Q () w else R false w) R w) : wp (orRet m) Q R w := by
  refine wp_bind (wp_mono h (fun b w h => ?_) (fun _ _ h => h))
  cases b with
  | true => exact h
  | false => exact h

theorem Holds.useR (h : Holds excl S ob w) (hv : S v = true) {Q : Unit → W → Prop} (hq : ∀ w', Holds excl S ob w' → Q () w')
    (hr : ∀ w', Holds excl S ob w' → R false w') : wp (orRet (Handle.use v)) Q R w :=
  wp_orRet (h.use hv fun b w' h' => by cases b <;> simp <;> first | exact hq w' h' | exact hr w' h')

theorem Holds.eraseR {p : Path} (h : Holds excl S ob w) (hf : Free excl S p) {Q : Unit → W → Prop}
    (hq : ∀ w', Holds excl S ob w' → Q () w') (hr : ∀ w', Holds excl S ob w' → R false w') : wp (orRet (Handle.eraseF p)) Q R w :=
  wp_orRet (h.eraseF hf fun b w' h' => by cases b <;> simp <;> first | exact hq w' h' | exact hr w' h')

theorem Holds.check (h : Holds excl S ob w) {Q : Unit → W → Prop} (hq : ∀ w', Holds excl S ob w' → Q () w')
    (hr : ∀ w', Holds excl S ob w' → R false w') : wp Handle.check Q R w := by
  refine wp_bind (h.choose fun n w' h' => ?_)
  match n with
  | 0 => exact hq w' h'
  | n + 1 => exact hr w' h'

theorem Holds.openR (h : Holds excl S ob w) (hv : S v = false) (hf : Free excl S v.f) {Q : Unit → W → Prop}
    (hq : ∀ w', Holds excl (upd S v true) ob w' → Q () w') (h1 : ∀ w', Holds excl S ob w' → R false w')
    (h2 : ∀ w', Holds excl (upd S v true) ob w' → R false w') : wp (Handle.openR stale v) Q R w :=
  wp_bind (h.openF hv hf hq h1 h2 h1 (fun _ => h2))

theorem Holds.usesN {vs : List Var} (n : Nat) (h : Holds excl S ob w) (hv : S v = true) (hs : ∀ u ∈ vs, S u = true)
    {Q : Unit → W → Prop} (hq : ∀ w', Holds excl S ob w' → Q () w') (hr : ∀ w', Holds excl S ob w' → R false w') :
    wp (Handle.usesN v vs n) Q R w := by
  induction n generalizing w with
  | zero => exact hq w h
  | succ n ih =>
    refine wp_bind (h.choose fun i w1 h1 => wp_bind (h1.useR ?_ (fun w2 h2 => wp_bind (h2.check (fun w3 h3 => ih h3) hr)) hr))
    rw [List.getD_eq_getElem?_getD]
    cases e : vs[i]? with
    | none => exact hv
    | some u => exact hs u (List.mem_of_getElem? e)

theorem Holds.uses {vs : List Var} (h : Holds excl S ob w) (hv : S v = true) (hs : ∀ u ∈ vs, S u = true) {Q : Unit → W → Prop}
    (hq : ∀ w', Holds excl S ob w' → Q () w') (hr : ∀ w', Holds excl S ob w' → R false w') : wp (Handle.uses v vs) Q R w :=
  wp_bind (h.choose fun n _ h' => h'.usesN n hv (fun u hu => by
    rcases List.mem_cons.1 hu with rfl | hu
    · exact hv
    · exact hs u hu) hq hr)

/-- The variables `vs` closed. -/
def without (S : Var → Bool) (vs : List Var) : Var → Bool := fun u => if u ∈ vs then false else S u

theorem Holds.destroy {vs : List Var} (h : Holds excl S ob w) {Q : Unit → W → Prop}
    (hq : ∀ w', Holds excl (without S vs) ob w' → Q () w') : wp (Handle.destroy vs) Q R w := by
  induction vs generalizing w S with
  | nil =>
    have : without S [] = S := by funext u; simp [without]
    rw [this] at hq
    exact hq w h
  | cons v vs ih =>
    refine wp_bind (h.closeF fun w1 h1 => ih h1 fun w' h' => hq w' ?_)
    have : without (upd S v false) vs = without S (v :: vs) := by
      funext u
      unfold without upd
      by_cases e : u ∈ vs
      · simp [e]
      · by_cases e' : u = v <;> simp [e, e']
    rw [← this]; exact h'

/-- A function: what holds when it has returned follows from what holds before the destructors. -/
theorem wp_scope {vs : List Var} {body : HM Unit} {Q : Bool → W → Prop}
    (h : wp body (fun _ w => wp (Handle.destroy vs) (fun _ w => Q true w) R w) (fun b w => wp (Handle.destroy vs) (fun _ w => Q b w) R w) w) :
    wp (scope vs body) Q R w := by
  unfold wp scope at *
  cases e : body w with
  | ok a w' =>
    rw [e] at h
    dsimp only at h ⊢
    exact wp_bind (m := Handle.destroy vs) (f := fun _ => (pure true : HM Bool)) (Q := Q) (R := R) h
  | ret b w' =>
    rw [e] at h
    dsimp only at h ⊢
    exact wp_bind (m := Handle.destroy vs) (f := fun _ => (pure b : HM Bool)) (Q := Q) (R := R) h
  | ub => rw [e] at h; exact h

/-- A function that leaves the variables of others as they were. -/
theorem wp_fun {vs : List Var} {body : HM Unit} {S0 : Var → Bool} {Q : Bool → W → Prop} (h0 : ∀ v ∈ vs, S0 v = false)
    (h : wp body (fun _ w => ∃ S, Holds excl S ob w ∧ ∀ u, u ∉ vs → S u = S0 u)
      (fun _ w => ∃ S, Holds excl S ob w ∧ ∀ u, u ∉ vs → S u = S0 u) w)
    (hq : ∀ b w', Holds excl S0 ob w' → Q b w') : wp (scope vs body) Q R w := by
  have key : ∀ b w, (∃ S, Holds excl S ob w ∧ ∀ u, u ∉ vs → S u = S0 u) → wp (Handle.destroy vs) (fun _ w => Q b w) R w := by
    rintro b w ⟨S, h1, h2⟩
    refine h1.destroy fun w' h' => hq b w' ?_
    have : without S vs = S0 := by
      funext u
      unfold without
      by_cases e : u ∈ vs
      · rw [if_pos e, h0 u e]
      · rw [if_neg e, h2 u e]
    rw [← this]; exact h'
  exact wp_scope (wp_mono h (fun _ w h => key true w h) (fun b w h => key b w h))

end
end NuDB.Handle
