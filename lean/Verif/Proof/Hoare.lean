import Verif.Model.File
/- Weakest preconditions for the effect monad. -/
namespace NuDB

/-- `m` ends normally in `Q` or exceptionally in `X`. -/
def wp (σ : Schedule) (m : M α) (Q : α → World → Prop) (X : Exc → World → Prop) (w : World) : Prop :=
  match m σ w with
  | (.ok a, w') => Q a w'
  | (.error x, w') => X x w'

variable {σ : Schedule} {α β : Type}

theorem wp_ret {a : α} {Q : α → World → Prop} {X w} (h : Q a w) : wp σ (M.ret a) Q X w := h

theorem wp_pure {a : α} {Q : α → World → Prop} {X w} (h : Q a w) : wp σ (pure a : M α) Q X w := h

theorem wp_bind {m : M α} {k : α → M β} {Q : β → World → Prop} {X w}
    (h : wp σ m (fun a w' => wp σ (k a) Q X w') X w) : wp σ (m >>= k) Q X w := by
  show wp σ (M.bind m k) Q X w
  unfold wp M.bind at *
  split at h
  · rename_i a w' e; simp only [e]; exact h
  · rename_i x w' e; simp only [e]; exact h

theorem wp_bind_iff {m : M α} {k : α → M β} {Q : β → World → Prop} {X w} :
    wp σ (m >>= k) Q X w ↔ wp σ m (fun a w' => wp σ (k a) Q X w') X w := by
  constructor
  · intro h
    have h : wp σ (M.bind m k) Q X w := h
    unfold wp M.bind at *
    split
    · rename_i a w' e; simp only [e] at h; exact h
    · rename_i x w' e; simp only [e] at h; exact h
  · exact wp_bind

theorem wp_raise {x : Exc} {Q : α → World → Prop} {X : Exc → World → Prop} {w} (h : X x w) :
    wp σ (M.raise x) Q X w := h

theorem wp_fail {e : Err} {Q : α → World → Prop} {X : Exc → World → Prop} {w} (h : X (.err e) w) :
    wp σ (M.fail e) Q X w := h

theorem wp_lift_ok {r : Res α} {a : α} {Q : α → World → Prop} {X w} (hr : r = .ok a) (h : Q a w) :
    wp σ (M.lift r) Q X w := by subst hr; exact h

theorem wp_lift_error {r : Res α} {x : Exc} {Q : α → World → Prop} {X : Exc → World → Prop} {w}
    (hr : r = .error x) (h : X x w) : wp σ (M.lift r) Q X w := by subst hr; exact h

theorem wp_check_ok {r : Except Err α} {a : α} {Q : α → World → Prop} {X w} (hr : r = .ok a)
    (h : Q a w) : wp σ (M.check r) Q X w := by subst hr; exact h

theorem wp_attempt {m : M α} {Q : Except Err α → World → Prop} {X : Exc → World → Prop} {w}
    (h : wp σ m (fun a w' => Q (.ok a) w')
      (fun x w' => match x with | .err e => Q (.error e) w' | x => X x w') w) :
    wp σ (M.attempt m) Q X w := by
  unfold wp M.attempt at *
  split at h
  · rename_i a w' e; simp only [e]; exact h
  · rename_i x w' e; simp only [e]
    cases x <;> exact h

theorem wp_conseq {m : M α} {Q Q' : α → World → Prop} {X X' : Exc → World → Prop} {w}
    (h : wp σ m Q X w) (hq : ∀ a w', Q a w' → Q' a w') (hx : ∀ x w', X x w' → X' x w') :
    wp σ m Q' X' w := by
  unfold wp at *
  split at h
  · exact hq _ _ h
  · exact hx _ _ h

theorem wp_post {m : M α} {Q Q' : α → World → Prop} {X : Exc → World → Prop} {w}
    (h : wp σ m Q X w) (hq : ∀ a w', Q a w' → Q' a w') : wp σ m Q' X w :=
  wp_conseq h hq (fun _ _ h => h)

theorem wp_and {m : M α} {Q Q' : α → World → Prop} {X X' : Exc → World → Prop} {w}
    (h : wp σ m Q X w) (h' : wp σ m Q' X' w) :
    wp σ m (fun a w => Q a w ∧ Q' a w) (fun x w => X x w ∧ X' x w) w := by
  unfold wp at *
  split
  · rename_i e; rw [e] at h h'; exact ⟨h, h'⟩
  · rename_i e; rw [e] at h h'; exact ⟨h, h'⟩

/-- Sequencing with an explicit intermediate assertion. -/
theorem wp_seq {m : M α} {k : α → M β} {P : α → World → Prop} {Q : β → World → Prop} {X w}
    (h : wp σ m P X w) (hk : ∀ a w', P a w' → wp σ (k a) Q X w') : wp σ (m >>= k) Q X w :=
  wp_bind (wp_post h hk)

/-- Some file operation is disturbed. -/
def Faulty (σ : Schedule) : Prop := ∃ i, σ i ≠ .none

theorem not_faulty_calm : ¬ Faulty calm := fun ⟨_, h⟩ => h rfl

/-- A file operation, given what it does when undisturbed and what it leaves behind when
disturbed. -/
theorem wp_fileOp {ok : Fs → Except Exc α × Fs} {part : Fs → Nat → Fs} {Q : α → World → Prop}
    {X : Exc → World → Prop} {w : World}
    (hok : match ok w.fs with
      | (.ok a, fs') => Q a ⟨fs', w.clock + 1, w.out⟩
      | (.error x, fs') => X x ⟨fs', w.clock + 1, w.out⟩)
    (hfail : ∀ k, Faulty σ → X (.err .io) ⟨part w.fs k, w.clock + 1, w.out⟩)
    (hcrash : ∀ k, Faulty σ → X .crash ⟨part w.fs k, w.clock + 1, w.out⟩) :
    wp σ (fileOp ok part) Q X w := by
  unfold wp fileOp
  cases hs : σ w.clock with
  | none =>
    simp only
    split at hok
    · rename_i e; rw [e]; exact hok
    · rename_i e; rw [e]; exact hok
  | fail k => exact hfail k ⟨w.clock, by rw [hs]; exact Fault.noConfusion⟩
  | crash k => exact hcrash k ⟨w.clock, by rw [hs]; exact Fault.noConfusion⟩

end NuDB
