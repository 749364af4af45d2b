import Verif.Proof.ConcInit
import Verif.Proof.Refine
/- The files at any moment of an execution with several threads. -/
namespace NuDB

open Spec Conc

section
variable {c : Cfg} {cf : Conf} {m : Map} {lo nx : Nat} {S : Nat → Prop} {F : Prop} {x : Sys} {tr : List Ev} {fs fs' : Fs}

theorem HoldsM.db {D K : Bytes} (h : HoldsM c cf m D K) : ∃ recs B view, Db c cf D K recs B view :=
  let ⟨r, B, v, h, _⟩ := h
  ⟨r, B, v, h⟩

theorem Past.db (D K : Bytes) (h : Past c cf m S tr D K) : ∃ recs B view, Db c cf D K recs B view :=
  let ⟨_, _, _, h⟩ := h
  h.db

theorem Known.safe {recs : List Rec} {B : Nat} {view : View} {D K : Bytes} (hk : Known cf m lo tr (pairsOf recs))
    (hS : S lo) (hdb : Db c cf D K recs B view) (hI : Idle D K fs) : SafeM c cf m S tr fs :=
  ⟨0, hI.safe (hk.past hS hdb)⟩

/-- At any moment recovery would restore the content of an earlier moment. -/
theorem Inv.safe (h : Inv c cf m lo nx F x tr) : SafeM c cf m (Two lo nx) tr x.seen := by
  obtain ⟨D, recs, view, hcore, -⟩ := h.core
  have hfl := hcore.fl
  unfold FlOk at hfl
  unfold Sys.seen
  cases e : x.fl with
  | idle =>
    rw [e] at hfl
    rcases hfl with ⟨_, h1⟩ | ⟨a, _, _, K, h1, h2⟩
    · exact h1
    · exact a.known.safe (.inl rfl) h1 h2
  | prep p =>
    rw [e] at hfl
    rcases hfl.2 with ⟨_, h1⟩ | ⟨a, _, _, _, K, h1, h2, _⟩
    · exact h1.seen (fun _ _ h => h.elim) (fun _ _ h => h.1) _
    · exact h2.seen (fun _ _ h => h.safe h1 a.known (.inl rfl)) (fun _ _ h => h.1) _
  | log p =>
    rw [e] at hfl
    obtain ⟨_, a, _, _, h1, _⟩ := hfl
    exact h1.seen (fun _ _ h => h.1) (fun _ _ h => h.1) _
  | keys p =>
    rw [e] at hfl
    obtain ⟨_, a, _, h1, _⟩ := hfl
    exact h1.seen (fun _ _ ⟨K, h2, h3⟩ => a.known.safe (.inr rfl) h3 h2) (fun _ _ h => h.1) _

theorem SafeM.restart (h : SafeM c cf m S tr fs) (hr : Restart fs fs') : SafeM c cf m S tr fs' := by
  obtain ⟨L, h⟩ := h
  exact ⟨L, Safe.restart h hr⟩

theorem SafeM.attempts (h : SafeM c cf m S tr fs) (ha : Attempts c False fs fs') : SafeM c cf m S tr fs' := by
  induction ha with
  | none => exact h
  | @more fs₁ fs₂ w w' r _ σ hσ hw hr' hs ih =>
    subst hw
    obtain ⟨L, ih⟩ := ih
    have hw := wp_recover (σ := σ) Past.db (hσ.imp_right False.elim) ih
      (Q := fun _ w' => Safe c cf L (Past c cf m S tr) w'.fs) (fun w' D K hC hG _ => hC.safe hG)
    unfold wp at hw
    rw [hr'] at hw
    cases r with
    | ok _ => exact ⟨L, Safe.restart hw hs⟩
    | error _ => exact ⟨L, Safe.restart hw.1 hs⟩

theorem Spec.Answers.congr {n : Nat} {m' : Map} (h : Answers c n fs m) (he : ∀ k : Bytes, k.length = n → m k = m' k) :
    Answers c n fs m' := by
  obtain ⟨w₁, s, w₂, h1, h2, h3⟩ := h
  refine ⟨w₁, s, w₂, h1, h2, fun w hw k hk => ?_⟩
  rw [← he k hk]
  exact h3 w hw k hk

theorem SafeM.answers (h : SafeM c cf m S tr fs) :
    ∃ now, now <+: tr ∧ S now.length ∧ Answers c cf.keySize fs (contents m now) := by
  obtain ⟨L, h⟩ := h
  obtain ⟨D, K, ⟨now, h1, h2, recs, B, view, h3, h4⟩, ha⟩ := h.answers Past.db
  exact ⟨now, h1, h2, (ha _ _ _ h3).congr h4⟩

theorem run_append_inv : ∀ {a b : List Act} {x y : Sys} {tr : List Ev}, run c (a ++ b) x = some (y, tr) →
    ∃ z tr₁ tr₂, run c a x = some (z, tr₁) ∧ run c b z = some (y, tr₂) ∧ tr = tr₁ ++ tr₂ := by
  intro a
  induction a with
  | nil => intro b x y tr h; exact ⟨x, [], tr, rfl, h, rfl⟩
  | cons e a ih =>
    intro b x y tr h
    simp only [List.cons_append, run] at h
    cases hs : step c x e with
    | none => rw [hs] at h; cases h
    | some w =>
      obtain ⟨w, es⟩ := w
      rw [hs] at h
      simp only at h
      obtain ⟨⟨v, es'⟩, hv, e'⟩ := Option.map_eq_some_iff.mp h
      cases e'
      obtain ⟨z, tr₁, tr₂, h1, h2, rfl⟩ := ih hv
      exact ⟨z, es ++ tr₁, tr₂, by simp only [run, hs, h1, Option.map_some], h2, by simp⟩

/-- Where a prefix with this many events ends. -/
theorem Starts.began {acts : List Act} {n : Nat} {y : Sys} {now : List Ev} (h : Starts c acts x 0 n)
    (hr : run c acts x = some (y, tr)) (h1 : now <+: tr) (h2 : now.length = n) : Began c acts x now := by
  obtain ⟨a₁, a₂, x₁, tr₁, e1, e2, e3⟩ := h
  refine ⟨a₁, a₂, x₁, e1, ?_⟩
  rw [e1] at hr
  obtain ⟨z, t1, t2, g1, g2, g3⟩ := run_append_inv hr
  rw [e2] at g1
  cases g1
  have : now = tr₁ := by
    have h3 : tr₁ <+: tr := ⟨t2, g3.symm⟩
    have hl : now.length = tr₁.length := by omega
    exact (List.prefix_of_prefix_length_le h1 h3 (by omega)).eq_of_length hl
  rw [this]; exact e2

theorem Spec.Completed.prefix {acts : List Act} {y : Sys} {kept : List Ev} (h : Completed c acts x kept)
    (hr : run c acts x = some (y, tr)) : kept <+: tr := by
  obtain ⟨a₁, a₂, a₃, x₁, x₂, tr₂, e1, e2, -⟩ := h
  rw [e1] at hr
  obtain ⟨z, t1, t2, g1, g2, rfl⟩ := run_append_inv hr
  rw [e2] at g1
  cases g1
  exact List.prefix_append _ _

/-- The moments that recovery may restore, during an execution. -/
theorem inv_moments {acts : List Act} {y : Sys} (h : Inv c cf m 0 0 False x []) (hr : run c acts x = some (y, tr)) :
    ∃ lo nx, Inv c cf m lo nx (Faults acts) y tr ∧
      (∀ now, now <+: tr → Two lo nx now.length → now = [] ∨ Began c acts x now) ∧
      (∀ kept, Completed c acts x kept → kept.length ≤ lo) := by
  obtain ⟨lo, nx, h1, -, -, h4, h2, h3⟩ := inv_run_from h hr
  rw [List.nil_append] at h1
  have hm : ∀ l, l = 0 ∨ l = 0 ∨ Starts c acts x 0 l → ∀ now, now <+: tr → now.length = l → now = [] ∨ Began c acts x now := by
    rintro l (rfl | rfl | h) now hn hl
    · exact .inl (List.length_eq_zero_iff.mp hl)
    · exact .inl (List.length_eq_zero_iff.mp hl)
    · exact .inr (h.began hr hn hl)
  have hF := h1.mono (fun h => h.resolve_left id)
  refine ⟨lo, nx, hF, ?_, ?_⟩
  · rintro now hn (h | h)
    · exact hm _ h2 now hn h
    · exact hm nx (h3.imp_right .inr) now hn h
  · rintro kept ⟨a₁, a₂, a₃, x₁, x₂, tr₂, e1, e2, e3, e4, e5⟩
    obtain ⟨z, t1, t2, q1, q2, _⟩ := run_cons e3
    exact h4 _ ⟨a₁, a₂ ++ a₃, x₁, z, kept, t1, e1, e2, (Nat.zero_add _).symm, q1, a₂, a₃, x₂, t2, rfl, q2, e4, e5⟩

end

end NuDB
