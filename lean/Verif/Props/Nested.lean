import Verif.Spec.Nested
/-
C72: callbacks of `fetch` may call the store.
-/
namespace NuDB.Nested

open Conc (Gentex)
open Spec

/-- What a thread holds: `m_` shared, exclusively, `u_`, a number of generations. -/
private structure Hold where
  sh : Bool
  ex : Bool
  u : Bool
  g : Nat

/-- Nothing but generations. -/
private def gens (g : Nat) : Hold := ⟨false, false, false, g⟩

/-- A thread that holds `h` may perform these operations: it releases only what it holds, and does not wait for `m_` while it
holds it, nor for `u_` while it holds `u_` or `m_`, nor (`finish`) for generations while it holds anything. -/
private def Fine : List Step → Hold → Prop
  | [], h => h = gens 0
  | .share :: r, h => h.sh = false ∧ h.ex = false ∧ Fine r { h with sh := true }
  | .unshare :: r, h => h.sh = true ∧ Fine r { h with sh := false }
  | .excl :: r, h => h.sh = false ∧ h.ex = false ∧ Fine r { h with ex := true }
  | .unexcl :: r, h => h.ex = true ∧ Fine r { h with ex := false }
  | .lockU :: r, h => h.sh = false ∧ h.ex = false ∧ h.u = false ∧ Fine r { h with u := true }
  | .unlockU :: r, h => h.u = true ∧ Fine r { h with u := false }
  | .lockGen :: r, h => Fine r { h with g := h.g + 1 }
  | .unlockGen :: r, h => 0 < h.g ∧ Fine r { h with g := h.g - 1 }
  | .start :: r, h => h.ex = true ∧ Fine r h
  | .finish :: r, h => h = gens 0 ∧ Fine r h

private theorem fine_calls {p : List Step} (hp : Calls false p) : ∀ (g : Nat) (r : List Step), Fine r (gens g) → Fine (p ++ r) (gens g) := by
  induction hp with
  | nil => exact fun g r h => h
  | fetchMem hb hm h ihb ih =>
    intro g r hr
    cases hm rfl
    exact ⟨rfl, rfl, rfl, ih g r hr⟩
  | @fetchDisk b r' hb h ihb ih =>
    intro g r hr
    refine ⟨rfl, rfl, rfl, ?_⟩
    show Fine ((b ++ .unlockGen :: r') ++ r) (gens (g + 1))
    rw [List.append_assoc]
    exact ihb (g + 1) _ ⟨Nat.succ_pos _, ih g r hr⟩
  | insertExists h ih => exact fun g r hr => ⟨rfl, rfl, rfl, rfl, rfl, rfl, rfl, ih g r hr⟩
  | insertCache h ih => exact fun g r hr => ⟨rfl, rfl, rfl, rfl, rfl, rfl, rfl, rfl, rfl, rfl, ih g r hr⟩
  | insertFound h ih => exact fun g r hr => ⟨rfl, rfl, rfl, rfl, rfl, rfl, Nat.succ_pos _, rfl, ih g r hr⟩
  | insertDisk h ih =>
    exact fun g r hr => ⟨rfl, rfl, rfl, rfl, rfl, rfl, Nat.succ_pos _, rfl, rfl, rfl, rfl, ih g r hr⟩
  | setBurst h ih => exact fun g r hr => ⟨rfl, rfl, rfl, ih g r hr⟩

private theorem fine_flushes {p : List Step} (hp : Flushes p) : Fine p (gens 0) := by
  induction hp with
  | nil => rfl
  | short h ih => exact ⟨rfl, rfl, rfl, ih⟩
  | log h ih => exact ⟨rfl, rfl, rfl, rfl, rfl, rfl, rfl, ih⟩
  | key h ih => exact ⟨rfl, rfl, rfl, rfl, rfl, rfl, rfl, rfl, ih⟩
  | full h ih => exact ⟨rfl, rfl, rfl, rfl, rfl, rfl, rfl, rfl, rfl, rfl, rfl, ih⟩

/-- The number of generations held by a thread. -/
private def gensOf (l : List (Nat × Nat)) (t : Nat) : Nat := (l.filter (fun e => e.1 == t)).length

/-- What thread `t` holds. -/
private def holds (x : State) (t : Nat) : Hold :=
  ⟨decide (t ∈ x.shared), decide (x.owner = some t), decide (x.u = some t), gensOf x.held t⟩

private structure Inv (x : State) : Prop where
  fine : ∀ t, Fine (x.prog t) (holds x t)
  nodup : x.shared.Nodup
  waiting : x.waiting = true → x.owner ≠ none ∨ x.shared ≠ []
  cur : x.g.cur = (x.held.filter (fun e => e.2 == x.g.gen)).length
  prev : x.g.prev = (x.held.filter (fun e => e.2 != x.g.gen)).length
  old : ∀ e ∈ x.held, e.2 ≤ x.g.gen

private theorem takeGen_some {t : Nat} : ∀ {l : List (Nat × Nat)}, 0 < gensOf l t →
    ∃ g l', takeGen t l = some (g, l') ∧ l.Perm ((t, g) :: l')
  | [], h => absurd h (by simp [gensOf])
  | (t', g) :: l, h => by
    by_cases e : t' = t
    · subst e
      exact ⟨g, l, by simp [takeGen], .refl _⟩
    · have h0 : 0 < gensOf l t := by simpa [gensOf, List.filter_cons, e] using h
      obtain ⟨g', l', h1, h2⟩ := takeGen_some h0
      exact ⟨g', (t', g) :: l', by simp [takeGen, e, h1], (h2.cons _).trans (.swap _ _ _)⟩

private theorem Fine.cast {p : List Step} {h h' : Hold} (hf : Fine p h) (e1 : h.sh = h'.sh) (e2 : h.ex = h'.ex) (e3 : h.u = h'.u)
    (e4 : h.g = h'.g) : Fine p h' := by
  obtain ⟨a, b, c, d⟩ := h
  obtain ⟨a', b', c', d'⟩ := h'
  simp only at e1 e2 e3 e4
  subst e1 e2 e3 e4
  exact hf

private theorem filter_length (n : Nat) : ∀ l : List (Nat × Nat),
    (l.filter (fun e => e.2 == n)).length + (l.filter (fun e => e.2 != n)).length = l.length
  | [] => rfl
  | e :: l => by
    have := filter_length n l
    by_cases h : e.2 = n <;> simp [h] <;> omega

private theorem Inv.step {x y : State} {t : Nat} (h : Inv x) (hs : step x t = some y) : Inv y := by
  unfold Nested.step at hs
  have ht := h.fine t
  cases hp : x.prog t with
  | nil => rw [hp] at hs; cases hs
  | cons s r =>
    rw [hp] at hs ht
    simp only [Option.map_eq_some_iff] at hs
    obtain ⟨z, hz, rfl⟩ := hs
    cases s with
    | share =>
      simp only [exec] at hz
      split at hz
      · rename_i hc
        cases hz
        obtain ⟨h1, h2, h3⟩ := ht
        have h1 : t ∉ x.shared := by simpa [holds] using h1
        refine ⟨fun t' => ?_, List.nodup_cons.2 ⟨h1, h.nodup⟩, fun _ => .inr (by simp), h.cur, h.prev, h.old⟩
        by_cases e : t' = t
        · subst e
          simp only [if_true]
          exact h3.cast (by simp [holds]) rfl rfl rfl
        · simp only [e, if_false]
          exact (h.fine t').cast (by simp [holds, e]) rfl rfl rfl
      · cases hz
    | unshare =>
      cases hz
      obtain ⟨h1, h3⟩ := ht
      have hm : ∀ t', t' ∈ x.shared.erase t ↔ t' ≠ t ∧ t' ∈ x.shared := fun t' => h.nodup.mem_erase_iff
      refine ⟨fun t' => ?_, h.nodup.erase t, fun hw => ?_, h.cur, h.prev, h.old⟩
      · by_cases e : t' = t
        · subst e
          simp only [if_true]
          exact h3.cast (by simp [holds, hm]) rfl rfl rfl
        · simp only [e, if_false]
          exact (h.fine t').cast (by simp [holds, hm, e]) rfl rfl rfl
      · simp only at hw
        split at hw
        · cases hw
        · exact .inr (by assumption)
    | excl =>
      simp only [exec] at hz
      split at hz
      · rename_i hc
        cases hz
        obtain ⟨h1, h2, h3⟩ := ht
        refine ⟨fun t' => ?_, h.nodup, fun _ => .inl (by simp), h.cur, h.prev, h.old⟩
        by_cases e : t' = t
        · subst e
          simp only [if_true]
          exact h3.cast rfl (by simp [holds]) rfl rfl
        · simp only [e, if_false]
          exact (h.fine t').cast rfl (by simp [holds, hc.1, Ne.symm e]) rfl rfl
      · cases hz
    | unexcl =>
      cases hz
      obtain ⟨h1, h3⟩ := ht
      have h1 : x.owner = some t := by simpa [holds] using h1
      refine ⟨fun t' => ?_, h.nodup, fun hw => (by cases hw), h.cur, h.prev, h.old⟩
      by_cases e : t' = t
      · subst e
        simp only [if_true]
        exact h3.cast rfl (by simp [holds]) rfl rfl
      · simp only [e, if_false]
        exact (h.fine t').cast rfl (by simp [holds, h1, Ne.symm e]) rfl rfl
    | lockU =>
      simp only [exec] at hz
      split at hz
      · rename_i hc
        cases hz
        obtain ⟨h1, h2, h2', h3⟩ := ht
        refine ⟨fun t' => ?_, h.nodup, h.waiting, h.cur, h.prev, h.old⟩
        by_cases e : t' = t
        · subst e
          simp only [if_true]
          exact h3.cast rfl rfl (by simp [holds]) rfl
        · simp only [e, if_false]
          exact (h.fine t').cast rfl rfl (by simp [holds, hc, Ne.symm e]) rfl
      · cases hz
    | unlockU =>
      cases hz
      obtain ⟨h1, h3⟩ := ht
      have h1 : x.u = some t := by simpa [holds] using h1
      refine ⟨fun t' => ?_, h.nodup, h.waiting, h.cur, h.prev, h.old⟩
      by_cases e : t' = t
      · subst e
        simp only [if_true]
        exact h3.cast rfl rfl (by simp [holds]) rfl
      · simp only [e, if_false]
        exact (h.fine t').cast rfl rfl (by simp [holds, h1, Ne.symm e]) rfl
    | lockGen =>
      cases hz
      refine ⟨fun t' => ?_, h.nodup, h.waiting, ?_, ?_, ?_⟩
      · by_cases e : t' = t
        · subst e
          simp only [if_true]
          exact Fine.cast ht rfl rfl rfl (by simp [holds, gensOf])
        · simp only [e, if_false]
          exact (h.fine t').cast rfl rfl rfl (by simp [holds, gensOf, Ne.symm e])
      · simp [Gentex.lock, h.cur]
      · simp [Gentex.lock, h.prev]
      · intro e he
        rcases List.mem_cons.1 he with rfl | he
        · exact Nat.le_refl _
        · exact h.old e he
    | unlockGen =>
      obtain ⟨h1, h3⟩ := ht
      obtain ⟨g, l, hg, hl⟩ := takeGen_some (t := t) h1
      simp only [exec, hg, Option.map_some, Option.some.injEq] at hz
      subst hz
      have hlen := fun (q : Nat × Nat → Bool) => (hl.filter q).length_eq
      have hc := h.cur
      have hv := h.prev
      rw [hlen] at hc hv
      refine ⟨fun t' => ?_, h.nodup, h.waiting, ?_, ?_, ?_⟩
      · by_cases e : t' = t
        · subst e
          simp only [if_true]
          exact h3.cast rfl rfl rfl (by simp [holds, gensOf, hlen])
        · simp only [e, if_false]
          exact (h.fine t').cast rfl rfl rfl (by simp [holds, gensOf, hlen, List.filter_cons, Ne.symm e])
      · by_cases e : g = x.g.gen
        · simp only [Gentex.unlock, e, if_true]
          rw [hc]
          simp [List.filter_cons, e]
        · simp only [Gentex.unlock, e, if_false]
          rw [hc]
          simp [List.filter_cons, e]
      · by_cases e : g = x.g.gen
        · simp only [Gentex.unlock, e, if_true]
          rw [hv]
          simp [List.filter_cons, e]
        · simp only [Gentex.unlock, e, if_false]
          rw [hv]
          simp [List.filter_cons, e]
      · intro e he
        have := h.old e (hl.symm.subset (List.mem_cons_of_mem _ he))
        simp only [Gentex.unlock]
        split <;> exact this
    | start =>
      cases hz
      obtain ⟨h1, h3⟩ := ht
      have hn : x.held.filter (fun e => e.2 == x.g.gen + 1) = [] := by
        refine List.filter_eq_nil_iff.2 fun e he => ?_
        have := h.old e he
        simp only [beq_iff_eq]
        omega
      have ha : x.held.filter (fun e => e.2 != x.g.gen + 1) = x.held := by
        refine List.filter_eq_self.2 fun e he => ?_
        have := h.old e he
        simp only [bne_iff_ne]
        omega
      refine ⟨fun t' => ?_, h.nodup, h.waiting, ?_, ?_, fun e he => Nat.le_succ_of_le (h.old e he)⟩
      · by_cases e : t' = t
        · subst e
          simp only [if_true]
          exact h3
        · simp only [e, if_false]
          exact h.fine t'
      · simp [Gentex.start, hn]
      · simp only [Gentex.start, ha]
        rw [h.cur, h.prev, Nat.add_comm]
        exact filter_length _ _
    | finish =>
      simp only [exec] at hz
      split at hz
      · cases hz
        obtain ⟨h1, h3⟩ := ht
        refine ⟨fun t' => ?_, h.nodup, h.waiting, h.cur, h.prev, h.old⟩
        by_cases e : t' = t
        · subst e
          simp only [if_true]
          exact h3
        · simp only [e, if_false]
          exact h.fine t'
      · cases hz

private theorem Inv.wait {x y : State} {t : Nat} (h : Inv x) (hs : wait x t = some y) : Inv y := by
  unfold Nested.wait at hs
  split at hs
  · split at hs
    · cases hs
    · rename_i hc
      cases hs
      refine ⟨h.fine, h.nodup, fun _ => ?_, h.cur, h.prev, h.old⟩
      by_cases e : x.owner = none
      · exact .inr fun e' => hc ⟨e, e'⟩
      · exact .inl e
  · cases hs

private theorem reach_inv {prog : Nat → List Step} {x : State} (hp : Program false prog) (h : Reach prog x) : Inv x := by
  induction h with
  | init =>
    refine ⟨fun t => ?_, .nil, fun h => (by cases h), rfl, rfl, fun e he => (by cases he)⟩
    have : Fine (prog t) (gens 0) := by
      by_cases e : t = 0
      · subst e; exact fine_flushes hp.1
      · have := fine_calls (hp.2 t e) 0 [] rfl
        rwa [List.append_nil] at this
    exact this
  | step h hs ih => exact ih.step hs
  | wait h hs ih => exact ih.wait hs

private theorem step_none {x : State} {t : Nat} (h : step x t = none) : x.prog t = [] ∨ ∃ s r, x.prog t = s :: r ∧ exec x t s = none := by
  unfold Nested.step at h
  cases hp : x.prog t with
  | nil => exact .inl rfl
  | cons s r =>
    rw [hp] at h
    exact .inr ⟨s, r, rfl, Option.map_eq_none_iff.1 h⟩

/-- C72: as long as callbacks that are invoked with `m_` locked do not call the store, there is no deadlock. -/
theorem C72_partial {prog : Nat → List Step} (hp : Program false prog) {x : State} (hr : Reach prog x) : ¬ Deadlock x := by
  rintro ⟨⟨t, ht⟩, hn⟩
  have h := reach_inv hp hr
  -- nobody owns `m_` exclusively
  have ho : x.owner = none := by
    cases e : x.owner with
    | none => rfl
    | some t =>
      exfalso
      have hf := h.fine t
      have hx : (holds x t).ex = true := by simp [holds, e]
      rcases step_none (hn t) with hp | ⟨s, r, hp, he⟩
      · rw [hp] at hf
        have hf : holds x t = gens 0 := hf
        rw [hf] at hx
        cases hx
      · rw [hp] at hf
        cases s with
        | share => exact absurd hx (by rw [hf.2.1]; decide)
        | excl => exact absurd hx (by rw [hf.2.1]; decide)
        | lockU => exact absurd hx (by rw [hf.2.1]; decide)
        | finish => rw [hf.1] at hx; cases hx
        | unlockGen =>
          obtain ⟨g, l, hg, _⟩ := takeGen_some (t := t) hf.1
          simp [exec, hg] at he
        | _ => cases he
  -- nor shared
  have hs : x.shared = [] := by
    cases e : x.shared with
    | nil => rfl
    | cons t l =>
      exfalso
      have hf := h.fine t
      have hx : (holds x t).sh = true := by simp [holds, e]
      rcases step_none (hn t) with hp | ⟨s, r, hp, he⟩
      · rw [hp] at hf
        have hf : holds x t = gens 0 := hf
        rw [hf] at hx
        cases hx
      · rw [hp] at hf
        cases s with
        | share => exact absurd hx (by rw [hf.1]; decide)
        | excl => exact absurd hx (by rw [hf.1]; decide)
        | lockU => exact absurd hx (by rw [hf.1]; decide)
        | finish => rw [hf.1] at hx; cases hx
        | unlockGen =>
          obtain ⟨g, l, hg, _⟩ := takeGen_some (t := t) hf.1
          simp [exec, hg] at he
        | _ => cases he
  have hw : x.waiting = false := by
    cases e : x.waiting with
    | false => rfl
    | true => rcases h.waiting e with h | h <;> contradiction
  -- nor `u_`
  have hu : x.u = none := by
    cases e : x.u with
    | none => rfl
    | some t =>
      exfalso
      have hf := h.fine t
      have hx : (holds x t).u = true := by simp [holds, e]
      rcases step_none (hn t) with hp | ⟨s, r, hp, he⟩
      · rw [hp] at hf
        have hf : holds x t = gens 0 := hf
        rw [hf] at hx
        cases hx
      · rw [hp] at hf
        cases s with
        | share => simp [exec, ho, hw] at he
        | excl => simp [exec, ho, hs] at he
        | lockU => exact absurd hx (by rw [hf.2.2.1]; decide)
        | finish => rw [hf.1] at hx; cases hx
        | unlockGen =>
          obtain ⟨g, l, hg, _⟩ := takeGen_some (t := t) hf.1
          simp [exec, hg] at he
        | _ => cases he
  -- hence everybody waits for generations
  have hall : ∀ t, x.prog t = [] ∨ (holds x t = gens 0 ∧ x.g.prev ≠ 0) := by
    intro t
    have hf := h.fine t
    rcases step_none (hn t) with hp | ⟨s, r, hp, he⟩
    · exact .inl hp
    · rw [hp] at hf
      cases s with
      | share => simp [exec, ho, hw] at he
      | excl => simp [exec, ho, hs] at he
      | lockU => simp [exec, hu] at he
      | finish => exact .inr ⟨hf.1, fun e => by simp [exec, e] at he⟩
      | unlockGen =>
        obtain ⟨g, l, hg, _⟩ := takeGen_some (t := t) hf.1
        simp [exec, hg] at he
      | _ => cases he
  -- but somebody holds one
  have hv : x.g.prev ≠ 0 := by
    rcases hall t with h | h
    · exact absurd h ht
    · exact h.2
  rw [h.prev] at hv
  obtain ⟨⟨t', g⟩, he⟩ := List.exists_mem_of_length_pos (Nat.pos_of_ne_zero hv)
  have hm := (List.mem_filter.1 he).1
  have hg : 0 < (holds x t').g := List.length_pos_of_mem (List.mem_filter.2 ⟨hm, by simp⟩)
  have h0 : holds x t' = gens 0 := by
    rcases hall t' with hp | hp
    · have := h.fine t'
      rwa [hp] at this
    · exact hp.1
  rw [h0] at hg
  exact Nat.lt_irrefl _ hg

private theorem exec_prog {x y : State} {t : Nat} {s : Step} (h : exec x t s = some y) : y.prog = x.prog := by
  cases s with
  | unlockGen =>
    simp only [exec, Option.map_eq_some_iff] at h
    obtain ⟨_, _, rfl⟩ := h
    rfl
  | share | excl | lockU | finish =>
    simp only [exec] at h
    split at h
    · cases h; rfl
    · cases h
  | _ => cases h; rfl

private theorem total_step {x y : State} {t : Nat} (h : step x t = some y) : ∀ N,
    total y.prog N + (if t < N then 1 else 0) = total x.prog N := by
  unfold Nested.step at h
  cases hp : x.prog t with
  | nil => rw [hp] at h; cases h
  | cons s r =>
    rw [hp] at h
    simp only [Option.map_eq_some_iff] at h
    obtain ⟨z, hz, rfl⟩ := h
    have hz := exec_prog hz
    intro N
    induction N with
    | zero => rfl
    | succ N ih =>
      simp only [total, hz] at ih ⊢
      by_cases e : N = t
      · subst e
        simp only [Nat.lt_irrefl, if_false, Nat.add_zero] at ih
        simp [ih, hp]
        omega
      · have : (t < N + 1) ↔ t < N := by omega
        simp only [this, e, if_false]
        omega

/-- C72: with finitely many threads, every execution comes to an end, and then all calls have returned. -/
theorem C72_returns_partial {prog : Nat → List Step} (hp : Program false prog) {N : Nat} (hN : ∀ t, N ≤ t → prog t = []) {n : Nat} {x : State}
    (hr : Runs prog n x) : n ≤ total prog N ∧ ((∀ t, step x t = none) → ∀ t, x.prog t = []) := by
  have key : Reach prog x ∧ (∀ t, N ≤ t → x.prog t = []) ∧ n + total x.prog N = total prog N := by
    induction hr with
    | init => exact ⟨.init, hN, Nat.zero_add _⟩
    | @step n t x y h hs ih =>
      obtain ⟨h1, h2, h3⟩ := ih
      have hlt : t < N := by
        refine Nat.lt_of_not_le fun hle => ?_
        simp [Nested.step, h2 t hle] at hs
      have ht := total_step hs N
      rw [if_pos hlt] at ht
      refine ⟨.step h1 hs, fun t' h' => ?_, by omega⟩
      have ht' := total_step hs (t' + 1)
      have ht'' := total_step hs t'
      rw [if_pos (by omega)] at ht' ht''
      simp only [total, h2 t' h', List.length_nil] at ht'
      exact List.length_eq_zero_iff.1 (by omega)
    | @wait n t x y h hs ih =>
      obtain ⟨h1, h2, h3⟩ := ih
      have : y.prog = x.prog := by
        unfold Nested.wait at hs
        split at hs
        · split at hs
          · cases hs
          · cases hs; rfl
        · cases hs
      exact ⟨.wait h1 hs, by rw [this]; exact h2, by rw [this]; exact h3⟩
  refine ⟨by omega, fun hn t => Classical.byContradiction fun h => C72_partial hp key.1 ⟨⟨t, h⟩, hn⟩⟩

/-- The callback of a `fetch` inserts a value. -/
private def fetchInsert : Nat → List Step
  | 1 => [.share, .lockU, .share, .unshare, .excl, .unexcl, .unlockU, .unshare]
  | _ => []

/-- C72 is false if the value is in memory: a callback that calls `insert` waits for the lock that `fetch` holds. There is no other
thread. -/
theorem C72_insert_violated : ∃ prog x, Program true prog ∧ (∀ t, t ≠ 1 → prog t = []) ∧ Reach prog x ∧ Deadlock x := by
  refine ⟨fetchInsert, _, ⟨.nil, fun t ht => ?_⟩, fun t ht => ?_, .step (t := 1) (.step (t := 1) (.step (t := 1) (.step (t := 1) .init rfl) rfl) rfl) rfl,
    ⟨1, by decide⟩, fun t => ?_⟩
  · unfold fetchInsert
    split
    · exact .fetchMem (.insertCache .nil) (fun h => by cases h) .nil
    · exact .nil
  · unfold fetchInsert
    split
    · contradiction
    · rfl
  · by_cases h : t = 1
    · subst h; rfl
    · have : fetchInsert t = [] := by
        unfold fetchInsert
        split
        · contradiction
        · rfl
      simp [Nested.step, initial, h, this]

/-- The callback of a `fetch` fetches another value, while `flush` is called. -/
private def fetchFetch : Nat → List Step
  | 0 => [.excl, .unexcl]
  | 1 => [.share, .share, .unshare, .unshare]
  | _ => []

/-- C72 is false if both values are in memory and a flush begins between the two calls: `flush` waits until the first call
releases the lock, and the second call waits until `flush` has had it. -/
theorem C72_fetch_violated : ∃ prog x, Program true prog ∧ (∀ t, 1 < t → prog t = []) ∧ Reach prog x ∧ Deadlock x := by
  refine ⟨fetchFetch, _, ⟨.short .nil, fun t ht => ?_⟩, fun t ht => ?_, .wait (t := 0) (.step (t := 1) .init rfl) rfl,
    ⟨1, by decide⟩, fun t => ?_⟩
  · unfold fetchFetch
    split
    · contradiction
    · exact .fetchMem (.fetchMem .nil (fun _ => rfl) .nil) (fun h => by cases h) .nil
    · exact .nil
  · unfold fetchFetch
    split
    · omega
    · omega
    · rfl
  · by_cases h : t = 1
    · subst h; rfl
    · by_cases h0 : t = 0
      · subst h0; rfl
      · have : fetchFetch t = [] := by
          unfold fetchFetch
          split
          · contradiction
          · contradiction
          · rfl
        simp [Nested.step, initial, h, this]

/-! ### The premises are satisfiable -/

/-- The callback of a `fetch` from the files inserts the value under another key, and fetches it from memory; another thread
inserts; `flush` runs. -/
private def nested : Nat → List Step
  | 0 => [.excl, .unexcl, .excl, .start, .unexcl, .finish, .excl, .unexcl]
  | 1 => .share :: .lockGen :: .unshare ::
      (.lockU :: .share :: .unshare :: .excl :: .unexcl :: .unlockU :: .share :: [] ++ .unshare :: []) ++ .unlockGen :: []
  | 2 => [.lockU, .share, .lockGen, .unshare, .unlockGen, .excl, .unexcl, .unlockU]
  | _ => []

example : Program false nested := by
  refine ⟨.full .nil, fun t ht => ?_⟩
  unfold nested
  split
  · contradiction
  · exact .fetchDisk (.insertCache (.fetchMem .nil (fun _ => rfl) .nil)) .nil
  · exact .insertDisk .nil
  · exact .nil

/-- A state in which `flush` waits for the generation held by the callback. -/
example : ∃ x, Reach nested x ∧ nested 0 ≠ [] ∧ Nested.step x 0 = none ∧ x.prog 0 = [.finish, .excl, .unexcl] :=
  ⟨_, .step (t := 0) (.step (t := 0) (.step (t := 0) (.step (t := 0) (.step (t := 0) (.step (t := 1) (.step (t := 1) (.step (t := 1)
    .init rfl) rfl) rfl) rfl) rfl) rfl) rfl) rfl, by simp [nested], rfl, rfl⟩

end NuDB.Nested
