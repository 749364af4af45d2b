import Verif.Proof.ConcFlusher
import Verif.Proof.Trace
/- The invariant holds at the beginning; consequences for histories. -/
namespace NuDB

open Spec Conc

section
variable {c : Cfg} {a : CreateArgs} {lf : Nat} {short : Prop} {s : Store} {fs : Fs} {m : Map}

theorem inv_sess {cf : Conf} {D K : Bytes} {recs : List Rec} {B : Nat} {view : View}
    (hS : Sess c cf s fs D K recs B view) (hp1 : s.p1 = [])
    (hcont : ∀ k : Bytes, k.length = cf.keySize → m k = kvOf (pairsOf recs) k) :
    Inv c cf m 0 0 False (Sys.init s fs) [] := by
  have hB := hS.buckets
  subst hB
  have hst : stored s recs = pairsOf recs := by
    unfold stored; rw [hp1, hS.p0]; simp [poolPairs]
  refine ⟨?_, ?_, ⟨Nat.le_refl _, Nat.le_refl _⟩, ⟨D, recs, view, ?_, fun _ => trivial⟩, ⟨List.Pairwise.nil, fun t => ?_⟩, fun t => ?_,
    ⟨fun t h e => ?_, [], [], List.Pairwise.nil, List.Pairwise.nil, rfl, rfl, fun t => ?_, fun t => ?_⟩⟩
  · intro t op r pre mid post hcall
    have := hcall.1
    simp at this
  · intro pre t k v post he
    simp at he
  · refine ⟨hS.ready, ?_, ?_, ?_, ?_, hS.thresh, ?_⟩
    · intro it hit
      simp only [Sys.init, hp1, hS.p0] at hit
      cases hit
    · simp only [Sys.init, hst]
      exact hS.db.dat.nodup
    · intro k hk
      simp only [Sys.init, hst]
      exact hcont k hk
    · intro e he
      simp only [Sys.init, hS.ec] at he
      cases he
    · refine .inr ⟨⟨hS.ec, hS.modulus, [], List.prefix_refl _, rfl, fun k hk => (hcont k hk).symm⟩, hS.c1, hS.p0, K, hS.db, hS.idle⟩
  · simp [Sys.init, isC]
  · simp [Sys.init, holdsU]
  · simp [Sys.init, genOf] at e
  · simp [Sys.init, genOf]
  · simp [Sys.init, genOf]

theorem inv_init (hc : Creatable a lf) (h : Started c a short s fs m) :
    Inv c (a.conf lf) m 0 0 False (Sys.init s fs) [] := by
  obtain ⟨⟨t, hr⟩, hec, hp1, hm⟩ := h
  obtain ⟨st, _, hrel⟩ := simulation hc hr
  cases hrel with
  | failed he => rw [hec] at he; cases he
  | @opened _ _ D K recs B view hS base hz hf =>
    refine inv_sess hS hp1 fun k hk => ?_
    have hlook := hS.lookups
    have hps : poolPairs s.p1 = [] := by rw [hp1]; rfl
    rw [hps, List.append_nil] at hlook
    have e1 := hm ⟨fs, 0, []⟩ rfl k hk
    have e2 := hlook ⟨fs, 0, []⟩ rfl k hk
    rw [e1] at e2
    cases h1 : m k with
    | none =>
      cases h2 : kvOf (pairsOf recs) k with
      | none => rfl
      | some v => rw [h1, h2] at e2; cases e2
    | some u =>
      cases h2 : kvOf (pairsOf recs) k with
      | none => rw [h1, h2] at e2; cases e2
      | some v => rw [h1, h2] at e2; cases e2; rfl

theorem inv_reached (hc : Creatable a lf) (h : Started c a short s fs m) {acts : List Act} {x : Sys} {tr : List Ev}
    (hr : run c acts (Sys.init s fs) = some (x, tr)) :
    ∃ lo nx, Inv c (a.conf lf) m lo nx (Faults acts) x tr := by
  obtain ⟨lo, nx, this⟩ := inv_run (inv_init hc h) hr
  rw [List.nil_append] at this
  exact ⟨lo, nx, this.mono (fun h => h.resolve_left id)⟩

end

section
variable {m : Map} {tr : List Ev} {k v : Bytes} {t : Nat} {F : Prop}

/-- What is present stays. -/
theorem Spec.Owned.stays (h : Owned m tr) : ∀ {b a : List Ev}, tr = a ++ b → contents m a k = some v →
    contents m tr k = some v := by
  intro b
  induction b with
  | nil => intro a he hc; rw [he, List.append_nil]; exact hc
  | cons e b ih =>
    intro a he hc
    have key : contents m (a ++ [e]) k = some v := by
      rw [contents_append]
      cases e with
      | call => exact hc
      | ret => exact hc
      | added t' k' v' =>
        show (contents m a).add k' v' k = some v
        unfold Map.add
        by_cases hk : k = k'
        · subst hk
          have := (h a t' k v' b he).1
          rw [hc] at this; cases this
        · rw [if_neg hk]; exact hc
    exact ih (by rw [he]; simp) key

theorem Spec.Owned.prefix (h : Owned m tr) {a : List Ev} (ha : a <+: tr) : Owned m a := by
  obtain ⟨b, rfl⟩ := ha
  intro pre t k v post he
  exact h pre t k v (post ++ b) (by rw [he]; simp)

theorem Spec.Owned.stays_to (h : Owned m tr) {a b : List Ev} (hb : b <+: tr) (hab : a <+: b)
    (hc : contents m a k = some v) : contents m b k = some v := by
  obtain ⟨l, rfl⟩ := hab
  exact (h.prefix hb).stays rfl hc

/-- What appears was added. -/
theorem contents_some : ∀ {tr : List Ev}, m k = none → contents m tr k ≠ none →
    ∃ pre t v post, tr = pre ++ .added t k v :: post := by
  intro tr
  induction tr generalizing m with
  | nil => intro h1 h2; exact absurd h1 h2
  | cons e tr ih =>
    intro h1 h2
    cases e with
    | call =>
      obtain ⟨pre, t, v, post, h⟩ := ih h1 h2
      exact ⟨_ :: pre, t, v, post, by rw [h]; rfl⟩
    | ret =>
      obtain ⟨pre, t, v, post, h⟩ := ih h1 h2
      exact ⟨_ :: pre, t, v, post, by rw [h]; rfl⟩
    | added t' k' v' =>
      by_cases hk : k = k'
      · subst hk; exact ⟨[], t', v', tr, rfl⟩
      · obtain ⟨pre, t, v, post, h⟩ := ih (m := m.add k' v') (by unfold Map.add; rw [if_neg hk]; exact h1) h2
        exact ⟨_ :: pre, t, v, post, by rw [h]; rfl⟩

theorem contents_at (m : Map) (pre : List Ev) (t : Nat) (k v : Bytes) :
    contents m (pre ++ [.added t k v]) k = some v := by
  rw [contents_added]; simp [Map.add]

/-- The same key is added at most once. -/
theorem Spec.Owned.once (h : Owned m tr) {p p' q q' : List Ev} {t t' : Nat} {v v' : Bytes}
    (h1 : tr = p ++ .added t k v :: q) (h2 : tr = p' ++ .added t' k v' :: q') : p = p' ∧ t = t' ∧ v = v' ∧ q = q' := by
  have key : ∀ {p p' q q' : List Ev} {t t' : Nat} {v v' : Bytes}, tr = p ++ .added t k v :: q →
      tr = p' ++ .added t' k v' :: q' → ∀ e l, p' = p ++ e :: l → False := by
    intro p p' q q' t t' v v' h1 h2 e l he
    have e1 : e = .added t k v := by
      rw [h1, he] at h2
      simp at h2
      exact h2.1.symm
    subst e1
    have c1 := (h p' t' k v' q' h2).1
    have c2 := h.stays_to (a := p ++ [.added t k v]) (b := p') ⟨_, h2.symm⟩ ⟨l, by rw [he]; simp⟩ (contents_at ..)
    rw [c1] at c2; cases c2
  rw [h1] at h2
  rcases List.append_eq_append_iff.mp h2 with ⟨l, e1, e2⟩ | ⟨l, e1, e2⟩
  · cases l with
    | nil =>
      simp at e1 e2
      obtain ⟨⟨rfl, rfl⟩, rfl⟩ := e2
      exact ⟨e1.symm, rfl, rfl, rfl⟩
    | cons e l => exact (key h1 (h1.trans h2) e l e1).elim
  · cases l with
    | nil =>
      simp at e1 e2
      obtain ⟨⟨rfl, rfl⟩, rfl⟩ := e2
      exact ⟨e1, rfl, rfl, rfl⟩
    | cons e l => exact (key (h1.trans h2) h1 e l e1).elim

/-- A successful insert has added its pair. -/
theorem Spec.Right.done {op : COp} {pre mid : List Ev} (h : Right m F t op .done pre mid) :
    ∃ k v a b, op = .insert k v ∧ mid = a ++ .added t k v :: b := by
  cases h with
  | answer a b h hs ha =>
    cases op with
    | fetch k =>
      unfold Answer at ha
      simp only at ha
      split at ha <;> cases ha
    | insert k v => cases ha.1
  | added k v a b h h1 h2 ho hr ha => exact ⟨k, v, a, b, ho, h⟩
  | failed hs hr => cases hr

end

end NuDB
