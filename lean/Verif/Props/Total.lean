import Verif.Props.Atomic
import Verif.Proof.Cost
/-
C15 and C16: lookups end, and nothing undefined happens on files made by the library.
-/
namespace NuDB

open Spec

section
variable {c : Cfg} {a : CreateArgs} {lf : Nat} {short : Prop}

theorem perform_flush_error {s : Store} {σ : Schedule} {w w' : World} {x : Exc}
    (h : flush c s σ w = (.error x, w')) : perform c .flush (some s) σ w = (.error x, w') := by
  simp only [perform, bind, M.bind, h]

/-- C15: `fetch` and `insert` on an open store come to an end, whatever the environment
does: they never run around in a chain of overflow buckets, and the number of their file
operations is bounded in terms of the size of the data file. -/
theorem C15_lookups_end {t : List Label} {s : Store} {fs : Fs} {f : FileSt} (hc : Creatable a lf)
    (hr : Reachable c a short t (some s, fs)) (hd : fs .dat = some f) (σ : Schedule) (w : World) (hw : w.fs = fs) :
    (∀ k : Bytes, k.length = a.keySize → (fetch c s k σ w).1 ≠ .error .hang ∧
      (fetch c s k σ w).2.clock ≤ w.clock + (1 + (f.cur.length + 2) * 65537)) ∧
    (∀ k v : Bytes, k.length = a.keySize → 1 ≤ v.length → v.length < 2 ^ 32 → (insert c s k v σ w).1 ≠ .error .hang ∧
      (insert c s k v σ w).2.clock ≤ w.clock + (1 + (f.cur.length + 2) * 65537)) := by
  have hl : datLen w.fs = f.cur.length := by unfold datLen; rw [hw, hd]
  obtain ⟨st, _, hR⟩ := simulation hc hr
  have out : ∀ {α : Type} {m : M α} {Q : α → World → Prop}, wp σ m Q (fun x _ => x ≠ .hang) w → (m σ w).1 ≠ .error .hang := by
    intro α m Q h e
    unfold wp at h
    split at h
    · rename_i e'; rw [e'] at e; cases e
    · rename_i e'; rw [e'] at e; cases e; exact h rfl
  subst hw
  refine ⟨fun k hk => ⟨?_, ?_⟩, fun k v hk h1 h2 => ⟨?_, ?_⟩⟩
  · cases hR with
    | opened hS hz hf =>
      apply out (Q := fun _ _ => True)
      apply wp_fetch hS.ready hS.ec hk
      · intros; trivial
      · intros; simp
      · rintro x w' (rfl | rfl) _ _ <;> simp
    | failed he => unfold fetch; rw [he]; simp [M.fail, M.raise]
  · rw [← hl]; exact fetch_clock s k σ w
  · cases hR with
    | opened hS hz hf =>
      apply out (Q := fun _ _ => True)
      apply wp_insert hS hk h1 h2
      · intros; trivial
      · intros; simp
      · rintro x w' (rfl | rfl) _ _ <;> simp
    | failed he => unfold insert; rw [he]; simp [M.fail, M.raise]
  · rw [← hl]; exact insert_clock s k v σ w

/-- The premises of C15 hold after a part of the history of C01. -/
example : ∃ t s fs f, Creatable demoArgs 32768 ∧ Reachable demoCfg demoArgs False t (some s, fs) ∧
    fs .dat = some f := by
  obtain ⟨t, s, w, w₁, h1, _⟩ := demo_crash
  obtain ⟨st, _, hR⟩ := simulation demo_creatable h1
  obtain ⟨f, hf⟩ : ∃ f, w.fs .dat = some f := by
    cases hR with
    | opened hS => obtain ⟨f, h, _⟩ := hS.idle.dat; exact ⟨f, h⟩
    | failed _ _ _ h => cases h <;> exact ⟨_, ‹w.fs .dat = some _›⟩
  exact ⟨t, s, w.fs, f, demo_creatable, h1, hf⟩

/-- C16 in part: no call on files made by the library leaves the defined behaviour: it
ends with a result, or it dies because the environment kills it. There is no undefined
behaviour and no endless loop. An assertion fails only if the data file comes within
2^33 bytes of 2^48 (the exact limit except for what is still in the write buffer), or after
2^32 insertions. Missing: the assertion in `bucket_index` on the number of buckets, which
can fail after 2^32 insertions even though the data file is smaller. -/
theorem C16_defined_partial {t : List Label} {so : Option Store} {fs : Fs} {op : Op} {σ : Schedule} {w w' : World}
    {x : Exc} (hc : Creatable a lf) (hr : Reachable c a short t (so, fs)) (ha : Allowed a.keySize op so)
    (hm : Mild a.blockSize short σ op so) (hw : w.fs = fs) (h : perform c op so σ w = (.error x, w')) :
    (x = .crash ∧ Disturbed σ) ∨ (x = .abort ∧ (2 ^ 32 ≤ (inserted t).length ∨ Big w'.fs)) := by
  obtain ⟨st, _, hR⟩ := simulation hc hr
  have h1 := wp_elim_error (perform_sound (creatable_ok hc).1 hR ha hm hw) h
  rcases h1.1 with ⟨rfl, hf⟩ | ⟨rfl, _, hb⟩
  · exact .inl ⟨rfl, hf⟩
  · refine .inr ⟨rfl, ?_⟩
    by_cases hl : 2 ^ 32 ≤ (inserted t).length
    · exact .inl hl
    · exact .inr (hb (.inl (by omega)))

/-- C16 for `recover`: it fails only because of the environment. -/
theorem C16_recover {t : List Label} {fs : Fs} {σ : Schedule} {w w' : World} {x : Exc} (hc : Creatable a lf)
    (hr : Reachable c a short t (none, fs)) (hσ : (∀ i k, σ i ≠ .fail k) ∨ short) (hw : w.fs = fs)
    (h : recover c σ w = (.error x, w')) : (x = .crash ∨ x = .err .io) ∧ Disturbed σ := by
  obtain ⟨st, _, hR⟩ := simulation hc hr
  cases hR with
  | @closed _ L m₀ m₁ hL h1 =>
    subst hw
    have := wp_elim_error (wp_recover (σ := σ) GoalM.db (hσ.imp_right hL) h1 (Q := fun _ _ => True)
      (fun _ _ _ _ _ _ => trivial)) h
    rcases this.2 with h | h
    · exact h
    · exact absurd trivial h.2.1

/-- The premises of C16 hold for a flush that dies. -/
example : ∃ t s fs σ w w' x, Creatable demoArgs 32768 ∧ Reachable demoCfg demoArgs False t (some s, fs) ∧
    Allowed demoArgs.keySize .flush (some s) ∧ Mild demoArgs.blockSize False σ .flush (some s) ∧ w.fs = fs ∧
    perform demoCfg .flush (some s) σ w = (.error x, w') := by
  obtain ⟨t, s, w, w₁, h1, h2, h3, h4, w₂, h5⟩ := demo_crash
  exact ⟨t, s, w.fs, _, w, w₁, .crash, demo_creatable, h1, trivial, ⟨fun h => (by cases h), fun h => h.elim⟩, rfl,
    perform_flush_error h4⟩

end

end NuDB
