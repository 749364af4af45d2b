import Verif.Proof.ConcUse
/- No thread and no flusher gets stuck. -/
namespace NuDB

open Spec Conc

section
variable {c : Cfg} {cf : Conf} {m : Map} {lo nx : Nat} {F : Prop} {x y : Sys} {tr : List Ev} {t : Nat}

/-- A reader has a result, an error, or something to read. -/
theorem reader_next {B : Option (Nat × Bytes)} {D : Bytes} {p : Prog α} {res : Except Exc α} (h : Outcome F B D p res)
    (hg : (∃ a, res = .ok a) ∨ res = .error (.err .key_not_found)) :
    (∃ a, p = .ret a) ∨ (∃ e, p = .raise (.err e)) ∨ ∃ q o n k, p = .read q o n k := by
  rcases h with ⟨_, rfl⟩ | h
  · exact .inr (.inl ⟨_, rfl⟩)
  · subst h
    cases p with
    | ret a => exact .inl ⟨a, rfl⟩
    | raise e =>
      rcases hg with ⟨a, h⟩ | h
      · cases h
      · cases h; exact .inr (.inl ⟨_, rfl⟩)
    | read q o n k => exact .inr (.inr ⟨q, o, n, k, rfl⟩)
    | _ => rcases hg with ⟨a, h⟩ | h <;> cases h

theorem resOf_cases (o : Option Bytes) : (∃ a, resOf o = .ok a) ∨ resOf o = .error (.err .key_not_found) := by
  cases o with
  | none => exact .inr rfl
  | some v => exact .inl ⟨v, rfl⟩

theorem able_thread (h : Inv c cf m lo nx F x tr) (hp : x.pc t ≠ .out) :
    (∃ z, step c x (.go t .none) = some z) ∨ (∃ k v, x.pc t = .ins1 k v ∧ x.owner ≠ none) ∨
    (∃ k v, x.pc t = .ins3 k v ∧ x.shared ≠ []) := by
  obtain ⟨D, recs, view, hcore, hth⟩ := h.core
  have ht := hth t
  have hb : ∀ k, ∃ n, bucketIndexA (hashKey c.H x.s.kh.salt k) x.s.buckets x.s.modulus = .ok n := by
    intro k
    rw [bucketIndexA_ok hcore.ready.mle]
    exact ⟨_, rfl⟩
  simp only [step, Fault.mild, if_true, threadStep]
  cases hpc : x.pc t with
  | out => exact absurd hpc hp
  | ret r => exact .inl ⟨_, rfl⟩
  | fetch0 k => left; simp only; split <;> exact ⟨_, rfl⟩
  | fetch1 k =>
    left
    obtain ⟨n, hn⟩ := hb k
    simp only [fetchLocked, hn]
    split
    · exact ⟨_, rfl⟩
    · split
      · exact ⟨_, rfl⟩
      · split <;> exact ⟨_, rfl⟩
  | fetchC k n blob p =>
    left
    rw [hpc] at ht
    obtain ⟨_, _, _, _, _, _, ho⟩ := ht
    rcases reader_next ho (resOf_cases _) with ⟨a, rfl⟩ | ⟨e, rfl⟩ | ⟨q, o, n, k, rfl⟩ <;> exact ⟨_, rfl⟩
  | fetchK k n g p =>
    left
    rw [hpc] at ht
    obtain ⟨_, _, _, _, _, _, _, _, ho⟩ := ht
    rcases reader_next ho (resOf_cases _) with ⟨a, rfl⟩ | ⟨e, rfl⟩ | ⟨q, o, n, k, rfl⟩ <;> exact ⟨_, rfl⟩
  | ins0 k v => left; simp only; split <;> exact ⟨_, rfl⟩
  | ins1 k v =>
    cases ho : x.owner with
    | none => left; exact ⟨_, rfl⟩
    | some u => right; left; exact ⟨k, v, rfl, by simp⟩
  | ins2 k v =>
    left
    obtain ⟨n, hn⟩ := hb k
    simp only [insertLocked, hn]
    split
    · exact ⟨_, rfl⟩
    · split <;> exact ⟨_, rfl⟩
  | insC k v n blob p rest =>
    left
    rw [hpc] at ht
    obtain ⟨_, _, _, ho⟩ := ht
    rcases ho with ⟨_, rfl⟩ | ho
    · exact ⟨_, rfl⟩
    · cases p with
      | ret b => cases b <;> exact ⟨_, rfl⟩
      | raise e => cases ho
      | read q o n k => exact ⟨_, rfl⟩
      | _ => cases ho
  | insS k v p =>
    left
    rw [hpc] at ht
    obtain ⟨_, _, ho⟩ := ht
    rcases reader_next ho (.inl ⟨_, rfl⟩) with ⟨a, rfl⟩ | ⟨e, rfl⟩ | ⟨q, o, n, k, rfl⟩
    · cases a <;> exact ⟨_, rfl⟩
    · exact ⟨_, rfl⟩
    · exact ⟨_, rfl⟩
  | insK k v n g p =>
    left
    rw [hpc] at ht
    obtain ⟨_, _, _, _, _, ho⟩ := ht
    rcases reader_next ho (.inl ⟨_, rfl⟩) with ⟨a, rfl⟩ | ⟨e, rfl⟩ | ⟨q, o, n, k, rfl⟩
    · cases a <;> exact ⟨_, rfl⟩
    · exact ⟨_, rfl⟩
    · exact ⟨_, rfl⟩
  | ins3 k v =>
    by_cases hsh : x.shared = []
    · left
      rw [hpc] at ht
      obtain ⟨hkv, _, hn⟩ := ht
      rw [hcore.cont k hkv.1] at hn
      have hpn : x.s.p1.find k = none := by
        cases hf : x.s.p1.find k with
        | none => rfl
        | some it => rw [(stored_find hcore).1 it hf] at hn; cases hn
      have hins : x.s.p1.insert ⟨hashKey c.H x.s.kh.salt k, k, v⟩ =
          .ok (x.s.p1.place ⟨hashKey c.H x.s.kh.salt k, k, v⟩) := by
        unfold Pool.insert
        simp only [hpn, Option.isNone_none, assert_ok, bind, Except.bind, pure, Except.pure]
      simp only [hsh, if_true, hins]
      exact ⟨_, rfl⟩
    · right; right; exact ⟨k, v, rfl, hsh⟩

/-- A thread holding `m_` shared can go on. -/
theorem able_shared (h : Inv c cf m lo nx F x tr) (hs : x.shared ≠ []) :
    ∃ u, isC (x.pc u) = true ∧ ∃ z, step c x (.go u .none) = some z := by
  cases hl : x.shared with
  | nil => exact absurd hl hs
  | cons u l =>
    have hi := (h.sh.iff u).mp (by rw [hl]; simp)
    refine ⟨u, hi, ?_⟩
    rcases able_thread h (t := u) (by intro e; rw [e] at hi; cases hi) with h1 | ⟨k, v, e, _⟩ | ⟨k, v, e, _⟩
    · exact h1
    · rw [e] at hi; cases hi
    · rw [e] at hi; cases hi

theorem able_some (h : Inv c cf m lo nx F x tr) (hp : x.pc t ≠ .out) : ∃ u, x.pc u ≠ .out ∧ ∃ z, step c x (.go u .none) = some z := by
  have shared : x.shared ≠ [] → ∃ u, x.pc u ≠ .out ∧ ∃ z, step c x (.go u .none) = some z := by
    intro hs
    obtain ⟨u, h1, h2⟩ := able_shared h hs
    exact ⟨u, (by intro e; rw [e] at h1; cases h1), h2⟩
  rcases able_thread h hp with h1 | ⟨k, v, _, ho⟩ | ⟨k, v, _, hs⟩
  · exact ⟨t, hp, h1⟩
  · obtain ⟨u, hu⟩ := Option.ne_none_iff_exists'.mp ho
    have hU := (h.ow u).mp hu
    have hne : x.pc u ≠ .out := by intro e; rw [e] at hU; cases hU
    rcases able_thread h hne with h1 | ⟨k, v, e, _⟩ | ⟨k, v, _, hs⟩
    · exact ⟨u, hne, h1⟩
    · rw [e] at hU; cases hU
    · exact shared hs
  · exact shared hs

/-- The flusher ran into the limits of the file format. -/
def AtLimit (x : Sys) : Prop :=
  2 ^ 32 < x.s.buckets + x.s.p0.length ∨ Big x.fs

theorem able_flusher (h : Inv c cf m lo nx F x tr) (hF : ¬ F) (hfl : x.fl ≠ .idle) :
    (∃ z, step c x (.goF .none) = some z) ∨ x.shared ≠ [] ∨ Waiting c x ∨ AtLimit x := by
  obtain ⟨D, recs, view, hcore, hth⟩ := h.core
  have hok := hcore.fl
  unfold FlOk at hok
  simp only [step, Fault.mild, if_true, flusherStep]
  cases e : x.fl with
  | idle => exact absurd e hfl
  | prep p =>
    rw [e] at hok
    cases p with
    | ret w =>
      by_cases hsh : x.shared = []
      · left; simp only [hsh, if_true]; exact ⟨_, rfl⟩
      · exact .inr (.inl hsh)
    | raise ex =>
      rcases hok.2 with ⟨h1, _⟩ | ⟨_, _, _, _, K, _, _, h7⟩
      · exact absurd (hcore.ec _ h1).2 hF
      · have := (h7 hF).raise rfl
        refine .inr (.inr (.inr ?_))
        by_cases hb : x.s.buckets + x.s.p0.length ≤ 2 ^ 32
        · exact .inr (this.2 hb)
        · exact .inl (by omega)
    | _ => exact .inl ⟨_, rfl⟩
  | log p =>
    rw [e] at hok
    obtain ⟨hu, _, h2, h3, h4, h5⟩ := hok
    cases p with
    | ret w =>
      by_cases hp : x.g.prev = 0
      · left; simp only [hp, if_true]; exact ⟨_, rfl⟩
      · right; right; left
        refine ⟨⟨w, e⟩, ?_⟩
        simp [step, Fault.mild, flusherStep, e, hp]
    | raise ex =>
      have := (h5 hF).raise rfl
      exact this.2.elim
    | _ => exact .inl ⟨_, rfl⟩
  | keys p =>
    rw [e] at hok
    obtain ⟨hu, _, h2, h4, h5⟩ := hok
    cases p with
    | ret w =>
      by_cases hsh : x.shared = []
      · left; simp only [hsh, if_true]; exact ⟨_, rfl⟩
      · exact .inr (.inl hsh)
    | raise ex =>
      have := (h5 hF).raise rfl
      exact this.2.elim
    | _ => exact .inl ⟨_, rfl⟩

end

end NuDB
