import Verif.Proof.Trace
/- Databases that are closed and have no log file. -/
namespace NuDB

open Spec

variable {c : Cfg} {a : CreateArgs} {lf : Nat} {short : Prop}

/-- The files determine what lookups answer. -/
theorem Spec.Answers.unique {n : Nat} {fs : Fs} {m m' : Map} (h : Answers c n fs m) (h' : Answers c n fs m')
    {k : Bytes} (hk : k.length = n) : m k = m' k := by
  obtain ⟨w₁, s, w₂, h1, h2, h3⟩ := h
  obtain ⟨w₁', s', w₂', h1', h2', h3'⟩ := h'
  rw [h1] at h1'; cases h1'
  rw [h2] at h2'; cases h2'
  have e := (h3 w₂ rfl k hk).symm.trans (h3' w₂ rfl k hk)
  cases e1 : m k <;> cases e2 : m' k <;> rw [e1, e2] at e <;> simp at e ⊢
  exact e

/-- A closed database without log file. -/
structure Settled (c : Cfg) (cf : Conf) (fs : Fs) (D K : Bytes) (recs : List Rec) (B : Nat) (view : View) : Prop where
  closed : Closed D K fs
  db : Db c cf D K recs B view
  map : Answers c cf.keySize fs (kvOf (pairsOf recs))

theorem settled {t : List Label} {fs : Fs} (hc : Creatable a lf) (hr : Reachable c a short t (none, fs))
    (hl : fs .log = none) : ∃ D K recs B view, Settled c (a.conf lf) fs D K recs B view ∧
      (pairsOf recs).length ≤ (inserted t).length := by
  obtain ⟨st, _, hR⟩ := simulation hc hr
  cases hR with
  | closed hL hs =>
    cases hs with
    | clear df kf D K hd hk _ hg sd sk =>
      obtain ⟨recs, B, view, h1, ⟨base, _, h3⟩, _⟩ := hg
      have hC : Closed D K fs := ⟨⟨df, hd, sd⟩, ⟨kf, hk, sk⟩, hl⟩
      have hs1 : Safe c (a.conf lf) 0 (fun D' K' => D' = D ∧ K' = K) fs := hC.safe ⟨rfl, rfl⟩
      obtain ⟨D', K', ⟨rfl, rfl⟩, h⟩ := hs1.answers (by rintro _ _ ⟨rfl, rfl⟩; exact ⟨recs, B, view, h1⟩)
      exact ⟨_, _, recs, B, view, ⟨hC, h1, h _ _ _ h1⟩, h3.right.len⟩
    | short _ _ _ _ _ _ _ hl' => rw [hl] at hl'; cases hl'
    | long _ _ _ _ _ _ _ hl' => rw [hl] at hl'; cases hl'

end NuDB
