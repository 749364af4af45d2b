import Verif.Props.Demo
import Verif.Spec.KeyLayout
/-
C21, C22, C23: choice of buckets and growth of the table.
-/
namespace NuDB

open Spec

theorem ceilPow2_is {n : Nat} (h0 : 1 ≤ n) (h64 : n < 2 ^ 64) : IsCeilPow2 n (ceilPow2 n) := by
  have h := ceilPow2_isModulus h0 h64
  obtain ⟨k, hk⟩ := h.1
  refine ⟨h.1, h.2.2, ?_⟩
  intro j hj
  have h2 := h.2.1
  rw [hk] at h2 ⊢
  apply Nat.pow_le_pow_right (by omega)
  apply Classical.byContradiction
  intro hlt
  have h3 : 2 ^ (j + 1) ≤ 2 ^ k := Nat.pow_le_pow_right (by omega) (by omega)
  rw [Nat.pow_succ] at h3
  omega

/-- C21: `ceil_pow2` computes the power of two, `bucket_index` yields an existing bucket. -/
theorem C21_in_range {n : Nat} (h0 : 1 ≤ n) (h64 : n < 2 ^ 64) (h : Nat) :
    IsCeilPow2 n (ceilPow2 n) ∧ bucketIndex h n (ceilPow2 n) < n ∧ Addressed h n (bucketIndex h n (ceilPow2 n)) := by
  have hm := ceilPow2_isModulus h0 h64
  refine ⟨ceilPow2_is h0 h64, bucketIndex_lt h0 hm h, ceilPow2 n, ceilPow2_is h0 h64, ?_⟩
  unfold bucketIndex
  simp only
  by_cases hc : h % ceilPow2 n ≥ n
  · right
    rw [if_pos hc]
    have hp := hm.pos h0
    have : h % ceilPow2 n < ceilPow2 n := Nat.mod_lt _ (by omega)
    have h2 := hm.2.1
    exact ⟨hc, by omega⟩
  · left
    rw [if_neg hc]
    exact ⟨by omega, rfl⟩

/-- C21: when the table grows from `n` to `n + 1` buckets an item stays where it is, or moves
from the bucket that is split (the number `n` less half of the new modulus) to the new last
bucket. The modulus is updated as in `commit`. -/
theorem C21_growth {n : Nat} (h0 : 1 ≤ n) (h64 : n + 1 < 2 ^ 64) (h : Nat) :
    let m := ceilPow2 n
    let m' := if n = m then m * 2 else m
    m' = ceilPow2 (n + 1) ∧ n - m' / 2 < n ∧
    (bucketIndex h (n + 1) m' = bucketIndex h n m ∨
     (bucketIndex h n m = n - m' / 2 ∧ bucketIndex h (n + 1) m' = n)) := by
  have hm := ceilPow2_isModulus h0 (by omega)
  refine ⟨IsModulus.eq_ceilPow2 (by omega) h64 (hm.next h0), ?_, ?_⟩
  · have h1 := (hm.next h0).2.2
    show n - nextModulus n (ceilPow2 n) / 2 < n
    omega
  · rcases bucketIndex_grow h0 hm h with h1 | h1
    · exact .inl h1.1
    · exact .inr ⟨h1.2, h1.1⟩

/-- With five buckets hashes 6 and 13 are in buckets 2 and 1; the sixth bucket takes 13 away. -/
example : ceilPow2 5 = 8 ∧ bucketIndex 6 5 8 = 2 ∧ bucketIndex 13 5 8 = 1 ∧
    bucketIndex 6 6 8 = 2 ∧ bucketIndex 13 6 8 = 5 ∧ 5 - 8 / 2 = 1 := by decide

section
variable {c : Cfg} {a : CreateArgs} {lf : Nat} {short : Prop}

/-- C22: in every state of a working store the parameters in memory are those that can be
computed from the size of the key file. -/
theorem C22_matches_file {t : List Label} {s : Store} {fs : Fs} {K : Bytes} (hc : Creatable a lf)
    (hr : Reachable c a short t (some s, fs)) (he : s.ec = none) (hK : bytesOf fs .key = some K) :
    K.length = (s.buckets + 1) * a.blockSize ∧ IsCeilPow2 s.buckets s.modulus ∧ s.modulus = ceilPow2 s.buckets := by
  obtain ⟨st, _, hR⟩ := simulation hc hr
  cases hR with
  | @opened _ _ D0 K0 recs B view hS base hz hf =>
    obtain ⟨kf, k1, k2⟩ := hS.idle.key
    obtain rfl : K0 = K := by simpa [bytesOf, k1, k2.cur] using hK
    have h2 := hS.db.b2
    rw [hS.buckets, hS.modulus]
    exact ⟨hS.db.key.len, ceilPow2_is hS.db.b1 (by omega), rfl⟩
  | failed h => rw [he] at h; cases h

theorem open_same {cf : Conf} {s s' : Store} {w w' : World} {D K : Bytes} {recs : List Rec} {B : Nat} {view : View}
    {σ : Schedule} (hS : Sess c cf s w.fs D K recs B view) {w₀ : World}
    (hs : Safe c cf 0 (fun D K => ∃ recs view, Db c cf D K recs B view) w₀.fs)
    (h : openStore c σ w₀ = (.ok s', w')) : s'.buckets = s.buckets ∧ s'.modulus = s.modulus := by
  have key := wp_elim (wp_open (by rintro D K ⟨recs, view, h⟩; exact ⟨recs, B, view, h⟩) (.inr (Nat.zero_le _)) hs
    (Q := fun s' _ => s'.buckets = B ∧ s'.modulus = ceilPow2 B)
    (by
      rintro s' w' D K _ _ _ ⟨recs, view, hdb⟩ _ h2 _ _ _ _
      have h3 := h2 _ _ _ hdb
      exact ⟨h3.buckets, h3.modulus⟩)) h
  rw [hS.buckets, hS.modulus]
  exact key

/-- C22: a session that starts on the files of a store that was not in the middle of a flush
(be it that the process was killed or that power was lost) addresses buckets as that store did. -/
theorem C22_reopen {t : List Label} {s s' : Store} {fs : Fs} {w w' : World} {σ : Schedule} (hc : Creatable a lf)
    (hr : Reachable c a short t (some s, fs)) (he : s.ec = none) (hw : Restart fs w.fs)
    (h : openStore c σ w = (.ok s', w')) : s'.buckets = s.buckets ∧ s'.modulus = s.modulus := by
  obtain ⟨st, _, hR⟩ := simulation hc hr
  cases hR with
  | @opened _ _ D0 K0 recs B view hS base hz hf =>
    exact open_same (w := ⟨fs, 0, []⟩) hS ((hS.idle.safe ⟨recs, view, hS.db⟩).restart hw) h
  | failed h => rw [he] at h; cases h

/-- C22: likewise after `close`. (`close` flushes; the parameters that count are those after
that flush, so let there be nothing left to flush.) -/
theorem C22_close {t : List Label} {s s' : Store} {w w₁ w₂ w' : World} {σ σ' : Schedule} (hc : Creatable a lf)
    (hr : Reachable c a short t (some s, w.fs)) (he : s.ec = none) (hp : s.p1 = [])
    (hcl : close c s σ w = (.ok none, w₁)) (hw : Restart w₁.fs w₂.fs)
    (h : openStore c σ' w₂ = (.ok s', w')) : s'.buckets = s.buckets ∧ s'.modulus = s.modulus := by
  obtain ⟨st, _, hR⟩ := simulation hc hr
  cases hR with
  | @opened _ _ D0 K0 recs B view hS base hz hf =>
    have hcl' := wp_elim (wp_close (L := 0) (G := fun D K => ∃ recs view, Db c (a.conf lf) D K recs B view) hS
      (fun h => absurd hp h) ⟨recs, view, hS.db⟩
      (by
        intro D K recs' B' view' _ hdb _ _ hB
        rw [hp] at hB
        simp only [List.length_nil, growSteps] at hB
        subst hB
        exact ⟨recs', view', hdb⟩)
      (Q := fun r w' => r = none → Safe c (a.conf lf) 0 (fun D K => ∃ recs view, Db c (a.conf lf) D K recs B view) w'.fs)
      (by
        intro w' D1 K1 rs B1 view1 h1 h2 _ _ _ h3 _ _
        rw [hp] at h3
        simp only [List.length_nil, growSteps] at h3
        subst h3
        exact h1.safe ⟨_, _, h2⟩)
      (by intro w' _ _ h; cases h)) hcl rfl
    exact open_same hS (hcl'.restart hw) h
  | failed h => rw [he] at h; cases h

/-- Calls that belong to one session. -/
def Spec.InSession : Label → Prop
  | .call (.insert _ _) _ _ => True
  | .call (.fetch _) _ _ => True
  | .call .flush _ _ => True
  | _ => False

/-- Growth so far: `k` values were inserted in this session. -/
structure Growth (t B0 k : Nat) (s : Store) : Prop where
  thresh : s.thresh = t
  frac : s.frac < t
  sum : s.buckets * t + s.frac + 65536 * s.p1.length = B0 * t + t / 2 + 65536 * k

theorem growSteps_sum {t : Nat} (ht : 65536 ≤ t) : ∀ (k : Nat) (x : Nat × Nat), x.1 < t →
    (growSteps t k x).1 < t ∧ (growSteps t k x).2 * t + (growSteps t k x).1 = x.2 * t + x.1 + 65536 * k := by
  intro k
  induction k with
  | zero => intro x hx; exact ⟨hx, by simp [growSteps]⟩
  | succ k ih =>
    intro x hx
    have h1 : (growStep t x).1 < t ∧ (growStep t x).2 * t + (growStep t x).1 = x.2 * t + x.1 + 65536 := by
      unfold growStep
      split
      · simp only [Nat.add_mul]; omega
      · simp only; omega
    obtain ⟨h2, h3⟩ := ih (growStep t x) h1.1
    simp only [growSteps]
    refine ⟨h2, ?_⟩
    omega

theorem growth_step {cf : Conf} {all : List (Bytes × Bytes)} {s : Store} {fs fs' : Fs} {st : St} {l : Label}
    {t B0 k : Nat} {so : Option Store} (ht : 65536 ≤ t)
    (hR : Rel c cf short all (some s, fs) st) (he : s.ec = none) (hg : Growth t B0 k s) (hl : InSession l)
    (h : Exec c cf.keySize cf.blockSize short (some s, fs) l (so, fs')) :
    ∃ s', so = some s' ∧ (s'.ec = none → Growth t B0 (k + (inserted [l]).length) s') ∧
      (∀ x, l = .call .flush .done x → s'.ec = none ∧ s'.p1 = []) := by
  cases hR with
  | failed h => rw [he] at h; cases h
  | @opened _ _ D K recs B view hS base hz hf =>
  cases h with
  | died => exact hl.elim
  | @call _ _ _ w' op ret x w σ ha hm hw h hx =>
    subst hw
    cases op with
    | close => exact hl.elim
    | «open» => exact hl.elim
    | fetch key =>
      unfold perform at h
      have := wp_elim (Q := fun r _ => r.1 = some s) (X := fun _ _ => True) (σ := σ) (w := w) (by
        apply wp_bind
        apply wp_attempt
        apply wp_fetch hS.ready hS.ec ha
        · intros; exact wp_ret rfl
        · intros; exact wp_ret rfl
        · intro x w' hx _ _
          rcases hx with rfl | rfl
          · trivial
          · exact wp_ret rfl) h
      refine ⟨s, this, fun _ => by rw [inserted_call]; exact hg, ?_⟩
      intro x hx; cases hx
    | insert key v =>
      unfold perform at h
      have := wp_elim (Q := fun r _ => (r.1 = some s ∧ r.2 ≠ .done) ∨
          (r.2 = .done ∧ ∃ s', r.1 = some s' ∧ s' = { s with p1 := s.p1.place ⟨cf.hash c.H key, key, v⟩ }))
          (X := fun _ _ => True) (σ := σ) (w := w) (by
        apply wp_bind
        apply wp_attempt
        apply wp_insert hS ha.1 ha.2.1 ha.2.2
        · intro s' w' _ _ _ he
          exact wp_ret (.inr ⟨rfl, s', rfl, he⟩)
        · intros; exact wp_ret (.inl ⟨rfl, by simp⟩)
        · intro x w' hx _ _
          rcases hx with rfl | rfl
          · trivial
          · exact wp_ret (.inl ⟨rfl, by simp⟩)) h
      rcases this with ⟨h1, h2⟩ | ⟨h1, s', h2, h3⟩
      · refine ⟨s, h1, fun _ => ?_, ?_⟩
        · rw [inserted_call]
          have : gain (.insert key v) ret = [] := by
            simp only at h2
            cases ret with
            | done => exact absurd rfl h2
            | found _ => rfl
            | error _ => rfl
          rw [this]; exact hg
        · intro x hx; cases hx
      · refine ⟨s', h2, fun _ => ?_, ?_⟩
        · simp only at h1
          subst h1
          have h4 := (place_perm ⟨cf.hash c.H key, key, v⟩ s.p1).length_eq
          subst h3
          refine ⟨hg.thresh, hg.frac, ?_⟩
          have := hg.sum
          simp only [List.length_cons, inserted, List.filterMap_cons, List.filterMap_nil, List.length_nil] at h4 ⊢
          omega
        · intro x hx; cases hx
    | flush =>
      unfold perform at h
      have := wp_elim (Q := fun r _ => ∃ s', r.1 = some s' ∧
          ((s'.ec = none ∧ s'.p1 = [] ∧ Growth t B0 k s') ∨ (s'.ec ≠ none ∧ r.2 ≠ .done)))
          (X := fun _ _ => True) (σ := σ) (w := w) (by
        apply wp_bind
        refine wp_conseq (wp_flush (L := logMax cf s.p1.length) (G := fun _ _ => True) hS (fun _ => Nat.le_refl _) trivial
          (fun _ _ _ _ _ _ _ _ _ _ => trivial)
          (Q := fun s' _ => s'.p1 = [] ∧ ((s'.ec = none ∧ Growth t B0 k s') ∨ s'.ec = some .io)) ?_ ?_) ?_
          (fun _ _ _ => trivial)
        · intro s' w' D1 K1 rs B1 view1 b1 b2 b3 b4 b5 b6 b7 b8
          refine ⟨b4, .inl ⟨b1.ec, ?_⟩⟩
          have h1 := growSteps_sum ht s.p1.length (s.frac, B) hg.frac
          rw [← hg.thresh, ← b7] at h1
          have h2 := hg.sum
          rw [hS.buckets] at h2
          have h3 : s'.thresh = s.thresh := by rw [b1.thresh, hS.thresh]
          rw [hg.thresh] at h1 h3
          refine ⟨h3, h1.1, ?_⟩
          rw [b1.buckets, b4]
          simp only [List.length_nil]
          have h4 := h1.2
          simp only at h4
          omega
        · intro s' w' _ hp he _
          exact ⟨hp, .inr he⟩
        · rintro s' w' ⟨h1, ⟨h2, h3⟩ | h2⟩
          · simp only [h2]
            exact wp_ret ⟨s', rfl, .inl ⟨h2, h1, h3⟩⟩
          · simp only [h2]
            exact wp_ret ⟨s', rfl, .inr ⟨by simp [h2], by simp⟩⟩) h
      obtain ⟨s', h1, h2⟩ := this
      refine ⟨s', h1, fun hn => ?_, ?_⟩
      · rw [inserted_call]
        rcases h2 with h2 | h2
        · exact h2.2.2
        · exact absurd hn h2.1
      · intro x hx
        rcases h2 with h2 | h2
        · exact ⟨h2.1, h2.2.1⟩
        · simp only [Label.call.injEq, true_and] at hx
          exact absurd hx.1 h2.2

theorem growth_run {cf : Conf} {sys sys' : Option Store × Fs} {t B0 : Nat} {l : List Label} (hcf : cf.Ok) (ht : 65536 ≤ t)
    (h : Run (Exec c cf.keySize cf.blockSize short) sys l sys') :
    ∀ {all : List (Bytes × Bytes)} {st : St} {s : Store}, sys.1 = some s → Rel c cf short all sys st → s.ec = none →
    Growth t B0 0 s → (∀ x ∈ l, InSession x) →
    ∃ s', sys'.1 = some s' ∧ (s'.ec = none → Growth t B0 (inserted l).length s') ∧ (s'.ec ≠ none → s'.p1 = [] ) := by
  induction h with
  | nil =>
    intro all st s h1 h2 h3 h4 _
    exact ⟨s, h1, fun _ => h4, fun h => absurd h3 h⟩
  | @snoc b d l x h h' ih =>
    intro all st s h1 h2 h3 h4 h5
    obtain ⟨s1, g1, g2, g3⟩ := ih h1 h2 h3 h4 (fun y hy => h5 y (by simp [hy]))
    obtain ⟨st1, _, hR⟩ := run_sound hcf h2 h
    obtain ⟨bs, bf⟩ := b
    simp only at g1
    subst g1
    obtain ⟨ds, df⟩ := d
    by_cases he : s1.ec = none
    · obtain ⟨s', k1, k2, _⟩ := growth_step ht hR he (g2 he) (h5 x (by simp)) h'
      refine ⟨s', k1, ?_, ?_⟩
      · intro hn
        rw [inserted_append, List.length_append]
        exact k2 hn
      · intro hn
        obtain ⟨st2, _, hR2⟩ := exec_sound hcf hR h'
        subst k1
        cases hR2 with
        | opened hS => exact absurd hS.ec hn
        | failed _ hp => exact hp
    · obtain ⟨st2, hst, hR2⟩ := exec_sound hcf hR h'
      cases hR with
      | opened hS => exact absurd hS.ec he
      | failed h6 h7 =>
        cases hst with
        | dead hop hop' =>
          cases hR2 with
          | failed h8 h9 => exact ⟨_, rfl, fun h => by simp [h8] at h, fun _ => h9⟩
        | deadClose => exact (h5 _ (List.mem_append_right _ (List.mem_singleton.2 rfl))).elim
        | dieFailed => exact (h5 _ (List.mem_append_right _ (List.mem_singleton.2 rfl))).elim

/-- C23: in one session, after `k` values were inserted and flushed, the key file has grown by
`(t / 2 + 65536 * k) / t` blocks, where `t` is the larger of 65536 and the load factor times
the capacity of a block; that is at most `k`. It does not matter how often `flush` was called
or what else was done. -/
theorem C23_growth {t₀ t : List Label} {fs₀ fs₁ fs : Fs} {s₁ : Store} {so : Option Store} {x y : Bool} {K₀ K : Bytes}
    (hc : Creatable a lf) (hr : Reachable c a short t₀ (none, fs₀))
    (ho : Exec c a.keySize a.blockSize short (none, fs₀) (.call .open .done x) (some s₁, fs₁))
    (ht : ∀ l ∈ t, InSession l)
    (hrun : Run (Exec c a.keySize a.blockSize short) (some s₁, fs₁) (t ++ [.call .flush .done y]) (so, fs))
    (hK₀ : bytesOf fs₁ .key = some K₀) (hK : bytesOf fs .key = some K) :
    let th := max 65536 (lf * ((a.blockSize - 8) / 18))
    let k := (inserted t).length
    K.length = K₀.length + (th / 2 + 65536 * k) / th * a.blockSize ∧ (th / 2 + 65536 * k) / th ≤ k := by
  intro th k
  have hth : 65536 ≤ th := Nat.le_max_left _ _
  obtain ⟨hcf, _, _⟩ := creatable_ok hc
  have hcap : (a.conf lf).cap = (a.blockSize - 8) / 18 := by
    have := hc.block.1
    show bucketCapacity a.blockSize = _
    unfold bucketCapacity keyHeaderSize
    rw [if_neg (by simp; omega)]
  obtain ⟨st0, _, hR0⟩ := simulation hc hr
  obtain ⟨st1, hst1, hR1⟩ := exec_sound hcf hR0 ho
  -- the state after opening
  have hopen : s₁.ec = none ∧ s₁.frac = s₁.thresh / 2 ∧ s₁.thresh = th ∧ s₁.p1 = [] := by
    cases hR0 with
    | @closed _ L m₀ m₁ hL hs =>
      cases ho with
      | @call _ _ _ w' op ret x w σ ha hm hw h hx =>
        subst hw
        have hσ : (∀ i k, σ i ≠ .fail k) ∨ L ≤ 62 + 1024 * (a.conf lf).blockSize := (hm.reads rfl).imp id hL
        unfold perform at h
        have := wp_elim (Q := fun r _ => ∀ s, r.1 = some s → s.ec = none ∧ s.frac = s.thresh / 2 ∧ s.thresh = th ∧ s.p1 = [])
          (X := fun _ _ => True) (σ := σ) (w := w) (by
          apply wp_bind
          apply wp_attempt
          refine wp_conseq (wp_open GoalM.db hσ hs (Q := fun s _ => s.ec = none ∧ s.frac = s.thresh / 2 ∧ s.thresh = th ∧ s.p1 = [])
            ?_) ?_ ?_
          · intro s w' D K recs B view hg hdb hS hp hfr _ _
            have hS' := hS recs B view hdb
            exact ⟨hS'.ec, hfr, by rw [hS'.thresh, hcap]; rfl, hp⟩
          · intro s w' h
            apply wp_ret
            rintro s' e
            cases e
            exact h
          · rintro x w' ⟨_, ⟨hx, _⟩ | ⟨hx, _⟩⟩
            · rcases hx with rfl | rfl
              · trivial
              · apply wp_ret
                intro s e; cases e
            · subst hx; trivial) h
        exact this s₁ rfl
  obtain ⟨o1, o2, o3, o4⟩ := hopen
  have hg : Growth th s₁.buckets 0 s₁ := by
    refine ⟨o3, by rw [o2, o3]; omega, ?_⟩
    rw [o2, o3, o4]; simp
  obtain ⟨b, r1, r2⟩ := hrun.split rfl
  have hflush := r2.single
  obtain ⟨s2, q1, q2, q3⟩ := growth_run hcf hth r1 rfl hR1 o1 hg ht
  obtain ⟨st2, _, hR2⟩ := run_sound hcf hR1 r1
  obtain ⟨bs, bf⟩ := b
  simp only at q1
  subst q1
  obtain ⟨st3, hst3, hR3⟩ := exec_sound hcf hR2 hflush
  have he2 : s2.ec = none := by
    cases hR2 with
    | opened hS => exact hS.ec
    | failed h => cases hst3
  obtain ⟨s3, q4, q5, q6⟩ := growth_step hth hR2 he2 (q2 he2) (by trivial) hflush
  subst q4
  obtain ⟨e3, p3⟩ := q6 y rfl
  have hG3 := q5 e3
  have hsum := hG3.sum
  have hfr := hG3.frac
  rw [p3] at hsum
  have hk : (inserted t).length + (inserted [.call .flush .done y]).length = k := rfl
  rw [hk] at hsum
  simp only [List.length_nil, Nat.mul_zero, Nat.add_zero] at hsum
  have hpos : 0 < th := by omega
  have hB : s3.buckets = s₁.buckets + (th / 2 + 65536 * k) / th := by
    have h1 : s3.buckets = (s3.buckets * th + s3.frac) / th := by
      rw [Nat.add_comm, Nat.add_mul_div_right _ _ hpos, Nat.div_eq_of_lt hfr, Nat.zero_add]
    rw [h1, hsum, Nat.add_assoc, Nat.add_comm (s₁.buckets * th), Nat.add_mul_div_right _ _ hpos, Nat.add_comm]
  have hlen1 : K₀.length = (s₁.buckets + 1) * a.blockSize := by
    cases hR1 with
    | @opened _ _ _ K₂ _ _ _ hS =>
      obtain ⟨kf, k1, k2⟩ := hS.idle.key
      have : bytesOf fs₁ .key = some K₂ := by rw [bytesOf, k1, Option.map_some, k2.cur]
      rw [hK₀, Option.some.injEq] at this
      rw [this, hS.db.key.len, hS.buckets]; rfl
    | failed h => rw [o1] at h; cases h
  have hlen3 : K.length = (s3.buckets + 1) * a.blockSize := by
    cases hR3 with
    | @opened _ _ _ K₂ _ _ _ hS =>
      obtain ⟨kf, k1, k2⟩ := hS.idle.key
      have : bytesOf fs .key = some K₂ := by rw [bytesOf, k1, Option.map_some, k2.cur]
      rw [hK, Option.some.injEq] at this
      rw [this, hS.db.key.len, hS.buckets]; rfl
    | failed h => rw [e3] at h; cases h
  constructor
  · rw [hlen3, hlen1, hB, ← Nat.add_mul]; congr 1; omega
  · have : (th / 2 + 65536 * k) / th < k + 1 := by
      rw [Nat.div_lt_iff_lt_mul hpos]
      have h1 : 65536 * k ≤ th * k := Nat.mul_le_mul_right _ hth
      rw [Nat.add_mul, Nat.mul_comm k th]
      omega
    omega

end

/-- The premises of C22: after a flush that added three buckets the store can be closed and
opened again. -/
example : ∃ t s w w₁ s' w', Creatable demoArgs 32768 ∧ Reachable demoCfg demoArgs False t (some s, w.fs) ∧ s.ec = none ∧
    s.p1 = [] ∧ (bytesOf w.fs .key).isSome ∧ s.buckets = 4 ∧ close demoCfg s calm w = (.ok none, w₁) ∧
    Restart w₁.fs w₁.fs ∧ openStore demoCfg calm w₁ = (.ok s', w') := by
  have h : demoTest demoCfg demoArgs (demoOps.take 10) (fun s w => s.ec == none && s.p1.length == 0 &&
      (bytesOf w.fs .key).isSome && s.buckets == 4 &&
      (match close demoCfg s calm w with
       | (.ok none, w₁) => (match openStore demoCfg calm w₁ with | (.ok _, _) => true | _ => false)
       | _ => false)) = true := by decide +kernel
  obtain ⟨rets, s, w, h1, h2⟩ := demo_test (demoOps_sound 10) h
  simp only [Bool.and_eq_true, beq_iff_eq] at h2
  obtain ⟨⟨⟨⟨a1, a2⟩, a3⟩, a4⟩, a5⟩ := h2
  split at a5
  · rename_i w₁ e
    split at a5
    · rename_i s' w' e'
      exact ⟨_, s, w, w₁, s', w', demo_creatable, h1, a1, List.eq_nil_of_length_eq_zero a2, a3, a4, e, .inl rfl, e'⟩
    · cases a5
  · cases a5

/-- The premises of C23: eight values are inserted, and the key file grows from 2 to 5 blocks. -/
def growTest : Option (Nat × Nat × List Ret) :=
  match create demoCfg true demoArgs calm ⟨fun _ => none, 0, []⟩ with
  | (.ok (), w₁) =>
    match runOps demoCfg [.open] none calm w₁ with
    | (.ok (_, some s), w₂) =>
      match runOps demoCfg ((demoOps.drop 1).take 9) (some s) calm w₂ with
      | (.ok (rs, _), w₃) =>
        match bytesOf w₂.fs .key, bytesOf w₃.fs .key with
        | some K₀, some K => some (K₀.length, K.length, rs)
        | _, _ => none
      | _ => none
    | _ => none
  | _ => none

theorem growTest_eval : growTest = some (2 * 104, 5 * 104, List.replicate 9 .done) := by
  decide +kernel

example : ∃ fs₀ fs₁ fs s₁ so K₀ K t, Creatable demoArgs 32768 ∧ Reachable demoCfg demoArgs False [] (none, fs₀) ∧
    Exec demoCfg demoArgs.keySize demoArgs.blockSize False (none, fs₀) (.call .open .done false) (some s₁, fs₁) ∧
    (∀ l ∈ t, InSession l) ∧
    Run (Exec demoCfg demoArgs.keySize demoArgs.blockSize False) (some s₁, fs₁) (t ++ [.call .flush .done false]) (so, fs) ∧
    bytesOf fs₁ .key = some K₀ ∧ bytesOf fs .key = some K ∧
    (inserted t).length = 8 ∧ K₀.length = 2 * 104 ∧ K.length = 5 * 104 := by
  have h := growTest_eval
  unfold growTest at h
  split at h
  · rename_i w₁ e₁
    split at h
    · rename_i rs₁ s w₂ e₂
      split at h
      · rename_i rs₂ so w₃ e₃
        split at h
        · rename_i K₀ K e₄ e₅
          simp only [Option.some.injEq, Prod.mk.injEq] at h
          obtain ⟨h1, h2, rfl⟩ := h
          have hrun := run_ops (keySize := demoArgs.keySize) (blockSize := demoArgs.blockSize) _ (fun op hop => demoOps_sound 20 op (List.mem_of_mem_drop (List.mem_of_mem_take hop))) e₃
          have hopen := run_ops (keySize := demoArgs.keySize) (blockSize := demoArgs.blockSize) _ (fun op hop => demoOps_sound 20 op (by rw [List.mem_singleton.1 hop]; simp [demoOps])) e₂
          have hrs : rs₁ = [.done] := by
            simp only [runOps, perform, bind, M.bind, M.attempt, M.ret] at e₂
            revert e₂
            rcases openStore demoCfg calm w₁ with ⟨_ | _, w⟩
            · rename_i ex; cases ex <;> simp [M.ret]
            · intro e
              cases e
              rfl
          subst hrs
          refine ⟨w₁.fs, w₂.fs, w₃.fs, s, so, K₀, K, labels ((demoOps.drop 1).take 8) (List.replicate 8 .done), demo_creatable,
            ⟨calm, true, _, w₁, fun _ => rfl, e₁, .nil _⟩, hopen.single, ?_, hrun, e₄, e₅, rfl, h1, h2⟩
          intro l hl
          simp only [labels, demoOps, List.drop, List.take, List.replicate, List.zipWith, List.mem_cons, List.not_mem_nil, or_false] at hl
          rcases hl with h | h | h | h | h | h | h | h <;> subst h <;> trivial
        · cases h
      · cases h
    · cases h
  · cases h

end NuDB
