import Verif.Proof.Display
import Verif.Props.Progress
import Verif.Props.Visit
import Verif.Props.Rekey
/-
C88: the progress display of the command line tool.
-/
namespace NuDB

open Spec

/-! ### Durations -/

/-- C88: `floor` of durations is the floor of the quotient. -/
theorem C88_floor {m : Nat} (hm : 0 < m) (d : Int) : durFloor m d * m ≤ d ∧ d < (durFloor m d + 1) * m := by
  unfold durFloor
  have h1 := Int.tmod_add_mul_tdiv d m
  have h2 : d.tmod m < m := Int.tmod_lt_of_pos d (by omega)
  have h3 : -(m : Int) < d.tmod m := Int.lt_tmod_of_pos d (by omega)
  have h4 : (m : Int) * d.tdiv m = d.tdiv m * m := Int.mul_comm _ _
  dsimp only
  split
  · rw [Int.sub_mul, Int.sub_add_cancel]; omega
  · rw [Int.add_mul]; omega

/-- C88: `ceil` of durations is the quotient rounded up. -/
theorem C88_ceil {m : Nat} (hm : 0 < m) (d : Int) : d ≤ durCeil m d * m ∧ (durCeil m d - 1) * m < d := by
  unfold durCeil
  have h1 := Int.tmod_add_mul_tdiv d m
  have h2 : d.tmod m < m := Int.tmod_lt_of_pos d (by omega)
  have h3 : -(m : Int) < d.tmod m := Int.lt_tmod_of_pos d (by omega)
  have h4 : (m : Int) * d.tdiv m = d.tdiv m * m := Int.mul_comm _ _
  dsimp only
  split
  · rw [Int.add_sub_cancel, Int.add_mul]; omega
  · rw [Int.sub_mul]; omega

/-- C88, as far as it holds: for durations that are not negative `round` gives the nearest
number, and of two equally near ones the even one. Missing from the claim: negative durations
(`C88_round_violated`). -/
theorem C88_round_partial {m : Nat} (hm : 0 < m) {d : Int} (hd : 0 ≤ d) :
    (∀ t : Int, (durRound m d * m - d).natAbs ≤ (t * m - d).natAbs) ∧
      (∀ t : Int, (durRound m d * m - d).natAbs = (t * m - d).natAbs → t ≠ durRound m d → durRound m d % 2 = 0) := by
  have h1 := Int.tmod_add_mul_tdiv d m
  have h2 : d.tmod m < m := Int.tmod_lt_of_pos d (by omega)
  have h3 : 0 ≤ d.tmod m := Int.tmod_nonneg _ hd
  have h4 : (m : Int) * d.tdiv m = d.tdiv m * m := Int.mul_comm _ _
  have key : ∀ t : Int, t * m ≤ d.tdiv m * m ∨ d.tdiv m * m + m ≤ t * m := by
    intro t
    rcases Int.lt_or_le (d.tdiv m) t with h | h
    · right
      have := Int.mul_le_mul_of_nonneg_right (show d.tdiv m + 1 ≤ t by omega) (show (0 : Int) ≤ m by omega)
      rw [Int.add_mul] at this
      omega
    · left
      exact Int.mul_le_mul_of_nonneg_right h (by omega)
  have inj : ∀ t s : Int, t * m = s * m → t = s := fun t s h => Int.eq_of_mul_eq_mul_right (by omega) h
  unfold durRound
  dsimp only
  have e : (d.tdiv m + 1) * (m : Int) = d.tdiv m * m + m := by rw [Int.add_mul]; omega
  rw [e]
  have cases2 : ∀ t : Int, t ≠ d.tdiv m → t * m ≠ d.tdiv m * m := fun t h h' => h (inj _ _ h')
  split
  · split
    · refine ⟨fun t => ?_, fun t _ _ => by omega⟩
      rw [e]; have := key t; omega
    · refine ⟨fun t => ?_, fun t _ _ => by omega⟩
      have := key t; omega
  · split
    · refine ⟨fun t => by have := key t; omega, fun t h hne => ?_⟩
      have := key t; have := cases2 t hne; omega
    · refine ⟨fun t => by rw [e]; have := key t; omega, fun t h hne => ?_⟩
      rw [e] at h
      have h5 : t * m ≠ d.tdiv m * m + m := by
        intro h'; rw [← e] at h'; exact hne (inj _ _ h')
      have := key t; omega

/-- The claim fails for negative durations: -1700 ms become -1 s and not -2 s. -/
theorem C88_round_violated : durRound 1000 (-1700) = -1 ∧
    ((-2 * 1000 - -1700 : Int)).natAbs < (durRound 1000 (-1700) * 1000 - -1700).natAbs := by decide

/-- C88: the thread that samples the clocks never waits longer than 900 ms, so that a value of
the clock is not older than that, but for the time the system takes to run the thread. In the
last tenth of every second it does not wait at all. -/
theorem C88_clock (now : Int) : wakeAt now ≤ now + 900000000 ∧
    (wakeAt now ≤ now ↔ 900000000 ≤ now - durFloor 1000000000 now * 1000000000) := by
  have := C88_floor (m := 1000000000) (by decide) now
  unfold wakeAt
  omega

/-! ### Lines -/

private theorem sub64_eq {a b : Nat} (h : b ≤ a) (ha : a < 2 ^ 64) : b + sub64 a b = a := by
  unfold sub64
  rw [Int.emod_eq_of_lt (by omega) (by omega)]
  omega

private theorem forward_cons {k : Tick} {ks : List Tick} (h : Forward (k :: ks)) :
    Forward ks ∧ ∀ x ∈ ks, k.t ≤ x.t ∧ k.t' ≤ x.t := by
  unfold Forward at h
  rw [List.flatMap_cons, List.pairwise_append] at h
  refine ⟨h.2.1, fun x hx => ?_⟩
  have hm : x.t ∈ ks.flatMap (fun k => [k.t, k.t']) := List.mem_flatMap.mpr ⟨x, hx, by simp⟩
  exact ⟨h.2.2 _ (by simp) _ hm, h.2.2 _ (by simp) _ hm⟩

private theorem calls_none {d d1 d' : Display} {k : Tick} {ks : List Tick} {ls : List Line} (h : d.call k = .ok (d1, none))
    (h' : d1.calls ks = .ok (d', ls)) : d.calls (k :: ks) = .ok (d', ls) := by
  rw [Display.calls, h]
  dsimp only
  rw [h']
  rfl

private theorem calls_some {d d1 d' : Display} {k : Tick} {ks : List Tick} {l : Line} {ls : List Line}
    (h : d.call k = .ok (d1, some l)) (h' : d1.calls ks = .ok (d', ls)) : d.calls (k :: ks) = .ok (d', l :: ls) := by
  rw [Display.calls, h]
  dsimp only
  rw [h']
  rfl

/-- How long to wait for the next line. -/
private def waitOf (e : Bool) : Int := if e then 60000000000 else 30000000000

private theorem lines_go : ∀ (ks : List Tick) (d : Display) (p : Nat) (e : Bool), d.prev = some p → d.estimate = some e →
    (e = false → d.start = d.report) → d.now < d.report + waitOf e → d.report ≤ d.now → (∀ k ∈ ks, d.now ≤ k.t) → Forward ks → In64 ks →
    (∀ k ∈ ks, k.amount ≠ 0 ∧ p ≤ k.amount) → (ks.map Tick.amount).Pairwise (· ≤ ·) →
    ∃ d' ls, d.calls ks = .ok (d', ls) ∧ RightLines d.start d.report p (waitOf e) ls ∧
      (ls.map (fun l => (l.amount, l.total, l.time))).Sublist (ks.map (fun k => (k.amount, k.total, k.t))) ∧
      ∀ k ∈ ks, k.t < d.report + waitOf e ∨ ∃ l ∈ ls, l.time ≤ k.t ∧ k.t < l.time + 60000000000 := by
  intro ks
  induction ks with
  | nil =>
    intro d p e _ _ _ _ _ _ _ _ _ _
    exact ⟨d, [], rfl, .nil, by simp, by simp⟩
  | cons k ks ih =>
    intro d p e hp he hs hn hrn ht hf h64 ha hpw
    obtain ⟨hf1, hf2⟩ := forward_cons hf
    have hk := ha k (by simp)
    have hkt := ht k (by simp)
    have h64k := h64 k (by simp)
    have h64' : In64 ks := fun x hx => h64 x (by simp [hx])
    rw [List.map_cons, List.pairwise_cons] at hpw
    have quiet : ∀ d1 : Display, d.call k = .ok (d1, none) → d1.start = d.start → d1.report = d.report → d1.prev = d.prev →
        d1.estimate = d.estimate → d1.now = k.t → k.t < d.report + waitOf e →
        ∃ d' ls, d.calls (k :: ks) = .ok (d', ls) ∧ RightLines d.start d.report p (waitOf e) ls ∧
          (ls.map (fun l => (l.amount, l.total, l.time))).Sublist ((k :: ks).map (fun k => (k.amount, k.total, k.t))) ∧
          ∀ x ∈ k :: ks, x.t < d.report + waitOf e ∨ ∃ l ∈ ls, l.time ≤ x.t ∧ x.t < l.time + 60000000000 := by
      intro d1 hc q1 q2 q3 q4 q5 q6
      obtain ⟨d', ls, a1, a2, a3, a4⟩ := ih d1 p e (by rw [q3, hp]) (by rw [q4, he]) (by rw [q1, q2]; exact hs)
        (by rw [q5, q2]; exact q6) (by rw [q5, q2]; omega) (fun x hx => by rw [q5]; exact (hf2 x hx).1) hf1 h64'
        (fun x hx => ha x (by simp [hx])) hpw.2
      rw [q1, q2] at a2
      rw [q2] at a4
      refine ⟨d', ls, calls_none hc a1, a2, ?_, ?_⟩
      · rw [List.map_cons]; exact a3.cons _
      · intro x hx
        rcases List.mem_cons.mp hx with rfl | hx
        · exact .inl q6
        · exact a4 x hx
    by_cases hnow : k.t = d.now
    · exact quiet d (by unfold Display.call; rw [if_neg hk.1, if_pos hnow]) rfl rfl rfl rfl hnow.symm (by omega)
    · by_cases hw : k.t < d.report + waitOf e
      · refine quiet { d with now := k.t } ?_ rfl rfl rfl rfl rfl hw
        unfold Display.call
        rw [if_neg hk.1, if_neg hnow, he]
        dsimp only
        cases e with
        | false =>
          have := hs rfl
          rw [if_pos ⟨rfl, by simp only [waitOf] at hw; simp at hw; omega⟩]
        | true =>
          rw [if_neg (by simp), if_pos ⟨rfl, by simp only [waitOf] at hw; simp at hw; omega⟩]
      · have hc : d.call k = .ok ({ d with now := k.t, report := k.t, prev := some k.amount, estimate := some true },
            some { time := k.t, left := sub64 k.total k.amount, amount := k.amount, total := k.total,
                   elapsed := k.t - d.start, delta := sub64 k.amount p, since := k.t - d.report }) := by
          unfold Display.call
          rw [if_neg hk.1, if_neg hnow, he, hp]
          dsimp only
          cases e with
          | false =>
            have := hs rfl
            rw [if_neg (by simp only [waitOf] at hw; simp at hw; simp; omega), if_neg (by simp)]
          | true =>
            rw [if_neg (by simp), if_neg (by simp only [waitOf] at hw; simp at hw; simp; omega)]
        obtain ⟨d', ls, a1, a2, a3, a4⟩ := ih { d with now := k.t, report := k.t, prev := some k.amount, estimate := some true }
          k.amount true rfl rfl (by simp) (by show k.t < k.t + 60000000000; omega) (Int.le_refl _) (fun x hx => (hf2 x hx).1) hf1 h64'
          (fun x hx => ⟨(ha x (by simp [hx])).1, hpw.1 _ (List.mem_map_of_mem hx)⟩) hpw.2
        refine ⟨d', _, calls_some hc a1, 
          .cons rfl rfl (by show d.report + waitOf e ≤ k.t; omega) (sub64_eq hk.2 h64k.1)
          (fun h => sub64_eq h h64k.2) ?_, ?_, ?_⟩
        · exact a2
        · rw [List.map_cons, List.map_cons]; exact a3.cons_cons _
        · intro x hx
          right
          rcases List.mem_cons.mp hx with rfl | hx
          · exact ⟨_, List.mem_cons_self, Int.le_refl _, by show x.t < x.t + 60000000000; omega⟩
          · rcases a4 x hx with h | ⟨l, hl, h⟩
            · refine ⟨_, List.mem_cons_self, (hf2 x hx).1, ?_⟩
              simpa [waitOf] using h
            · exact ⟨l, List.mem_cons_of_mem _ hl, h⟩

private theorem call_zero (d : Display) {k : Tick} (h : k.amount = 0) : d.call k =
    .ok ({ start := k.t', now := k.t', report := k.t', prev := some 0, estimate := some false }, none) := by
  unfold Display.call; rw [if_pos h]

/-- C88: calls beginning with that of no work done and with amounts that do not decrease, at
any times: no undefined behaviour, and a good display. -/
theorem C88_display {ks : List Tick} (hne : ks ≠ []) (h0 : ∀ k ∈ ks.head?, k.amount = 0)
    (ha : (ks.map Tick.amount).Pairwise (· ≤ ·)) (hf : Forward ks) (h64 : In64 ks) :
    ∃ d ls, Display.calls {} ks = .ok (d, ls) ∧ GoodDisplay ks ls := by
  suffices H : ∀ (ks : List Tick) (d0 : Display) (k0 : Tick), k0.amount = 0 → (∀ k ∈ ks, 0 ≤ k.amount) →
      ((k0 :: ks).map Tick.amount).Pairwise (· ≤ ·) → Forward (k0 :: ks) → In64 (k0 :: ks) →
      ∃ d ls, d0.calls (k0 :: ks) = .ok (d, ls) ∧ GoodDisplay (k0 :: ks) ls by
    cases ks with
    | nil => exact absurd rfl hne
    | cons k ks => exact H ks {} k (h0 k (by simp)) (fun _ _ => Nat.zero_le _) ha hf h64
  clear hne h0 ha hf h64
  intro ks
  induction ks with
  | nil =>
    intro d0 k0 hk _ _ _ _
    refine ⟨_, [], calls_none (call_zero d0 hk) rfl, ⟨k0, by simp, hk, .nil, ?_⟩, by simp⟩
    intro k hk' hne
    simp only [List.mem_cons, List.not_mem_nil, or_false] at hk'
    subst hk'
    exact absurd hk hne
  | cons k1 ks ih =>
    intro d0 k0 hk _ hpw hf h64
    obtain ⟨hf1, hf2⟩ := forward_cons hf
    have h64' : In64 (k1 :: ks) := fun x hx => h64 x (List.mem_cons_of_mem _ hx)
    rw [List.map_cons, List.pairwise_cons] at hpw
    by_cases hk1 : k1.amount = 0
    · obtain ⟨d, ls, a1, ⟨k, b1, b2, b3, b4⟩, a3⟩ := ih
        { start := k0.t', now := k0.t', report := k0.t', prev := some 0, estimate := some false } k1 hk1
        (fun _ _ => Nat.zero_le _) hpw.2 hf1 h64'
      refine ⟨d, ls, ?_, ⟨k, List.mem_cons_of_mem _ b1, b2, b3, ?_⟩, ?_⟩
      · exact calls_none (call_zero d0 hk) a1
      · intro x hx hne
        rcases List.mem_cons.mp hx with rfl | hx
        · exact absurd hk hne
        · exact b4 x hx hne
      · rw [List.map_cons]; exact a3.cons _
    · have hpw2 := hpw.2
      rw [List.map_cons, List.pairwise_cons] at hpw2
      have hnz : ∀ k ∈ k1 :: ks, k.amount ≠ 0 ∧ 0 ≤ k.amount := by
        intro k hk'
        refine ⟨?_, Nat.zero_le _⟩
        rcases List.mem_cons.mp hk' with rfl | hk'
        · exact hk1
        · have := hpw2.1 _ (List.mem_map_of_mem hk'); omega
      obtain ⟨d, ls, a1, a2, a3, a4⟩ := lines_go (k1 :: ks)
        { start := k0.t', now := k0.t', report := k0.t', prev := some 0, estimate := some false } 0 false rfl rfl (fun _ => rfl)
        (by show k0.t' < k0.t' + 30000000000; omega) (Int.le_refl _) (fun x hx => (hf2 x hx).2) hf1 h64' hnz hpw.2
      refine ⟨d, ls, ?_, ⟨k0, by simp, hk, a2, ?_⟩, ?_⟩
      · exact calls_none (call_zero d0 hk) a1
      · intro x hx hne
        rcases List.mem_cons.mp hx with rfl | hx
        · exact absurd hk hne
        · exact a4 x hx
      · rw [List.map_cons]; exact a3.cons _

/-- Undefined behaviour if the first report is another one. -/
theorem C88_first : Display.calls {} [⟨1, 2, 1, 1⟩] = .error .ub := rfl

/-! ### The algorithms -/

private theorem rightLines_left {start before : Int} {done : Nat} {wait : Int} {ls : List Line}
    (h : RightLines start before done wait ls) : ∀ l ∈ ls, l.amount ≤ l.total → l.amount + l.left = l.total := by
  induction h with
  | nil => intro l hl; cases hl
  | cons _ _ _ _ h5 _ ih =>
    intro l hl
    rcases List.mem_cons.mp hl with rfl | hl
    · exact h5
    · exact ih l hl

private theorem reported_amounts {evs : List Event} {ks : List Tick} (hk : Reported evs ks) :
    ks.map Tick.amount = (progressed evs).map Prod.fst := by
  rw [← hk, List.map_map]; rfl

private theorem reported_head {evs : List Event} {ks : List Tick} (hk : Reported evs ks)
    (h : ∀ p ∈ (progressed evs).head?, p.1 = 0) : ∀ k ∈ ks.head?, k.amount = 0 := by
  intro k hk'
  rw [← hk] at h
  cases ks with
  | nil => cases hk'
  | cons x xs =>
    simp only [List.head?_cons, Option.mem_def, Option.some.injEq] at hk'
    subst hk'
    exact h (x.amount, x.total) rfl

private theorem display_rising {evs : List Event} {ks : List Tick} (hr : Rising evs)
    (h0 : ∀ p ∈ (progressed evs).head?, p.1 = 0) (hk : Reported evs ks) (hf : Forward ks) (h64 : In64 ks) :
    ∃ d ls, Display.calls {} ks = .ok (d, ls) ∧ (ks ≠ [] → GoodDisplay ks ls) := by
  by_cases hne : ks = []
  · subst hne
    exact ⟨{}, [], rfl, fun h => absurd rfl h⟩
  · obtain ⟨d, ls, h1, h2⟩ := C88_display hne (reported_head hk h0) (by rw [reported_amounts hk]; exact hr.choose_spec.2) hf h64
    exact ⟨d, ls, h1, fun _ => h2⟩

private theorem display_steady {evs : List Event} {ks : List Tick} (hs : Steady evs)
    (h0 : ∀ p ∈ (progressed evs).head?, p.1 = 0) (hk : Reported evs ks) (hf : Forward ks) (h64 : In64 ks) :
    ∃ d ls, Display.calls {} ks = .ok (d, ls) ∧ (ks ≠ [] → GoodDisplay ks ls) ∧ ∀ l ∈ ls, l.amount + l.left = l.total := by
  have hr : Rising evs := let ⟨t, a, b⟩ := hs; ⟨t, fun p hp => (a p hp).1, b⟩
  obtain ⟨d, ls, h1, h2⟩ := display_rising hr h0 hk hf h64
  refine ⟨d, ls, h1, h2, fun l hl => ?_⟩
  by_cases hne : ks = []
  · subst hne
    cases h1
    cases hl
  · have g := h2 hne
    obtain ⟨k0, _, _, g1, _⟩ := g.lines
    refine rightLines_left g1 l hl ?_
    have hm := g.calls.subset (List.mem_map_of_mem hl)
    obtain ⟨k, hkm, e⟩ := List.mem_map.mp hm
    simp only [Prod.mk.injEq] at e
    obtain ⟨t, ht, _⟩ := hs
    have := ht (k.amount, k.total) (by rw [← hk]; exact List.mem_map_of_mem hkm)
    simp only at this
    omega

section
variable {c : Cfg}

/-- C88 for `nudb visit`, on arbitrary files, with arbitrary faults and at arbitrary times: no
undefined behaviour, a good display, and the work that is left is shown right. -/
theorem C88_visit (cb : List Event → Option Err) {σ : Schedule} {w : World} {evs : List Event} {ks : List Tick}
    (h : (visit c cb σ w).2.out = w.out ++ evs) (hk : Reported evs ks) (hf : Forward ks) (h64 : In64 ks) :
    ∃ d ls, Display.calls {} ks = .ok (d, ls) ∧ (ks ≠ [] → GoodDisplay ks ls) ∧ ∀ l ∈ ls, l.amount + l.left = l.total := by
  obtain ⟨e1, h1, h2⟩ := C46_visit (c := c) cb σ w
  obtain ⟨e2, h3, h4⟩ := (firstZero_visit (c := c) (cb := cb)).go σ w
  rw [h, List.append_cancel_left_eq] at h1 h3
  subst h1 h3
  exact display_steady h2 h4 hk hf h64

/-- C88 for `nudb rekey`. -/
theorem C88_rekey (a : RekeyArgs) {σ : Schedule} {w : World} {evs : List Event} {ks : List Tick}
    (h : (rekey c a σ w).2.out = w.out ++ evs) (hk : Reported evs ks) (hf : Forward ks) (h64 : In64 ks) :
    ∃ d ls, Display.calls {} ks = .ok (d, ls) ∧ (ks ≠ [] → GoodDisplay ks ls) ∧ ∀ l ∈ ls, l.amount + l.left = l.total := by
  obtain ⟨e1, h1, h2⟩ := C46_rekey (c := c) a σ w
  obtain ⟨e2, h3, h4⟩ := (firstZero_rekey (c := c) (a := a)).go σ w
  rw [h, List.append_cancel_left_eq] at h1 h3
  subst h1 h3
  exact display_steady h2 h4 hk hf h64

/-- C88 for `nudb verify`, as far as it holds. Missing from the claim: the work that is left is
wrong if more than the total has been reported (`C88_wraps`), which does not happen when
`verify_fast` is used. -/
theorem C88_verify_partial (n : Nat) {σ : Schedule} {w : World} {evs : List Event} {ks : List Tick}
    (h : (verify c n σ w).2.out = w.out ++ evs) (hk : Reported evs ks) (hf : Forward ks) (h64 : In64 ks) :
    ∃ d ls, Display.calls {} ks = .ok (d, ls) ∧ (ks ≠ [] → GoodDisplay ks ls) ∧
      ∀ D K, bytesOf w.fs .dat = some D → bytesOf w.fs .key = some K →
        chooseNormal (getKeyHeader (K.take 104) K.length) D.length K.length n = false → ∀ l ∈ ls, l.amount + l.left = l.total := by
  obtain ⟨e1, h1, h2, h2', _⟩ := C46_verify_partial (c := c) n σ w
  obtain ⟨e2, h3, h4⟩ := (firstZero_verify (c := c) (n := n)).go σ w
  rw [h, List.append_cancel_left_eq] at h1 h3
  subst h1 h3
  obtain ⟨d, ls, a1, a2⟩ := display_rising h2 h4 hk hf h64
  refine ⟨d, ls, a1, a2, fun D K hD hK hc => ?_⟩
  obtain ⟨d', ls', b1, _, b3⟩ := display_steady (h2' D K hD hK hc) h4 hk hf h64
  rw [a1] at b1
  cases b1
  exact b3

end

/-- Calls at the time 0 show nothing and leave the display as it is. -/
private theorem calls_at_zero {d : Display} (hd : d = { start := 0, now := 0, report := 0, prev := some 0, estimate := some false }) :
    ∀ (ks ks' : List Tick), (∀ k ∈ ks, k.t = 0 ∧ k.t' = 0) → d.calls (ks ++ ks') = d.calls ks' := by
  intro ks
  induction ks with
  | nil => intro ks' _; rfl
  | cons k ks ih =>
    intro ks' h
    have hk := h k (by simp)
    have hc : d.call k = .ok (d, none) := by
      by_cases hz : k.amount = 0
      · rw [call_zero d hz, hk.2, hd]
      · unfold Display.call
        rw [if_neg hz, if_pos (by rw [hd, hk.1])]
    rw [List.cons_append, Display.calls, hc]
    dsimp only
    rw [ih ks' (fun x hx => h x (by simp [hx]))]
    cases d.calls ks' with
    | error e => rfl
    | ok r => rfl

/-- The claim fails for `verify_normal`: after three sessions with one insertion each, a line
shows 1159 of 1055, and the work that is left is computed as 2^64 - 104. The remaining time is
then beyond the range of its type, so that the conversion is undefined behaviour. -/
theorem C88_wraps : ∃ t fs, Reachable demoCfg demoArgs False t (none, fs) ∧ fs .log = none ∧
    ∃ info w' ks d l, verify demoCfg 0 calm ⟨fs, 0, []⟩ = (.ok info, w') ∧ Reported w'.out ks ∧ Forward ks ∧ In64 ks ∧
      Display.calls {} ks = .ok (d, [l]) ∧ l.amount = 1159 ∧ l.total = 1055 ∧ l.left = 2 ^ 64 - 104 ∧
      2 ^ 63 * (l.amount : Int) < l.left * l.elapsed := by
  obtain ⟨t, fs, hr, hl, info, w', l, h1, h2⟩ := slow_exceeds
  refine ⟨t, fs, hr, hl, info, w', ?_⟩
  obtain ⟨e1, f1, f2, _⟩ := C46_verify_partial (c := demoCfg) 0 calm ⟨fs, 0, []⟩
  obtain ⟨e2, f3, f4⟩ := (firstZero_verify (c := demoCfg) (n := 0)).go calm ⟨fs, 0, []⟩
  rw [h1, List.nil_append] at f1 f3
  simp only at f1 f3
  subst f1 f3
  rw [h2] at f2 f4
  have hp : progressed (l ++ [.progress 1159 1055]) = progressed l ++ [(1159, 1055)] := by
    rw [progressed_append]; rfl
  obtain ⟨total, g1, g2⟩ := f2
  rw [hp] at f4 g1 g2
  have htot : total = 1055 := (g1 (1159, 1055) (by simp)).symm
  rw [List.map_append, List.pairwise_append] at g2
  have hb : ∀ p ∈ progressed l, p.1 ≤ 1159 ∧ p.2 = 1055 := fun p hp =>
    ⟨g2.2.2 _ (List.mem_map_of_mem hp) 1159 (by simp), by rw [← htot]; exact g1 p (by simp [hp])⟩
  cases hpl : progressed l with
  | nil =>
    rw [hpl] at f4
    exact absurd (f4 (1159, 1055) rfl) (by decide)
  | cons p ps =>
    have hp0 : p.1 = 0 := by rw [hpl] at f4; exact f4 p rfl
    rw [hpl] at hb
    refine ⟨(p :: ps).map (fun p => ⟨p.1, p.2, 0, 0⟩) ++ [⟨1159, 1055, 31000000000, 31000000000⟩],
      { start := 0, now := 31000000000, report := 31000000000, prev := some 1159, estimate := some true },
      { time := 31000000000, left := 2 ^ 64 - 104, amount := 1159, total := 1055, elapsed := 31000000000, delta := 1159, since := 31000000000 },
      h1, ?_, ?_, ?_, ?_, rfl, rfl, rfl, by decide⟩
    · unfold Reported
      rw [h2, hp, hpl, List.map_append, List.map_map]
      congr 1
      exact List.map_id' _
    · unfold Forward
      rw [List.flatMap_append, List.pairwise_append]
      have hz : ∀ x ∈ ((p :: ps).map (fun p => (⟨p.1, p.2, 0, 0⟩ : Tick))).flatMap (fun k => [k.t, k.t']), x = 0 := by
        intro x hx
        obtain ⟨k, hk, hx⟩ := List.mem_flatMap.mp hx
        obtain ⟨q, _, rfl⟩ := List.mem_map.mp hk
        simpa using hx
      refine ⟨List.pairwise_of_forall_mem_list (fun a ha b hb => by rw [hz a ha, hz b hb]; exact Int.le_refl _), by simp, ?_⟩
      intro a ha b hb
      rw [hz a ha]
      simp at hb
      omega
    · intro k hk
      rcases List.mem_append.mp hk with hk | hk
      · obtain ⟨q, hq, rfl⟩ := List.mem_map.mp hk
        have := hb q hq
        dsimp only
        omega
      · simp only [List.mem_cons, List.not_mem_nil, or_false] at hk
        subst hk
        decide
    · rw [List.map_cons, List.cons_append]
      apply calls_none (call_zero _ hp0)
      rw [calls_at_zero rfl]
      · rfl
      · intro k hk
        obtain ⟨q, _, rfl⟩ := List.mem_map.mp hk
        exact ⟨rfl, rfl⟩

/- `C88_display` and what it says: five reports in two minutes, of which two are shown. -/
example : let ks : List Tick := [⟨0, 100, 5, 6⟩, ⟨10, 100, 20000000000, 20000000000⟩, ⟨20, 100, 40000000000, 40000000000⟩,
      ⟨50, 100, 70000000000, 70000000000⟩, ⟨90, 100, 110000000000, 110000000000⟩]
    (∀ k ∈ ks.head?, k.amount = 0) ∧ (ks.map Tick.amount).Pairwise (· ≤ ·) ∧ Forward ks ∧ In64 ks ∧
      (match Display.calls {} ks with
      | .ok (_, ls) => ls.map (fun l => (l.amount, l.left, l.delta)) == [(20, 80, 20), (90, 10, 70)]
      | .error _ => false) = true := by
  refine ⟨by decide, by decide, ?_, ?_, by decide⟩
  · unfold Forward; decide
  · intro k hk
    revert k
    decide

/- `C88_round_partial`: 2500 ms are two seconds, 3500 ms are four. -/
example : durRound 1000 2500 = 2 ∧ durRound 1000 3500 = 4 ∧ durRound 1000 2501 = 3 := by decide

/- `C88_floor`, `C88_ceil`, `C88_clock`. -/
example : durFloor 1000 (-1) = -1 ∧ durCeil 1000 (-1) = 0 ∧ wakeAt 5950000000 = 5900000000 ∧ wakeAt 5100000000 = 5900000000 := by decide

/- `C88_visit`, `C88_rekey`, `C88_verify_partial`: any reports at one moment. -/
example (evs : List Event) : Reported evs ((progressed evs).map (fun p => ⟨p.1, p.2, 7, 7⟩)) := by
  unfold Reported; rw [List.map_map]; exact List.map_id' _

end NuDB
