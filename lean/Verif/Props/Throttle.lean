import Verif.Model.Throttle
/-
C61: the data buffered by `insert` is bounded by the speed at which it can be flushed.
-/
namespace NuDB.Throttle

/-- A sequence of possible events in the order of time. -/
inductive Run (c : Fixed) : Store → List Event → Store → Prop
  | nil (s : Store) : Run c s [] s
  | cons {s s' : Store} {e : Event} {es : List Event} (ht : s.now ≤ e.time) (hp : e.Possible s) (h : Run c (e.run c s) es s') :
    Run c s (e :: es) s'

/-- The quotient computed in single precision is at most by one part in 2^20 smaller than the exact one. (There are four roundings
of at most one part in 2^24.) -/
def Fixed.Precise (c : Fixed) : Prop :=
  ∀ work ns, 0 < ns → work * 10 ^ 9 * 2 ^ 20 ≤ c.quot work ns * ns * (2 ^ 20 + 1)

/-- No more than `R` bytes per second are measured, `B` is not exceeded by `set_burst`, `L` not by the values. -/
def Event.Within (c : Fixed) (R B L : Nat) (s : Store) : Event → Prop
  | .insert _ size => size ≤ L
  | .setBurst _ n => n ≤ B
  | .flush _ => True
  | .committed t work => work > s.burst → c.quot work (elapsed s t) ≤ R

/-- All events of a sequence are of this kind. -/
def Limits (c : Fixed) (R B L : Nat) : Store → List Event → Prop
  | _, [] => True
  | s, e :: es => e.Within c R B L s ∧ Limits c R B L (e.run c s) es

/-- Invariant: after the last insert that did not sleep there were `x` bytes, and `k` inserts followed. -/
private structure Inv (c : Fixed) (R B L : Nat) (s : Store) : Prop where
  rate : 0 < s.rate ∧ s.rate ≤ R
  burst : s.burst ≤ B
  empty : s.items = 0 → s.bytes = 0
  time : s.whenT ≤ s.now ∧ s.busy ≤ s.now + 25000000
  work : ∃ x k, work c s ≤ x + k * (L + 3 * c.blockSize) ∧
    (x ≤ B ∨ x * 10 ^ 9 * 2 ^ 20 ≤ R * max 1 (s.now - s.whenT) * (2 ^ 20 + 1)) ∧ (k = 0 ∨ s.whenT + 25000000 * k ≤ s.busy)

private theorem later {R a b x : Nat} (h : x * 10 ^ 9 * 2 ^ 20 ≤ R * max 1 a * (2 ^ 20 + 1)) (hab : a ≤ b) :
    x * 10 ^ 9 * 2 ^ 20 ≤ R * max 1 b * (2 ^ 20 + 1) :=
  Nat.le_trans h (Nat.mul_le_mul_right _ (Nat.mul_le_mul_left _ (by omega)))

private theorem elapsed_eq {s : Store} {t : Nat} (h : s.whenT ≤ t) : elapsed s t = max 1 (t - s.whenT) := by
  unfold elapsed; split <;> omega

private theorem elapsed_pos {s : Store} {t : Nat} : 0 < elapsed s t := by
  unfold elapsed; split <;> omega

private theorem Fixed.Precise.pos {c : Fixed} (hc : c.Precise) {s : Store} {t n : Nat} (hn : s.burst < n) : 0 < c.quot n (elapsed s t) := by
  apply Nat.pos_of_ne_zero
  intro h0
  have := hc n (elapsed s t) elapsed_pos
  rw [h0] at this
  omega

private theorem Inv.step {c : Fixed} {R B L : Nat} {s : Store} (hc : c.Precise) (h : Inv c R B L s) (e : Event) (ht : s.now ≤ e.time)
    (hp : e.Possible s) (hw : e.Within c R B L s) : Inv c R B L (e.run c s) := by
  obtain ⟨hr, hb, he, ⟨ht1, ht2⟩, x, k, h1, h2, h3⟩ := h
  cases e with
  | insert t size =>
    change s.now ≤ t at ht
    change s.busy ≤ t at hp
    change size ≤ L at hw
    have hwk : Throttle.work c (inserted c s t size) ≤ Throttle.work c s + (L + 3 * c.blockSize) := by
      unfold inserted Throttle.work
      dsimp only
      rw [Nat.mul_add, Nat.add_mul]
      omega
    have key : (inserted c s t size).busy = t + 25000000 ∧ ((inserted c s t size).busy = t + 25000000) ∨
        (inserted c s t size).busy = t ∧ (Throttle.work c (inserted c s t size) ≤ B ∨
          Throttle.work c (inserted c s t size) * 10 ^ 9 * 2 ^ 20 ≤ R * max 1 (t - s.whenT) * (2 ^ 20 + 1)) := by
      unfold inserted
      dsimp only
      split
      · exact .inl ⟨rfl, rfl⟩
      · rename_i hs
        refine .inr ⟨rfl, ?_⟩
        unfold sleeps at hs
        simp only [Bool.and_eq_true, decide_eq_true_eq, not_and, Nat.not_lt, ne_eq] at hs
        by_cases hq : s.rate < c.quot (Throttle.work c { s with items := s.items + 1, bytes := s.bytes + size, now := t })
            (elapsed { s with items := s.items + 1, bytes := s.bytes + size, now := t } t)
        · left
          exact Nat.le_trans (hs ⟨by omega, hq⟩) hb
        · right
          have hq := Nat.le_of_not_lt hq
          rw [← elapsed_eq (s := s) (t := t) (by omega)]
          exact Nat.le_trans (hc _ (elapsed s t) elapsed_pos) (Nat.mul_le_mul_right _ (Nat.mul_le_mul_right _ (Nat.le_trans hq hr.2)))
    refine ⟨hr, hb, (fun h => by cases h), ⟨by show s.whenT ≤ t; omega, ?_⟩, ?_⟩
    · show (inserted c s t size).busy ≤ t + 25000000
      rcases key with key | key <;> omega
    · change ∃ x k, Throttle.work c (inserted c s t size) ≤ _ ∧ (_ ∨ _ ≤ R * max 1 (t - s.whenT) * (2 ^ 20 + 1)) ∧
        (_ ∨ s.whenT + 25000000 * k ≤ (inserted c s t size).busy)
      rcases key with ⟨kb, _⟩ | ⟨kb, kw⟩
      · refine ⟨x, k + 1, ?_, h2.imp id (fun h => later h (by omega)), .inr ?_⟩
        · rw [Nat.add_mul]; omega
        · rw [kb]; rcases h3 with h3 | h3 <;> omega
      · exact ⟨_, 0, by omega, kw, .inl rfl⟩
  | setBurst t n =>
    change s.now ≤ t at ht
    exact ⟨hr, hw, he, ⟨by show s.whenT ≤ t; omega, by show s.busy ≤ t + _; omega⟩, x, k, h1, h2.imp id (fun h => later h (by show _ ≤ t - s.whenT; omega)), h3⟩
  | flush t =>
    change s.now ≤ t at ht
    have fin : ∀ s' : Store, s'.rate = s.rate → s'.burst = s.burst → s'.whenT = t → s'.now = t → s'.busy = s.busy →
        s'.items = 0 → s'.bytes = 0 → Inv c R B L s' := by
      intro s' e1 e2 e3 e4 e5 e6 e7
      have hwork : Throttle.work c s' = 0 := by unfold Throttle.work; rw [e6, e7]; simp
      exact ⟨by rw [e1]; exact hr, by rw [e2]; exact hb, fun _ => e7, ⟨by omega, by omega⟩, 0, 0, by omega, .inl (by omega), .inl rfl⟩
    unfold Event.run
    dsimp only
    split
    · rename_i h0
      exact fin _ rfl rfl rfl rfl rfl h0 (he h0)
    · exact fin _ rfl rfl rfl rfl rfl rfl rfl
  | committed t work =>
    change s.now ≤ t at ht
    have hrate : 0 < (Event.run c s (.committed t work)).rate ∧ (Event.run c s (.committed t work)).rate ≤ R := by
      unfold Event.run
      dsimp only
      split
      · rename_i hgt
        exact ⟨hc.pos hgt, hw hgt⟩
      · exact hr
    exact ⟨hrate, hb, he, ⟨by show s.whenT ≤ t; omega, by show s.busy ≤ t + _; omega⟩, x, k, h1, h2.imp id (fun h => later h (by show _ ≤ t - s.whenT; omega)), h3⟩

private theorem Inv.run {c : Fixed} {R B L : Nat} {s s' : Store} {es : List Event} (hc : c.Precise) (h : Inv c R B L s)
    (hr : Run c s es s') (hl : Limits c R B L s es) : Inv c R B L s' := by
  induction hr with
  | nil => exact h
  | cons ht hp _ ih => exact ih (h.step hc _ ht hp hl.1) hl.2

/-- C61: Once a rate has been measured, and as long as the measured rates are at most `R` bytes per second: at any moment the
data in the insert buffer, counted with three blocks for each value, is at most what fits in `B`, or what would be written in the
time since the last flush began at rate `R`; but for one value (of at most `L` bytes) for each 25 ms since then, and one more. -/
theorem C61_bounded {c : Fixed} {R B L : Nat} {s s' : Store} {es : List Event} (hc : c.Precise)
    (h0 : s.items = 0 ∧ s.bytes = 0) (ht : s.whenT ≤ s.now ∧ s.busy ≤ s.now + 25000000)
    (hr : 0 < s.rate ∧ s.rate ≤ R) (hb : s.burst ≤ B) (hl : Limits c R B L s es) (h : Run c s es s') :
    ∃ x, s'.bytes + 3 * s'.items * c.blockSize ≤ x + ((s'.now - s'.whenT) / 25000000 + 1) * (L + 3 * c.blockSize) ∧
      (x ≤ B ∨ x * 10 ^ 9 * 2 ^ 20 ≤ R * max 1 (s'.now - s'.whenT) * (2 ^ 20 + 1)) := by
  have hi : Inv c R B L s :=
    ⟨hr, hb, fun _ => h0.2, ht, 0, 0, by unfold work; rw [h0.1, h0.2]; simp, .inl (by omega), .inl rfl⟩
  obtain ⟨_, _, _, ⟨ht1, ht2⟩, x, k, h1, h2, h3⟩ := hi.run hc h hl
  refine ⟨x, Nat.le_trans h1 (Nat.add_le_add_left (Nat.mul_le_mul_right _ ?_) _), h2⟩
  rcases h3 with h3 | h3
  · omega
  · rw [← Nat.add_div_right _ (by omega), Nat.le_div_iff_mul_le (by omega)]
    omega

/-- C61: after a flush that was larger than the burst size there is a rate, for ever. -/
theorem C61_measured {c : Fixed} {s s' : Store} {es : List Event} {t n : Nat} (hc : c.Precise) (hn : s.burst < n)
    (h : Run c (Event.run c s (.committed t n)) es s') : 0 < s'.rate := by
  have h0 : 0 < (Event.run c s (.committed t n)).rate := by
    unfold Event.run
    dsimp only
    rw [if_pos hn]
    exact hc.pos hn
  generalize Event.run c s (.committed t n) = s₁ at h h0
  induction h with
  | nil => exact h0
  | @cons s s' e es _ _ _ ih =>
    apply ih
    cases e with
    | committed t' n' =>
      unfold Event.run
      dsimp only
      split
      · rename_i h; exact hc.pos h
      · exact h0
    | insert => exact h0
    | setBurst => exact h0
    | flush => unfold Event.run; dsimp only; split <;> exact h0

/-- C61: before that, there is no bound: any number of values can be inserted within no time. -/
theorem C61_unmeasured (c : Fixed) (t size k : Nat) :
    ∃ s, Run c (opened t) (List.replicate k (.insert t size)) s ∧ s.now = t ∧ s.whenT = t ∧ s.items = k ∧ s.bytes = k * size := by
  have : ∀ k s, s.rate = 0 → s.now = t → s.busy = t →
      ∃ s', Run c s (List.replicate k (.insert t size)) s' ∧ s'.now = t ∧ s'.whenT = s.whenT ∧ s'.items = s.items + k ∧
        s'.bytes = s.bytes + k * size := by
    intro k
    induction k with
    | zero => intro s _ h _; exact ⟨s, .nil s, h, rfl, rfl, by omega⟩
    | succ k ih =>
      intro s hr h1 h2
      obtain ⟨s', g1, g2, g3, g4, g5⟩ := ih (inserted c s t size) hr rfl (by simp [inserted, sleeps, hr])
      refine ⟨s', .cons (Nat.le_of_eq h1) (Nat.le_of_eq h2) g1, g2, g3, ?_, ?_⟩
      · rw [g4]; show s.items + 1 + k = _; omega
      · rw [g5, Nat.add_mul]; show s.bytes + size + _ = _; omega
  obtain ⟨s, h1, h2, h3, h4, h5⟩ := this k (opened t) rfl rfl rfl
  exact ⟨s, h1, h2, h3, by simpa [opened] using h4, by simpa [opened] using h5⟩

/-- Exact quotients, rounded up. -/
def exactly : Fixed := { blockSize := 4096, quot := fun w ns => (w * 10 ^ 9 + (ns - 1)) / ns }

theorem precise_exactly : exactly.Precise := by
  intro w ns hn
  show w * 10 ^ 9 * 2 ^ 20 ≤ (w * 10 ^ 9 + (ns - 1)) / ns * ns * (2 ^ 20 + 1)
  have := Nat.div_add_mod (w * 10 ^ 9 + (ns - 1)) ns
  have h2 := Nat.mod_lt (w * 10 ^ 9 + (ns - 1)) hn
  rw [Nat.mul_comm] at this
  generalize (w * 10 ^ 9 + (ns - 1)) / ns * ns = q at *
  omega

/-- A store that writes one megabyte per second, and accepts bursts of a hundred thousand bytes. -/
def demo : Store := { opened 0 with rate := 1000000, burst := 100000 }

/-- Five values of 20000 bytes come as fast as possible; the last two inserts sleep. Then more while a commit runs and afterwards. -/
def demoEvents : List Event :=
  [.insert 0 20000, .insert 0 20000, .insert 0 20000, .insert 25000000 20000, .insert 50000000 20000, .flush 60000000,
    .insert 75000000 20000, .committed 900000000 300000, .insert 1000000000 20000]

/-- The premises of `C61_bounded` and `C61_measured`; two of the inserts sleep. -/
example : exactly.Precise ∧ demo.items = 0 ∧ demo.burst < 300000 ∧ Limits exactly 1000000 100000 20000 demo demoEvents ∧
    (∃ s, Run exactly demo demoEvents s ∧ s.items = 2 ∧ s.rate = 357143) ∧
    (∃ s, Run exactly demo (demoEvents.take 4) s ∧ s.now = 25000000 ∧ s.busy = 50000000) := by
  refine ⟨precise_exactly, rfl, by decide, ?_, ⟨demoEvents.foldl (Event.run exactly) demo, ?_, rfl, rfl⟩,
    ⟨(demoEvents.take 4).foldl (Event.run exactly) demo, ?_, rfl, rfl⟩⟩
  · simp [demoEvents, Limits, Event.Within, Event.run, inserted, sleeps, demo, opened, exactly, work, elapsed]
  · unfold demoEvents
    iterate 9 refine Run.cons (Nat.le_of_ble_eq_true rfl) (by first | exact Nat.le_of_ble_eq_true rfl | rfl) ?_
    exact .nil _
  · unfold demoEvents
    iterate 4 refine Run.cons (Nat.le_of_ble_eq_true rfl) (by first | exact Nat.le_of_ble_eq_true rfl | rfl) ?_
    exact .nil _

end NuDB.Throttle
