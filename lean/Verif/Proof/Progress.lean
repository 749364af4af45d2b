import Verif.Proof.Silent
/- The progress reports of `verify` on arbitrary files. -/
namespace NuDB

open Spec

/-- Progress reports between `lo` and `hi` have been added. -/
def Went (t lo hi : Nat) (w w' : World) : Prop := ∃ evs, w'.out = w.out ++ evs ∧ Steps t lo hi evs

section
variable {t lo mid hi : Nat} {w w' w'' : World}

theorem Went.quiet (h : w'.out = w.out) : Went t lo hi w w' := ⟨[], by rw [h, List.append_nil], Steps.nil _ _ _⟩

theorem Went.trans (h : Went t lo mid w w') (h' : Went t mid hi w' w'') (h1 : lo ≤ mid) (h2 : mid ≤ hi) : Went t lo hi w w'' := by
  obtain ⟨x, e, s⟩ := h
  obtain ⟨y, e', s'⟩ := h'
  exact ⟨x ++ y, by rw [e', e, List.append_assoc], s.append s' h1 h2⟩

theorem Went.mono {lo' hi' : Nat} (h : Went t lo hi w w') (h1 : lo' ≤ lo) (h2 : hi ≤ hi') : Went t lo' hi' w w' := by
  obtain ⟨x, e, s⟩ := h
  exact ⟨x, e, s.mono h1 h2⟩

theorem Went.emit {n : Nat} (h : w'.out = w.out) (h1 : lo ≤ n) (h2 : n ≤ hi) :
    Went t lo hi w { w' with out := w'.out ++ [.progress n t] } :=
  ⟨[.progress n t], by simp [h], Steps.progress h1 h2⟩

/-- Calls without reports before. -/
theorem Went.after (h : w'.out = w.out) (h' : Went t lo hi w' w'') : Went t lo hi w w'' := by
  obtain ⟨x, e, s⟩ := h'
  exact ⟨x, by rw [e, h], s⟩

end

section
variable {σ : Schedule} {c : Cfg} {α : Type}

theorem Silent.shortAs {m : M α} {e : Err} (h : Silent m) : Silent (shortAs e m) := by
  unfold NuDB.shortAs; silent

theorem wp_shortAs_any {m : M α} {e : Err} {Q : α → World → Prop} {P : World → Prop} {w : World}
    (h : wp σ m Q (fun _ w' => P w') w) : wp σ (shortAs e m) Q (fun _ w' => P w') w := by
  unfold shortAs
  apply wp_bind
  apply wp_attempt
  refine wp_conseq h (fun a w' hq => wp_ret hq) ?_
  intro x w' hp
  cases x with
  | err e' => cases e' <;> exact wp_fail hp
  | _ => exact hp

theorem Silent.readFile {b : Bkt} {p : Path} {o : Nat} : Silent (b.readFile p o) := by
  unfold Bkt.readFile; silent

theorem wp_readBulk_pos {b : Bkt} {r : Reader} {w : World} {Q : Bkt × Reader → World → Prop} {X : Exc → World → Prop} (hr : RPos r)
    (hQ : ∀ b' r' w', RPos r' → r'.last = r.last → r.pos ≤ r'.pos → w'.out = w.out → Q (b', r') w')
    (hX : ∀ x w', w'.out = w.out → X x w') : wp σ (b.readBulk c r) Q X w := by
  unfold Bkt.readBulk
  apply wp_bind
  unfold Bkt.readHead
  apply wp_bind
  apply wp_prepare_pos hr _ hX
  intro bs r1 w1 p1 l1 q1 o1
  apply wp_bind
  apply wp_lift_any _ (fun e _ => hX _ _ o1)
  intro b1 _
  apply wp_ret
  unfold Bkt.readBody
  apply wp_bind
  apply wp_prepare_pos p1 _ (fun x w' h => hX _ _ (h.trans o1))
  intro bs2 r2 w2 p2 l2 q2 o2
  apply wp_bind
  apply wp_lift_any _ (fun e _ => hX _ _ (o2.trans o1))
  intro p _
  exact wp_ret (hQ _ _ _ p2 (l2.trans l1) (by omega) (o2.trans o1))

theorem Silent.seekValue {h o : Nat} : ∀ (fuel : Nat) (b : Bkt) (k : Nat), Silent (seekValue h o fuel b k) := by
  intro fuel
  induction fuel with
  | zero => intro b k; exact Silent.raise _
  | succ n ih =>
    intro b k
    unfold NuDB.seekValue
    apply Silent.bind (Silent.lift _); intro i
    apply Silent.bind (Silent.lift _); intro x
    dsimp only
    split
    · exact Silent.ret _
    · split
      · exact Silent.fail _
      · exact Silent.bind (Silent.shortAs Silent.readFile) fun b => ih _ _

theorem Silent.seekValueFast {h o : Nat} : ∀ (fuel : Nat) (b tmp : Bkt) (k : Nat), Silent (seekValueFast h o fuel b tmp k) := by
  intro fuel
  induction fuel with
  | zero => intro b tmp k; exact Silent.raise _
  | succ n ih =>
    intro b tmp k
    unfold NuDB.seekValueFast
    apply Silent.bind (Silent.lift _); intro i
    apply Silent.bind (Silent.lift _); intro x
    dsimp only
    split
    · exact Silent.ret _
    · split
      · exact Silent.fail _
      · exact Silent.bind (Silent.shortAs Silent.readFile) fun b => ih _ _ _

/-- What one round of `verify_normal` adds. -/
theorem wp_normalStep_any {kh : KeyHeader} {nwork : Nat} {b : Bkt} {r : Reader} {work : Nat} {info : Info} {w : World} (hr : RPos r) :
    wp σ (normalStep c kh nwork b r work info)
      (fun x w' => RPos x.2.1 ∧ x.2.1.last = r.last ∧ r.pos ≤ x.2.1.pos ∧ work ≤ x.2.2.1 ∧
        x.2.2.1 + kh.blockSize * info.valueCount = work + kh.blockSize * x.2.2.2.valueCount ∧
        x.2.2.2.keyCount = info.keyCount ∧ Went nwork (work + r.pos) (x.2.2.1 + r.pos) w w')
      (fun _ w' => w'.out = w.out) w := by
  unfold normalStep
  apply wp_bind
  apply wp_prepare_pos hr _ (fun x w' h => h)
  intro is r1 w1 p1 l1 q1 o1
  dsimp only
  apply wp_bind
  apply wp_lift_any _ (fun e _ => o1)
  intro size _
  split
  · apply wp_bind
    apply wp_prepare_pos p1 _ (fun x w' h => h.trans o1)
    intro is2 r2 w2 p2 l2 q2 o2
    dsimp only
    apply wp_bind
    apply wp_lift_any _ (fun e _ => o2.trans o1)
    intro n _
    apply wp_bind
    apply wp_silent Silent.readFile _ (fun x w' h => h.trans (o2.trans o1))
    intro b3 w3 o3
    apply wp_bind
    apply wp_silent Silent.lookupFuel _ (fun x w' h => h.trans (o3.trans (o2.trans o1)))
    intro fuel w4 o4
    apply wp_bind
    apply wp_silent (Silent.seekValue _ _ _) _ (fun x w' h => h.trans (o4.trans (o3.trans (o2.trans o1))))
    intro fetches w5 o5
    apply wp_bind
    apply wp_emit
    refine wp_ret ⟨p2, l2.trans l1, by show r.pos ≤ r2.pos; omega, by dsimp only; omega, ?_, rfl, ?_⟩
    · simp only [Nat.mul_add, Nat.mul_one]; omega
    · exact Went.emit (o5.trans (o4.trans (o3.trans (o2.trans o1)))) (by omega) (Nat.le_refl _)
  · apply wp_bind
    apply wp_shortAs_any
    apply wp_prepare_pos p1 _ (fun x w' h => h.trans o1)
    intro is2 r2 w2 p2 l2 q2 o2
    dsimp only
    split
    · exact wp_fail (o2.trans o1)
    · apply wp_bind
      apply wp_shortAs_any
      apply wp_readBulk_pos p2 _ (fun x w' h => h.trans (o2.trans o1))
      intro b3 r3 w3 p3 l3 q3 o3
      dsimp only
      apply wp_bind
      apply wp_emit
      exact wp_ret ⟨p3, l3.trans (l2.trans l1), by show r.pos ≤ r3.pos; omega, Nat.le_refl _, rfl, rfl,
        Went.emit (o3.trans (o2.trans o1)) (Nat.le_refl _) (Nat.le_refl _)⟩

theorem wp_normalScan_any {kh : KeyHeader} {nwork : Nat} : ∀ (fuel : Nat) (b : Bkt) (r : Reader) (work : Nat) (info : Info)
    (w : World), RPos r →
    wp σ (normalScan c kh nwork fuel b r work info)
      (fun x w' => work ≤ x.2.1 ∧ x.2.1 + kh.blockSize * info.valueCount = work + kh.blockSize * x.2.2.valueCount ∧
        x.2.2.keyCount = info.keyCount ∧ Went nwork (work + r.pos) (x.2.1 + r.last) w w')
      (fun _ w' => ∃ hi, Went nwork (work + r.pos) hi w w') w := by
  intro fuel
  induction fuel with
  | zero => intro b r work info w _; exact ⟨0, Went.quiet rfl⟩
  | succ n ih =>
    intro b r work info w hr
    unfold normalScan
    split
    · exact wp_ret ⟨Nat.le_refl _, rfl, rfl, Went.quiet rfl⟩
    · apply wp_bind
      refine wp_conseq (wp_normalStep_any hr) ?_ (fun x w' h => ⟨0, Went.quiet h⟩)
      rintro ⟨b', r', work', info'⟩ w' ⟨h1, h2, h3, h4, h5, h6, h7⟩
      dsimp only at h1 h2 h3 h4 h5 h6 h7 ⊢
      have hle := h1.le
      have h7' : Went nwork (work + r.pos) (work' + r'.pos) w w' := h7.mono (Nat.le_refl _) (by omega)
      refine wp_conseq (ih b' r' work' info' w' h1) ?_ ?_
      · rintro ⟨b2, work2, info2⟩ w2 ⟨k1, k2, k3, k4⟩
        dsimp only at k1 k2 k3 k4 ⊢
        rw [h2] at k4 hle
        exact ⟨by omega, by omega, k3.trans h6, h7'.trans k4 (by omega) (by omega)⟩
      · rintro x w2 ⟨hi, k⟩
        refine ⟨max hi (work' + r'.pos), h7'.trans (k.mono (Nat.le_refl _) (by omega)) (by omega) (by omega)⟩

theorem wp_normalEntries_any {kh : KeyHeader} {b : Bkt} {spill : Bool} : ∀ (fuel i work : Nat) (w : World),
    wp σ (normalEntries c kh b spill fuel i work)
      (fun x w' => work ≤ x ∧ x ≤ work + (b.size - i) * adjusted kh.blockSize ∧ (spill = true → x = work) ∧ w'.out = w.out)
      (fun _ w' => w'.out = w.out) w := by
  intro fuel
  induction fuel with
  | zero => intro i work w; rfl
  | succ n ih =>
    intro i work w
    unfold normalEntries
    split
    · rename_i hi
      apply wp_bind
      refine wp_lift_any (fun e _ => ?_) (fun e _ => (rfl : w.out = w.out))
      apply wp_bind
      apply wp_silent (Silent.shortAs Silent.fRead) _ (fun x w' h => h)
      intro pd w1 o1
      dsimp only
      split
      · exact wp_fail o1
      · split
        · exact wp_fail o1
        · refine wp_conseq (ih (i + 1) _ w1) ?_ (fun x w' h => h.trans o1)
          rintro x w' ⟨h1, h2, h3, h4⟩
          have hs : b.size - i = (b.size - (i + 1)) + 1 := by omega
          rw [hs, Nat.add_mul, Nat.one_mul]
          cases spill with
          | true => simp only [if_true] at h1 h2 h3; exact ⟨h1, by omega, fun _ => h3 trivial, h4.trans o1⟩
          | false => simp only [Bool.false_eq_true, if_false] at h1 h2 h3; exact ⟨by omega, by omega, by simp, h4.trans o1⟩
    · exact wp_ret ⟨Nat.le_refl _, Nat.le_add_right _ _, fun _ => rfl, rfl⟩

theorem wp_normalChain_any {kh : KeyHeader} : ∀ (fuel : Nat) (b : Bkt) (spill : Bool) (work nspill : Nat) (info : Info) (w : World),
    wp σ (normalChain c kh fuel b spill work nspill info)
      (fun x w' => work ≤ x.2.1 ∧ x.2.1 + adjusted kh.blockSize * info.keyCount ≤ work + adjusted kh.blockSize * x.2.2.2.keyCount ∧
        x.2.2.2.valueCount = info.valueCount ∧ w'.out = w.out)
      (fun _ w' => w'.out = w.out) w := by
  intro fuel
  induction fuel with
  | zero => intro b spill work nspill info w; rfl
  | succ n ih =>
    intro b spill work nspill info w
    unfold normalChain
    apply wp_bind
    refine wp_conseq (wp_normalEntries_any (b.size + 1) 0 work w) ?_ (fun x w' h => h)
    rintro work1 w1 ⟨h1, h2, _, o1⟩
    have h2' : work1 ≤ work + adjusted kh.blockSize * b.size := by rw [Nat.mul_comm]; simpa using h2
    dsimp only
    split
    · refine wp_ret ⟨h1, ?_, rfl, o1⟩
      simp only [Nat.mul_add]; omega
    · apply wp_bind
      apply wp_silent Silent.readFile _ (fun x w' h => h.trans o1)
      intro b2 w2 o2
      refine wp_conseq (ih b2 true work1 (nspill + 1) _ w2) ?_ (fun x w' h => h.trans (o2.trans o1))
      rintro ⟨b3, work3, nspill3, info3⟩ w3 ⟨k1, k2, k3, k4⟩
      simp only [Nat.mul_add] at k1 k2 k3 ⊢
      exact ⟨by omega, by omega, k3, k4.trans (o2.trans o1)⟩

theorem wp_normalBuckets_any {kh : KeyHeader} {nwork : Nat} : ∀ (k n : Nat) (b : Bkt) (work : Nat) (info : Info) (w : World),
    wp σ (normalBuckets c kh nwork k n b work info)
      (fun x w' => x.valueCount = info.valueCount ∧ ∃ hi, work ≤ hi ∧ Went nwork work hi w w' ∧
        hi + adjusted kh.blockSize * info.keyCount = work + adjusted kh.blockSize * k + adjusted kh.blockSize * x.keyCount)
      (fun _ w' => ∃ hi, Went nwork work hi w w') w := by
  intro k
  induction k with
  | zero => intro n b work info w; exact wp_ret ⟨rfl, work, Nat.le_refl _, Went.quiet rfl, by omega⟩
  | succ k ih =>
    intro n b work info w
    unfold normalBuckets
    apply wp_bind
    apply wp_silent Silent.readFile _ (fun x w' h => ⟨0, Went.quiet h⟩)
    intro b1 w1 o1
    apply wp_bind
    apply wp_silent Silent.lookupFuel _ (fun x w' h => ⟨0, Went.quiet (h.trans o1)⟩)
    intro fuel w2 o2
    apply wp_bind
    refine wp_conseq (wp_normalChain_any fuel b1 false _ 0 info w2) ?_ (fun x w' h => ⟨0, Went.quiet (h.trans (o2.trans o1))⟩)
    rintro ⟨b3, work3, nspill3, info3⟩ w3 ⟨h1, h2, h3, o3⟩
    dsimp only at h1 h2 h3 ⊢
    apply wp_bind
    apply wp_emit
    have go : Went nwork work work3 w { w3 with out := w3.out ++ [.progress work3 nwork] } :=
      Went.emit (o3.trans (o2.trans o1)) (by omega) (Nat.le_refl _)
    refine wp_conseq (ih (n + 1) b3 work3 _ _) ?_ ?_
    · rintro x w4 ⟨k1, hi, k2, k3, k4⟩
      dsimp only at k1 k4
      refine ⟨k1.trans h3, work + adjusted kh.blockSize * (k + 1) + adjusted kh.blockSize * x.keyCount - adjusted kh.blockSize * info.keyCount, ?_,
        go.trans (k3.mono (Nat.le_refl _) ?_) (by omega) ?_, ?_⟩ <;>
      · rw [Nat.mul_add, Nat.mul_one]; omega
    · rintro x w4 ⟨hi, k⟩
      exact ⟨max hi work3, go.trans (k.mono (Nat.le_refl _) (by omega)) (by omega) (by omega)⟩

/-- All reports have the same total and do not decrease. When it succeeds, a bound. -/
theorem wp_verifyNormal_any {kh : KeyHeader} {dat key : Nat} {w : World} (h92 : 92 ≤ dat) :
    wp σ (verifyNormal c kh dat key)
      (fun x w' => ∃ hi, Went (normalWork kh dat key) 0 hi w w' ∧
        hi ≤ dat + kh.blockSize * x.valueCount + adjusted kh.blockSize * (kh.buckets + x.keyCount))
      (fun _ w' => ∃ hi, Went (normalWork kh dat key) 0 hi w w') w := by
  unfold verifyNormal
  apply wp_bind
  apply wp_emit
  have go : Went (normalWork kh dat key) 0 0 w { w with out := w.out ++ [.progress 0 (normalWork kh dat key)] } :=
    Went.emit rfl (Nat.le_refl _) (Nat.le_refl _)
  apply wp_bind
  refine wp_lift_any (fun b _ => ?_) (fun e _ => ⟨0, go⟩)
  apply wp_bind
  refine wp_conseq (wp_normalScan_any (dat + 1) b _ 0 _ _ ⟨by show 92 ≤ dat; exact h92, Nat.zero_le _⟩) ?_ ?_
  · rintro ⟨b2, work2, info2⟩ w2 ⟨h1, h2, h3, h4⟩
    dsimp only at h1 h2 h3 h4 ⊢
    have g2 : Went (normalWork kh dat key) 0 (work2 + dat) w w2 := go.trans (h4.mono (Nat.zero_le _) (Nat.le_refl _)) (Nat.le_refl _) (Nat.zero_le _)
    refine wp_conseq (wp_normalBuckets_any kh.buckets 0 b2 (work2 + dat) info2 w2) ?_ ?_
    · rintro x w3 ⟨k1, hi, k2, k3, k4⟩
      refine ⟨hi, g2.trans k3 (Nat.zero_le _) k2, ?_⟩
      rw [k1, Nat.mul_add]
      rw [h3] at k4
      simp only [Nat.mul_zero] at h2 k4
      omega
    · rintro x w3 ⟨hi, k⟩
      exact ⟨max hi (work2 + dat), g2.trans (k.mono (Nat.le_refl _) (by omega)) (by omega) (by omega)⟩
  · rintro x w2 ⟨hi, k⟩
    exact ⟨hi, go.trans (k.mono (Nat.zero_le _) (Nat.le_refl _)) (Nat.le_refl _) (Nat.zero_le _)⟩

theorem Silent.fastCount : ∀ (fuel s : Nat) (tmp : Bkt) (k n : Nat) (info : Info), Silent (fastCount fuel s tmp k n info) := by
  intro fuel
  induction fuel with
  | zero => intro s tmp k n info; exact Silent.raise _
  | succ m ih =>
    intro s tmp k n info
    unfold NuDB.fastCount
    split
    · exact Silent.bind (Silent.shortAs Silent.readFile) fun b => ih _ _ _ _ _
    · exact Silent.ret _

theorem Silent.fastCounts {bs : Nat} {mem : Bytes} : ∀ (k i : Nat) (tmp : Bkt) (info : Info), Silent (fastCounts bs mem k i tmp info) := by
  intro k
  induction k with
  | zero => intro i tmp info; exact Silent.ret _
  | succ m ih =>
    intro i tmp info
    unfold NuDB.fastCounts
    apply Silent.bind (Silent.lift _); intro b
    apply Silent.bind Silent.lookupFuel; intro fuel
    apply Silent.bind (Silent.fastCount _ _ _ _ _ _); intro x
    dsimp only
    exact Silent.bind (ih _ _ _) fun _ => Silent.ret _

theorem wp_fastStep_any {kh : KeyHeader} {b0 b1 work nwork : Nat} {mem : Bytes} {tmp : Bkt} {nkeys : List Nat} {r : Reader} {info : Info}
    {w : World} (hr : RPos r) :
    wp σ (fastStep c kh b0 b1 work nwork mem tmp nkeys r info)
      (fun x w' => RPos x.2.2.1 ∧ x.2.2.1.last = r.last ∧ r.pos ≤ x.2.2.1.pos ∧ Went nwork (work + r.pos) (work + r.pos) w w')
      (fun _ w' => w'.out = w.out) w := by
  unfold fastStep
  apply wp_bind
  apply wp_shortAs_any
  apply wp_prepare_pos hr _ (fun x w' h => h)
  intro is r1 w1 p1 l1 q1 o1
  dsimp only
  apply wp_bind
  apply wp_lift_any _ (fun e _ => o1)
  intro size _
  split
  · apply wp_bind
    apply wp_shortAs_any
    apply wp_prepare_pos p1 _ (fun x w' h => h.trans o1)
    intro is2 r2 w2 p2 l2 q2 o2
    dsimp only
    have hp : r.pos ≤ r2.pos := by omega
    apply wp_bind
    apply wp_lift_any _ (fun e _ => o2.trans o1)
    intro n _
    split
    · exact wp_ret ⟨p2, l2.trans l1, hp, Went.quiet (o2.trans o1)⟩
    · apply wp_bind
      apply wp_lift_any _ (fun e _ => o2.trans o1)
      intro b _
      apply wp_bind
      apply wp_silent Silent.lookupFuel _ (fun x w' h => h.trans (o2.trans o1))
      intro fuel w4 o4
      apply wp_bind
      apply wp_silent (Silent.seekValueFast _ _ _ _) _ (fun x w' h => h.trans (o4.trans (o2.trans o1)))
      rintro ⟨fetches, tmp5⟩ w5 o5
      dsimp only
      split
      · exact wp_fail (o5.trans (o4.trans (o2.trans o1)))
      · apply wp_bind
        apply wp_emit
        exact wp_ret ⟨p2, l2.trans l1, hp, Went.emit (o5.trans (o4.trans (o2.trans o1))) (Nat.le_refl _) (Nat.le_refl _)⟩
  · apply wp_bind
    apply wp_shortAs_any
    apply wp_prepare_pos p1 _ (fun x w' h => h.trans o1)
    intro is2 r2 w2 p2 l2 q2 o2
    dsimp only
    split
    · exact wp_fail (o2.trans o1)
    · apply wp_bind
      apply wp_shortAs_any
      apply wp_prepare_pos p2 _ (fun x w' h => h.trans (o2.trans o1))
      intro is3 r3 w3 p3 l3 q3 o3
      dsimp only
      have hp : r.pos ≤ r3.pos := by omega
      apply wp_bind
      apply wp_emit
      exact wp_ret ⟨p3, l3.trans (l2.trans l1), hp, Went.emit (o3.trans (o2.trans o1)) (Nat.le_refl _) (Nat.le_refl _)⟩

theorem wp_fastScan_any {kh : KeyHeader} {b0 b1 work nwork : Nat} {mem : Bytes} : ∀ (fuel : Nat) (tmp : Bkt) (nkeys : List Nat) (r : Reader)
    (info : Info) (w : World), RPos r →
    wp σ (fastScan c kh b0 b1 work nwork mem fuel tmp nkeys r info)
      (fun _ w' => Went nwork (work + r.pos) (work + r.last) w w')
      (fun _ w' => Went nwork (work + r.pos) (work + r.last) w w') w := by
  intro fuel
  induction fuel with
  | zero => intro tmp nkeys r info w _; exact Went.quiet rfl
  | succ n ih =>
    intro tmp nkeys r info w hr
    unfold fastScan
    split
    · exact wp_ret (Went.quiet rfl)
    · apply wp_bind
      refine wp_conseq (wp_fastStep_any hr) ?_ (fun x w' h => Went.quiet h)
      rintro ⟨tmp', nkeys', r', info'⟩ w' ⟨h1, h2, h3, h4⟩
      dsimp only at h1 h2 h3 h4 ⊢
      have hle := h1.le
      have h4' : Went nwork (work + r.pos) (work + r'.pos) w w' := h4.mono (Nat.le_refl _) (by omega)
      have go : ∀ w2, Went nwork (work + r'.pos) (work + r'.last) w' w2 → Went nwork (work + r.pos) (work + r.last) w w2 := by
        intro w2 k
        rw [h2] at k hle
        exact h4'.trans k (by omega) (by omega)
      exact wp_conseq (ih tmp' nkeys' r' info' w' h1) (fun _ _ k => go _ k) (fun _ _ k => go _ k)

theorem wp_fastChunks_any {kh : KeyHeader} {dat chunk nwork passes : Nat} (h92 : 92 ≤ dat) (hch : 1 ≤ chunk)
    (hpass : kh.buckets ≤ passes * chunk) : ∀ (fuel i work : Nat) (mem : Bytes) (tmp : Bkt) (info : Info) (w : World), i ≤ passes →
    work ≤ i * dat + i * chunk * kh.blockSize →
    wp σ (fastChunks c kh dat chunk nwork fuel (i * chunk) work mem tmp info)
      (fun _ w' => Went nwork work (passes * dat + kh.buckets * kh.blockSize) w w')
      (fun _ w' => Went nwork work (passes * dat + kh.buckets * kh.blockSize) w w') w := by
  intro fuel
  induction fuel with
  | zero => intro i work mem tmp info w _ _; exact Went.quiet rfl
  | succ n ih =>
    intro i work mem tmp info w hi hw
    unfold fastChunks
    split
    · rename_i hb
      have hlt : i < passes := by
        apply Nat.lt_of_mul_lt_mul_right (a := chunk); omega
      have hmul : (i + 1) * dat ≤ passes * dat := Nat.mul_le_mul_right _ hlt
      have hsucc : (i + 1) * dat = i * dat + dat := Nat.succ_mul _ _
      have hc : (i + 1) * chunk = i * chunk + chunk := Nat.succ_mul _ _
      obtain ⟨b1, hb1⟩ : ∃ b1, b1 = min (i * chunk + chunk) kh.buckets := ⟨_, rfl⟩
      have hb1' : i * chunk ≤ b1 ∧ b1 ≤ kh.buckets ∧ b1 ≤ (i + 1) * chunk := by omega
      have hs1 : i * chunk * kh.blockSize + (b1 - i * chunk) * kh.blockSize = b1 * kh.blockSize := by
        rw [← Nat.add_mul]; congr 1; omega
      have hs2 : b1 * kh.blockSize ≤ kh.buckets * kh.blockSize := Nat.mul_le_mul_right _ hb1'.2.1
      have hs3 : b1 * kh.blockSize ≤ (i + 1) * chunk * kh.blockSize := Nat.mul_le_mul_right _ hb1'.2.2
      rw [← hb1]
      apply wp_bind
      apply wp_silent Silent.fRead _ (fun x w' h => Went.quiet h)
      intro data w1 o1
      apply wp_bind
      apply wp_lift_any _ (fun e _ => Went.quiet o1)
      intro mem' _
      apply wp_bind
      apply wp_emit
      have g1 : Went nwork work (work + (b1 - i * chunk) * kh.blockSize) w
          { w1 with out := w1.out ++ [.progress (work + (b1 - i * chunk) * kh.blockSize) nwork] } :=
        Went.emit o1 (by omega) (Nat.le_refl _)
      apply wp_bind
      apply wp_silent (Silent.fastCounts _ _ _ _)
      rotate_left
      · intro x w2 o2; exact (g1.trans (Went.quiet o2) (by omega) (Nat.le_refl _)).mono (Nat.le_refl _) (by omega)
      rintro ⟨tmp2, nkeys2, info2⟩ w2 o2
      dsimp only
      have g2 : Went nwork work (work + (b1 - i * chunk) * kh.blockSize) w w2 := g1.trans (Went.quiet o2) (by omega) (Nat.le_refl _)
      have hr : RPos (Reader.new c .dat datHeaderSize dat (1024 * kh.blockSize)) := ⟨by show 92 ≤ dat; exact h92, Nat.zero_le _⟩
      have hp : (Reader.new c .dat datHeaderSize dat (1024 * kh.blockSize)).pos = 92 := rfl
      have hl : (Reader.new c .dat datHeaderSize dat (1024 * kh.blockSize)).last = dat := rfl
      have g3 : ∀ w3, Went nwork (work + (b1 - i * chunk) * kh.blockSize + 92) (work + (b1 - i * chunk) * kh.blockSize + dat) w2 w3 →
          Went nwork work (work + (b1 - i * chunk) * kh.blockSize + dat) w w3 := fun w3 k =>
        g2.trans (k.mono (by omega) (Nat.le_refl _)) (by omega) (by omega)
      apply wp_bind
      have key := wp_fastScan_any (σ := σ) (c := c) (kh := kh) (b0 := i * chunk) (b1 := b1) (work := work + (b1 - i * chunk) * kh.blockSize)
        (nwork := nwork) (mem := mem') (dat + 1) tmp2 nkeys2 _ info2 w2 hr
      rw [hp, hl] at key
      refine wp_conseq key ?_ (fun x w3 k => (g3 w3 k).mono (Nat.le_refl _) (by omega))
      rintro ⟨tmp3, nkeys3, info3⟩ w3 k
      dsimp only
      have g4 := g3 w3 k
      split
      · exact wp_fail (g4.mono (Nat.le_refl _) (by omega))
      · have go : ∀ w4, Went nwork (work + (b1 - i * chunk) * kh.blockSize + dat) (passes * dat + kh.buckets * kh.blockSize) w3 w4 →
            Went nwork work (passes * dat + kh.buckets * kh.blockSize) w w4 := fun w4 k => g4.trans k (by omega) (by omega)
        rw [← hc]
        exact wp_conseq (ih (i + 1) _ mem' tmp3 info3 w3 hlt (by omega)) (fun _ _ k => go _ k) (fun _ _ k => go _ k)
    · exact wp_ret (Went.quiet rfl)

theorem wp_verifyFast_any {kh : KeyHeader} {dat key n : Nat} {w : World} (h92 : 92 ≤ dat) (hk : kh.buckets * kh.blockSize ≤ key)
    (hn : fastChunk kh n ≠ 0) :
    wp σ (verifyFast c kh dat key n)
      (fun _ w' => ∃ evs, w'.out = w.out ++ evs ∧ Steady evs) (fun _ w' => ∃ evs, w'.out = w.out ++ evs ∧ Steady evs) w := by
  have fin : ∀ w', Went (fastPasses kh (fastChunk kh n) * dat + key) 0 (fastPasses kh (fastChunk kh n) * dat + kh.buckets * kh.blockSize) w w' →
      ∃ evs, w'.out = w.out ++ evs ∧ Steady evs := by
    rintro w' ⟨evs, h1, h2⟩
    exact ⟨evs, h1, h2.steady (by omega)⟩
  have hpass : kh.buckets ≤ fastPasses kh (fastChunk kh n) * fastChunk kh n := by
    have h0 : 0 < fastChunk kh n := by omega
    unfold fastPasses
    rw [if_pos h0]
    have h1 := Nat.div_add_mod (kh.buckets + fastChunk kh n - 1) (fastChunk kh n)
    have h2 := Nat.mod_lt (kh.buckets + fastChunk kh n - 1) h0
    rw [Nat.mul_comm] at h1
    omega
  unfold verifyFast
  split
  · exact fin _ (Went.quiet rfl)
  · apply wp_bind
    apply wp_emit
    apply wp_bind
    have go : Went (fastPasses kh (fastChunk kh n) * dat + key) 0 0 w
        { w with out := w.out ++ [.progress 0 (fastPasses kh (fastChunk kh n) * dat + key)] } := Went.emit rfl (Nat.le_refl _) (Nat.le_refl _)
    refine wp_lift_any (fun b _ => ?_) (fun e _ => fin _ (go.mono (Nat.le_refl _) (Nat.zero_le _)))
    have key := wp_fastChunks_any (σ := σ) (c := c) (kh := kh) (nwork := fastPasses kh (fastChunk kh n) * dat + key) h92 (by omega) hpass
      (kh.buckets + 1) 0 0 ((c.fresh ((fastChunk kh n + 1) * kh.blockSize)).take (fastChunk kh n * kh.blockSize)) b { algorithm := 1 }
      { w with out := w.out ++ [.progress 0 (fastPasses kh (fastChunk kh n) * dat + key)] } (Nat.zero_le _) (Nat.zero_le _)
    rw [Nat.zero_mul] at key
    exact wp_conseq key (fun _ _ k => fin _ (go.trans k (Nat.le_refl _) (Nat.zero_le _))) (fun _ _ k => fin _ (go.trans k (Nat.le_refl _) (Nat.zero_le _)))

end
end NuDB
