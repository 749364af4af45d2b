import Verif.Props.Demo
/-
C24 and C25: `create`.
-/
namespace NuDB

open Spec

section
variable {c : Cfg} {σ : Schedule}

/-- Files of `fs₀` are as they were. -/
private def Keeps (fs₀ : Fs) (w : World) : Prop := ∀ q, fs₀ q ≠ none → w.fs q = fs₀ q

/-- An error code, or death of the process. -/
private def Reported (σ : Schedule) (x : Exc) : Prop := (x = .crash ∧ Faulty σ) ∨ ∃ e, x = .err e

private theorem keeps_create {fs₀ : Fs} {p : Path} {w : World} (h : Keeps fs₀ w) :
    wp σ (fCreate p) (fun _ w' => w.fs p = none ∧ Keeps fs₀ w') (fun x w' => Keeps fs₀ w' ∧ Reported σ x) w := by
  have hn : w.fs p = none → fs₀ p = none := by
    intro hp
    apply Classical.byContradiction
    intro hc
    rw [← h p hc] at hc
    exact hc hp
  have hset : w.fs p = none → Keeps fs₀ (w.tick (w.fs.set p (some (FileSt.clean [])))) := by
    intro hp q hq
    have : q ≠ p := by intro e; subst e; exact hq (hn hp)
    simp only [tick_fs, Fs.set, this, if_false]
    exact h q hq
  cases hp : w.fs p with
  | none =>
    apply wp_fCreate hp ⟨rfl, hset hp⟩
    intro x hx hf
    have : Reported σ x := hx.elim (fun e => .inl ⟨e, hf⟩) (fun e => .inr ⟨_, e⟩)
    exact ⟨⟨h, this⟩, ⟨hset hp, this⟩⟩
  | some f =>
    apply wp_fCreate_some hp ⟨h, .inr ⟨_, rfl⟩⟩
    intro x hx hf
    exact ⟨h, hx.elim (fun e => .inl ⟨e, hf⟩) (fun e => .inr ⟨_, e⟩)⟩

private theorem keeps_erase {fs₀ : Fs} {p : Path} {w : World} (h : Keeps fs₀ w) (hp : fs₀ p = none) :
    wp σ (eraseQuiet p) (fun _ w' => Keeps fs₀ w') (fun x w' => Keeps fs₀ w' ∧ Reported σ x) w := by
  unfold eraseQuiet
  apply wp_bind
  apply wp_attempt
  have hset : Keeps fs₀ (w.tick (w.fs.set p none)) := by
    intro q hq
    have : q ≠ p := by intro e; subst e; exact hq hp
    simp only [tick_fs, Fs.set, this, if_false]
    exact h q hq
  have hX : ∀ x, IsFault x → Faulty σ →
      (match x with
        | .err e => wp σ (M.ret ()) (fun _ w' => Keeps fs₀ w') (fun x w' => Keeps fs₀ w' ∧ Reported σ x) (w.tick w.fs)
        | x => Keeps fs₀ (w.tick w.fs) ∧ Reported σ x) := by
    intro x hx hf
    rcases hx with rfl | rfl
    · exact ⟨h, .inl ⟨rfl, hf⟩⟩
    · exact wp_ret h
  cases h1 : w.fs p with
  | none => exact wp_fErase_none h1 (wp_ret h) hX
  | some f => exact wp_fErase h1 (wp_ret hset) hX

/-- C25: whatever the arguments and whatever fails, `create` does not touch files that exist,
and it does not succeed if there are any. -/
theorem C25_existing (asserts : Bool) (a : CreateArgs) (σ : Schedule) (w : World) (hex : ∃ p, w.fs p ≠ none) :
    ∃ x w', create c asserts a σ w = (.error x, w') ∧ ((x = .crash ∧ Disturbed σ) ∨ ∃ e, x = .err e) ∧
      ∀ p, w.fs p ≠ none → w'.fs p = w.fs p := by
  have key : wp σ (create c asserts a) (fun _ _ => False) (fun x w' => Keeps w.fs w' ∧ Reported σ x) w := by
    have h0 : Keeps w.fs w := fun _ _ => rfl
    have hE : ∀ {e : Err} {w' : World}, Keeps w.fs w' →
        wp σ (M.fail e : M Unit) (fun _ _ => False) (fun x w' => Keeps w.fs w' ∧ Reported σ x) w' :=
      fun h => wp_fail ⟨h, .inr ⟨_, rfl⟩⟩
    unfold create
    split
    · exact hE h0
    split
    · exact hE h0
    split
    · exact hE h0
    split
    · exact hE h0
    apply wp_bind
    apply wp_attempt
    refine wp_conseq (keeps_create h0) ?_ ?_
    rotate_left
    · rintro x w1 ⟨h1, h2⟩
      rcases h2 with ⟨rfl, hf⟩ | ⟨e, rfl⟩
      · exact ⟨h1, .inl ⟨rfl, hf⟩⟩
      · exact hE h1
    rintro _ w1 ⟨hd, h1⟩
    apply wp_bind
    apply wp_attempt
    refine wp_conseq (keeps_create h1) ?_ ?_
    rotate_left
    · rintro x w2 ⟨h2, h3⟩
      rcases h3 with ⟨rfl, hf⟩ | ⟨e, rfl⟩
      · exact ⟨h2, .inl ⟨rfl, hf⟩⟩
      · exact wp_bind (wp_post (keeps_erase h2 hd) (fun _ _ h => hE h))
    rintro _ w2 ⟨hk1, h2⟩
    have hk : w.fs .key = none := by
      apply Classical.byContradiction
      intro hc
      rw [h1 _ hc] at hk1
      exact hc hk1
    apply wp_bind
    apply wp_attempt
    refine wp_conseq (keeps_create h2) ?_ ?_
    rotate_left
    · rintro x w3 ⟨h3, h4⟩
      rcases h4 with ⟨rfl, hf⟩ | ⟨e, rfl⟩
      · exact ⟨h3, .inl ⟨rfl, hf⟩⟩
      · exact wp_bind (wp_post (keeps_erase h3 hd) (fun _ _ h =>
          wp_bind (wp_post (keeps_erase h hk) (fun _ _ h => hE h))))
    rintro _ w3 ⟨hl1, h3⟩
    have hl : w.fs .log = none := by
      apply Classical.byContradiction
      intro hc
      rw [h2 _ hc] at hl1
      exact hc hl1
    obtain ⟨p, hp⟩ := hex
    cases p
    · exact absurd hd hp
    · exact absurd hk hp
    · exact absurd hl hp
  unfold wp at key
  split at key
  · exact key.elim
  · rename_i x w' e
    exact ⟨x, w', e, key.2, key.1⟩

private theorem clk_fileOp {α : Type} {ok : Fs → Except Exc α × Fs} {part : Fs → Nat → Fs} {Q : α → World → Prop}
    {X : Exc → World → Prop} {w : World}
    (hok : match ok w.fs with
      | (.ok a, fs') => Q a ⟨fs', w.clock + 1, w.out⟩
      | (.error x, fs') => X x ⟨fs', w.clock + 1, w.out⟩)
    (hfail : ∀ k, σ w.clock = .fail k → X (.err .io) ⟨part w.fs k, w.clock + 1, w.out⟩)
    (hcrash : ∀ k, X .crash ⟨part w.fs k, w.clock + 1, w.out⟩) :
    wp σ (fileOp ok part) Q X w := by
  unfold wp fileOp
  cases hs : σ w.clock with
  | none =>
    simp only
    split at hok
    · rename_i e; rw [e]; exact hok
    · rename_i e; rw [e]; exact hok
  | fail k => exact hfail k hs
  | crash k => exact hcrash k

/-- Error codes come from failing file operations. -/
private structure Blames (m : M α) : Prop where
  mono : ∀ σ w, w.clock ≤ (m σ w).2.clock
  err : ∀ σ w e w', m σ w = (.error (.err e), w') → ∃ i k, w.clock ≤ i ∧ i < w'.clock ∧ σ i = .fail k

private theorem Blames.bind {α β : Type} {m : M α} {k : α → M β} (h : Blames m) (hk : ∀ a, Blames (k a)) : Blames (m >>= k) := by
  constructor
  · intro σ w
    show w.clock ≤ (M.bind m k σ w).2.clock
    unfold M.bind
    have := h.mono σ w
    split
    · rename_i a w' e; rw [e] at this; exact Nat.le_trans this ((hk a).mono σ w')
    · rename_i x w' e; rw [e] at this; exact this
  · intro σ w e w' he
    have he : M.bind m k σ w = _ := he
    unfold M.bind at he
    have h1 := h.mono σ w
    split at he
    · rename_i a w1 e1
      rw [e1] at h1
      obtain ⟨i, n, g1, g2, g3⟩ := (hk a).err σ w1 e w' he
      exact ⟨i, n, Nat.le_trans h1 g1, g2, g3⟩
    · rename_i x w1 e1
      cases he
      exact h.err σ w e _ e1

private theorem Blames.lift {α : Type} {r : Res α} (h : ∀ e, r ≠ .error (.err e)) : Blames (M.lift r) := by
  constructor
  · intro σ w; exact Nat.le_refl _
  · intro σ w e w' he
    simp only [M.lift, Prod.mk.injEq] at he
    exact absurd he.1 (h e)

private theorem Blames.fileOp {α : Type} {ok : Fs → Except Exc α × Fs} {part : Fs → Nat → Fs}
    (h : ∀ fs e, (ok fs).1 ≠ .error (.err e)) : Blames (fileOp ok part) := by
  constructor
  · intro σ w
    unfold NuDB.fileOp
    split <;> simp
  · intro σ w e w' he
    unfold NuDB.fileOp at he
    split at he
    · simp only [Prod.mk.injEq] at he
      exact absurd he.1 (h _ _)
    · rename_i k hk
      simp only [Prod.mk.injEq] at he
      obtain ⟨_, rfl⟩ := he
      exact ⟨w.clock, k, Nat.le_refl _, Nat.lt_succ_self _, hk⟩
    · simp at he

private theorem Blames.fAppend {p : Path} {o : Nat} {bs : Bytes} : Blames (fAppend p o bs) := by
  apply Blames.fileOp
  intro fs e
  repeat' split
  all_goals simp

private theorem Blames.fSync {p : Path} : Blames (fSync p) := by
  apply Blames.fileOp
  intro fs e
  split <;> simp

private theorem createBody_blames {asserts : Bool} {a : CreateArgs} (hb : 1 ≤ bucketCapacity a.blockSize) (hb2 : a.blockSize < 2 ^ 16) :
    Blames (createBody c asserts a) := by
  have h104 : 104 ≤ a.blockSize := by
    unfold bucketCapacity keyHeaderSize at hb
    split at hb
    · omega
    · rename_i h; simp at h; omega
  unfold createBody
  apply Blames.bind
  · apply Blames.lift
    intro e
    unfold Load.fixed
    split
    · simp
    · simp
    · split <;> simp
  intro lf
  simp only
  apply Blames.bind
  · apply Blames.lift
    intro e
    unfold assert
    split <;> simp
  intro _
  apply Blames.bind Blames.fAppend
  intro _
  rw [if_neg (by simp only [CreateArgs.kh, keyHeaderSize]; omega)]
  apply Blames.bind
  · apply Blames.lift
    intro e
    unfold keyHeaderBlock poke
    split <;> simp
  intro blk
  apply Blames.bind Blames.fAppend
  intro _
  apply Blames.bind
  · apply Blames.lift
    intro e
    rw [ofEmpty_ok (by simp)]
    simp
  intro b
  apply Blames.bind
  · apply Blames.lift
    intro e
    unfold Bkt.padded
    repeat' first | split | simp | (unfold poke)
  intro blk
  apply Blames.bind Blames.fAppend
  intro _
  apply Blames.bind Blames.fSync
  intro _
  apply Blames.bind Blames.fSync
  intro _
  exact Blames.fSync

private theorem clk_create {p : Path} {w : World} (h : w.fs p = none) :
    wp σ (fCreate p) (fun _ w' => w'.clock = w.clock + 1 ∧ ∀ q, q ≠ p → w'.fs q = w.fs q)
      (fun x w' => w'.clock = w.clock + 1 ∧ ∀ e, x = .err e → ∃ k, σ w.clock = .fail k ∧ (k = 0 → w'.fs = w.fs)) w := by
  unfold fCreate
  apply clk_fileOp
  · simp only [h]
    exact ⟨trivial, fun q hq => by simp [Fs.set, hq]⟩
  · intro k hk
    refine ⟨rfl, fun e _ => ⟨k, hk, ?_⟩⟩
    rintro rfl
    simp
  · intro k
    exact ⟨rfl, fun e h => by cases h⟩

private theorem clk_exists {p : Path} {w : World} (h : w.fs p ≠ none) :
    wp σ (fCreate p) (fun _ _ => False) (fun x w' => w'.clock = w.clock + 1 ∧ ∀ e, x = .err e → w'.fs = w.fs) w := by
  obtain ⟨f, hf⟩ := Option.ne_none_iff_exists'.1 h
  apply wp_fCreate_some hf
  · exact ⟨rfl, fun _ _ => rfl⟩
  · intro x _ _
    exact ⟨rfl, fun _ _ => rfl⟩

private theorem clk_erase {p : Path} {w : World} (h : ∀ i k, w.clock ≤ i → σ i ≠ .fail k) :
    wp σ (eraseQuiet p) (fun _ w' => w'.fs p = none ∧ (∀ q, q ≠ p → w'.fs q = w.fs q) ∧ w.clock ≤ w'.clock)
      (fun x _ => ∀ e, x ≠ .err e) w := by
  unfold eraseQuiet fErase
  apply wp_bind
  apply wp_attempt
  apply clk_fileOp
  · cases h1 : w.fs p with
    | none => exact wp_ret ⟨h1, fun _ _ => rfl, by simp⟩
    | some f => exact wp_ret ⟨by simp [Fs.set], fun q hq => by simp [Fs.set, hq], by simp⟩
  · intro k hk; exact absurd hk (h _ _ (Nat.le_refl _))
  · intro k e he; cases he

/-- C25: if `create` reports an error, files that did not exist before do not exist
afterwards. Assumed: at most one file operation fails (the removal of the files may fail, too,
which nobody can mend), and a failing creation of a file makes no file (`C25_fadvise` shows
that it can happen otherwise). -/
theorem C25_cleanup_partial (asserts : Bool) (a : CreateArgs) (σ : Schedule) (w w' : World) (e : Err)
    (hnew : ∀ p, w.fs p = none) (hone : ∀ i j k l, σ i = .fail k → σ j = .fail l → i = j)
    (hclean : ∀ i k, i < 3 → σ (w.clock + i) = .fail k → k = 0)
    (h : create c asserts a σ w = (.error (.err e), w')) : ∀ p, w'.fs p = none := by
  have key : wp σ (create c asserts a) (fun _ _ => True) (fun x w' => ∀ e, x = .err e → ∀ p, w'.fs p = none) w := by
    have hE : ∀ {e : Err} {w' : World}, (∀ p, w'.fs p = none) →
        wp σ (M.fail e : M Unit) (fun _ _ => True) (fun x w' => ∀ e, x = .err e → ∀ p, w'.fs p = none) w' :=
      fun h => wp_fail (fun _ _ => h)
    have hX : ∀ {x : Exc} {w' : World}, (∀ e, x ≠ .err e) → ∀ e, x = .err e → ∀ p, w'.fs p = none :=
      fun h e he => absurd he (h e)
    have later : ∀ {i k n}, σ i = .fail k → i < n → ∀ j l, n ≤ j → σ j ≠ .fail l := by
      intro i k n h1 h2 j l h3 h4
      have := hone _ _ _ _ h1 h4
      omega
    unfold create
    split
    · exact hE hnew
    split
    · exact hE hnew
    rename_i hb
    split
    · exact hE hnew
    split
    · exact hE hnew
    rename_i hcap
    apply wp_bind
    apply wp_attempt
    refine wp_conseq (clk_create (hnew _)) ?_ ?_
    rotate_left
    · rintro x w1 ⟨_, h2⟩
      cases x <;> first | (intro e' he'; exact Exc.noConfusion he') | skip
      rename_i e
      obtain ⟨k, hk, h3⟩ := h2 e rfl
      exact hE (by rw [h3 (hclean 0 k (by omega) hk)]; exact hnew)
    rintro _ w1 ⟨hc1, h1⟩
    apply wp_bind
    apply wp_attempt
    refine wp_conseq (clk_create (by rw [h1 _ (by decide)]; exact hnew _)) ?_ ?_
    rotate_left
    · rintro x w2 ⟨hc2, h2⟩
      cases x <;> first | (intro e' he'; exact Exc.noConfusion he') | skip
      rename_i e
      obtain ⟨k, hk, h3⟩ := h2 e rfl
      have h3 := h3 (hclean 1 k (by omega) (by rw [← hc1]; exact hk))
      apply wp_bind
      refine wp_conseq (clk_erase (later hk (by omega))) ?_ (fun x _ h => hX h)
      rintro _ w3 ⟨e1, e2, _⟩
      apply hE
      intro p
      cases p
      · exact e1
      · rw [e2 _ (by decide), h3, h1 _ (by decide)]; exact hnew _
      · rw [e2 _ (by decide), h3, h1 _ (by decide)]; exact hnew _
    rintro _ w2 ⟨hc2, h2⟩
    apply wp_bind
    apply wp_attempt
    refine wp_conseq (clk_create (by rw [h2 _ (by decide), h1 _ (by decide)]; exact hnew _)) ?_ ?_
    rotate_left
    · rintro x w3 ⟨hc3, h3⟩
      cases x <;> first | (intro e' he'; exact Exc.noConfusion he') | skip
      rename_i e
      obtain ⟨k, hk, h4⟩ := h3 e rfl
      have h4 := h4 (hclean 2 k (by omega) (by rw [← hk, hc2, hc1]))
      apply wp_bind
      refine wp_conseq (clk_erase (later hk (by omega))) ?_ (fun x _ h => hX h)
      rintro _ w4 ⟨e1, e2, e3⟩
      apply wp_bind
      refine wp_conseq (clk_erase (later hk (by omega))) ?_ (fun x _ h => hX h)
      rintro _ w5 ⟨g1, g2, g3⟩
      apply hE
      intro p
      cases p
      · rw [g2 _ (by decide)]; exact e1
      · exact g1
      · rw [g2 _ (by decide), e2 _ (by decide), h4, h2 _ (by decide), h1 _ (by decide)]; exact hnew _
    rintro _ w3 ⟨hc3, h3⟩
    apply wp_bind
    apply wp_attempt
    have hbl := createBody_blames (c := c) (asserts := asserts) (a := a) (by omega) (by omega)
    unfold wp
    split
    · rename_i h4; exact trivial
    · rename_i x w4 h4
      cases x <;> first | (intro e' he'; exact Exc.noConfusion he') | skip
      rename_i e
      obtain ⟨i, k, g1, g2, g3⟩ := hbl.err _ _ _ _ h4
      apply wp_bind
      refine wp_conseq (clk_erase (later g3 (by omega))) ?_ (fun x _ h => hX h)
      rintro _ w5 ⟨a1, a2, a3⟩
      apply wp_bind
      refine wp_conseq (clk_erase (later g3 (by omega))) ?_ (fun x _ h => hX h)
      rintro _ w6 ⟨b1, b2, b3⟩
      apply wp_bind
      refine wp_conseq (clk_erase (later g3 (by omega))) ?_ (fun x _ h => hX h)
      rintro _ w7 ⟨d1, d2, d3⟩
      apply hE
      intro p
      cases p
      · rw [d2 _ (by decide), b2 _ (by decide)]; exact a1
      · rw [d2 _ (by decide)]; exact b1
      · exact d1
  exact wp_elim_error key h e rfl

/-- C25: if some of the files exist and no file operation fails, everything is as before. -/
theorem C25_existing_cleanup (asserts : Bool) (a : CreateArgs) (σ : Schedule) (w : World) (hex : ∃ p, w.fs p ≠ none)
    (hcalm : ∀ i, σ i = .none) : ∃ e w', create c asserts a σ w = (.error (.err e), w') ∧ ∀ p, w'.fs p = w.fs p := by
  obtain ⟨x, w', h1, h2, h3⟩ := C25_existing (c := c) asserts a σ w hex
  have hno : ∀ i k, σ i ≠ .fail k := fun i k h => by rw [hcalm i] at h; cases h
  have h2 : ∃ e, x = .err e := by
    rcases h2 with ⟨_, i, hi⟩ | h2
    · exact absurd (hcalm i) hi
    · exact h2
  obtain ⟨e, rfl⟩ := h2
  refine ⟨e, w', h1, ?_⟩
  have key : wp σ (create c asserts a) (fun _ _ => True) (fun x w' => ∀ e, x = .err e → ∀ p, w'.fs p = w.fs p) w := by
    have hE : ∀ {e : Err} {w' : World}, (∀ p, w'.fs p = w.fs p) →
        wp σ (M.fail e : M Unit) (fun _ _ => True) (fun x w' => ∀ e, x = .err e → ∀ p, w'.fs p = w.fs p) w' :=
      fun h => wp_fail (fun _ _ => h)
    have h0 : ∀ p, w.fs p = w.fs p := fun _ => rfl
    have hX : ∀ {x : Exc} {w' : World}, (∀ e, x ≠ .err e) → ∀ e, x = .err e → ∀ p, w'.fs p = w.fs p :=
      fun h e he => absurd he (h e)
    unfold create
    split
    · exact hE h0
    split
    · exact hE h0
    split
    · exact hE h0
    split
    · exact hE h0
    apply wp_bind
    apply wp_attempt
    by_cases hd : w.fs .dat = none
    rotate_left
    · refine wp_conseq (clk_exists hd) (fun _ _ h => h.elim) ?_
      rintro x w1 ⟨_, g⟩
      cases x <;> first | (intro e' he'; exact Exc.noConfusion he') | skip
      exact hE (fun p => by rw [g _ rfl])
    refine wp_conseq (clk_create hd) ?_ ?_
    rotate_left
    · rintro x w1 ⟨_, h2⟩
      cases x <;> first | (intro e' he'; exact Exc.noConfusion he') | skip
      obtain ⟨k, hk, _⟩ := h2 _ rfl
      exact absurd hk (hno _ _)
    rintro _ w1 ⟨hc1, h1⟩
    apply wp_bind
    apply wp_attempt
    by_cases hk : w.fs .key = none
    rotate_left
    · refine wp_conseq (clk_exists (by rw [h1 _ (by decide)]; exact hk)) (fun _ _ h => h.elim) ?_
      rintro x w2 ⟨_, g⟩
      cases x <;> first | (intro e' he'; exact Exc.noConfusion he') | skip
      apply wp_bind
      refine wp_conseq (clk_erase (fun i k _ => hno i k)) ?_ (fun x _ h => hX h)
      rintro _ w3 ⟨e1, e2, _⟩
      apply hE
      intro p
      cases p
      · rw [e1, hd]
      · rw [e2 _ (by decide), g _ rfl, h1 _ (by decide)]
      · rw [e2 _ (by decide), g _ rfl, h1 _ (by decide)]
    refine wp_conseq (clk_create (by rw [h1 _ (by decide)]; exact hk)) ?_ ?_
    rotate_left
    · rintro x w1 ⟨_, h2⟩
      cases x <;> first | (intro e' he'; exact Exc.noConfusion he') | skip
      obtain ⟨k, hk, _⟩ := h2 _ rfl
      exact absurd hk (hno _ _)
    rintro _ w2 ⟨hc2, h2⟩
    apply wp_bind
    apply wp_attempt
    have hl : w.fs .log ≠ none := by
      intro hl
      obtain ⟨p, hp⟩ := hex
      cases p
      · exact hp hd
      · exact hp hk
      · exact hp hl
    refine wp_conseq (clk_exists (by rw [h2 _ (by decide), h1 _ (by decide)]; exact hl)) (fun _ _ h => h.elim) ?_
    rintro x w3 ⟨_, g⟩
    cases x <;> first | (intro e' he'; exact Exc.noConfusion he') | skip
    apply wp_bind
    refine wp_conseq (clk_erase (fun i k _ => hno i k)) ?_ (fun x _ h => hX h)
    rintro _ w4 ⟨e1, e2, _⟩
    apply wp_bind
    refine wp_conseq (clk_erase (fun i k _ => hno i k)) ?_ (fun x _ h => hX h)
    rintro _ w5 ⟨f1, f2, _⟩
    apply hE
    intro p
    cases p
    · rw [f2 _ (by decide), e1, hd]
    · rw [f1, hk]
    · rw [f2 _ (by decide), e2 _ (by decide), g _ rfl, h2 _ (by decide), h1 _ (by decide)]
  exact wp_elim_error key h1 e rfl

/-- What a call reported and which files there are afterwards. -/
def sketch {α : Type} (r : Except Exc α × World) : Option Exc × Bool × Bool × Bool :=
  (match r.1 with | .ok _ => none | .error x => some x, (r.2.fs .dat).isSome, (r.2.fs .key).isSome, (r.2.fs .log).isSome)

/-- The full claim of C25 is false: if `posix_fadvise` fails after the file was made, `create`
reports an error and leaves an empty file. -/
theorem C25_fadvise : sketch (create demoCfg true demoArgs (faultAt 0 (.fail 1) ⟨fun _ => none, 0, []⟩) ⟨fun _ => none, 0, []⟩) =
    (some (.err .io), true, false, false) := by decide +kernel

/-- The premises of C25: there is a key file; a write of the key file header fails after 30 bytes. -/
example : sketch (create demoCfg true demoArgs calm ⟨fun p => if p = .key then some (FileSt.clean [1, 2, 3]) else none, 0, []⟩) =
      (some (.err .file_exists), false, true, false) ∧
    sketch (create demoCfg true demoArgs (faultAt 4 (.fail 30) ⟨fun _ => none, 0, []⟩) ⟨fun _ => none, 0, []⟩) =
      (some (.err .io), false, false, false) ∧
    (∀ i j k l, faultAt 4 (.fail 30) ⟨fun _ => none, 0, []⟩ i = .fail k → faultAt 4 (.fail 30) ⟨fun _ => none, 0, []⟩ j = .fail l → i = j) ∧
    (∀ i k, i < 3 → faultAt 4 (.fail 30) ⟨fun _ => none, 0, []⟩ (0 + i) = .fail k → k = 0) := by
  refine ⟨by decide +kernel, by decide +kernel, ?_, ?_⟩
  · intro i j k l
    simp only [faultAt]
    split <;> split <;> simp <;> omega
  · intro i k hi
    simp only [faultAt]
    rw [if_neg (by omega)]
    simp

/-- C24: after a successful `create`, and even if the machine fails then, an undisturbed `open`
succeeds, the parameters are as given, and there are no values. Assumed: the key size is at
most 65535 and the load factor at least 1/65536 (see below). -/
theorem C24_new_database_partial {asserts : Bool} {a : CreateArgs} {w₀ w₁ w : World} {num : Int} {den : Nat}
    (huid : a.uid < 2 ^ 64) (happ : a.appnum < 2 ^ 64) (hsalt : a.salt < 2 ^ 64)
    (hkey : a.keySize < 2 ^ 16) (hload : a.load = .rat num den) (hsmall : den ≤ 65536 * num)
    (hc : create c asserts a σ w₀ = (.ok (), w₁)) (hw : Restart w₁.fs w.fs) :
    ∃ s w', openStore c calm w = (.ok s, w') ∧ s.kh.appnum = a.appnum ∧ s.kh.uid = a.uid ∧ s.kh.keySize = a.keySize ∧
      s.kh.blockSize = a.blockSize ∧ Lookups c a.keySize s w'.fs Map.empty := by
  have hnew : ∀ p, w₀.fs p = none := by
    intro p
    apply Classical.byContradiction
    intro hp
    obtain ⟨x, w', h1, _⟩ := C25_existing (c := c) asserts a σ w₀ ⟨p, hp⟩
    rw [h1] at hc
    cases hc
  have hargs : 1 ≤ a.keySize ∧ a.blockSize < 2 ^ 16 ∧ a.load.bad = false ∧ 1 ≤ bucketCapacity a.blockSize := by
    unfold create at hc
    split at hc
    · cases hc
    split at hc
    · cases hc
    split at hc
    · cases hc
    split at hc
    · cases hc
    rename_i h1 h2 h3 h4
    exact ⟨by omega, by omega, by simpa using h3, by omega⟩
  obtain ⟨k1, k2, k3, k4⟩ := hargs
  have h104 : 104 ≤ a.blockSize := by
    unfold bucketCapacity keyHeaderSize at k4
    split at k4
    · omega
    · rename_i h; simp at h; omega
  rw [hload] at k3
  simp only [Load.bad, Bool.or_eq_false_iff, decide_eq_false_iff_not] at k3
  have hcr : Creatable a (65536 * num.toNat / den) :=
    ⟨huid, happ, hsalt, ⟨k1, hkey⟩, ⟨h104, k2⟩, ⟨num, den, hload, by omega, by omega, rfl⟩, by
      have hden : 0 < den := by omega
      rw [Nat.le_div_iff_mul_le hden]; omega⟩
  obtain ⟨hcf, hb, hf⟩ := creatable_ok hcr
  have hI := wp_elim (wp_create (Q := fun _ w' => Idle (putDatHeader (a.conf _).dh) (newKey c.H (a.conf _)) w'.fs)
    hcf hb hf (hnew _) (hnew _) (hnew _) (fun w' hI _ => hI)) hc
  have hs := (hI.safe (c := c) (cf := a.conf (65536 * num.toNat / den)) (L := 0) (G := fun D K => D = putDatHeader (a.conf (65536 * num.toNat / den)).dh ∧ K = newKey c.H (a.conf (65536 * num.toNat / den))) ⟨rfl, rfl⟩).restart hw
  obtain ⟨s, w', h1, h2⟩ := wp_calm_ok (wp_open (σ := calm)
    (by rintro D K ⟨rfl, rfl⟩; exact ⟨_, _, _, db_new hcf⟩) (.inl calm_nofail) hs
    (Q := fun s w' => s.kh.appnum = a.appnum ∧ s.kh.uid = a.uid ∧ s.kh.keySize = a.keySize ∧
      s.kh.blockSize = a.blockSize ∧ Lookups c a.keySize s w'.fs Map.empty)
    (by
      rintro s w' D K recs B view ⟨rfl, rfl⟩ _ hS hp _ _ _
      have hS' := hS _ _ _ (db_new hcf)
      have hl := hS'.lookups
      rw [hp] at hl
      obtain ⟨Bk, e⟩ := hS'.kh
      refine ⟨by rw [e]; rfl, by rw [e]; rfl, by rw [e]; rfl, by rw [e]; rfl, hl⟩))
  exact ⟨s, w', h1, h2⟩

/-- What `create` followed by `open` report, and the key size of the open store. -/
def createOpen (asserts : Bool) (a : CreateArgs) : Option Exc × Option Exc × Option Nat :=
  match create demoCfg asserts a calm ⟨fun _ => none, 0, []⟩ with
  | (.error x, _) => (some x, none, none)
  | (.ok _, w) =>
    match openStore demoCfg calm w with
    | (.error x, _) => (none, some x, none)
    | (.ok s, _) => (none, none, some s.kh.keySize)

/-- The full claim of C24 is false: with a load factor of 2^-17 `create` succeeds and the
database cannot be opened. -/
theorem C24_tiny_load_factor : createOpen true { demoArgs with load := .rat 1 131072 } =
    (none, some (.err .invalid_load_factor), none) := by decide +kernel

/-- With a key size of 65537 and `BOOST_ASSERT` disabled `create` succeeds and makes a database
for keys of one byte; for a key size of 65536 the database cannot be opened. -/
theorem C24_long_keys : createOpen false { demoArgs with keySize := 65537 } = (none, none, some 1) ∧
    createOpen false { demoArgs with keySize := 65536 } = (none, some (.err .invalid_key_size), none) := by
  decide +kernel

/-- With NaN for the load factor `create` runs into undefined behaviour: the conversion of NaN
to an integer. -/
theorem C24_nan : createOpen true { demoArgs with load := .nan } = (some .ub, none, none) := by decide +kernel

/-- The premises of C24. -/
example : createOpen true demoArgs = (none, none, some 2) ∧ demoArgs.load = .rat 1 2 ∧ (2 : Int) ≤ 65536 * 1 := by
  decide +kernel

end

end NuDB
