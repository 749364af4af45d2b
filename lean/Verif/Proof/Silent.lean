import Verif.Proof.Visit
import Verif.Model.Verify
/- Which programs call no user supplied function, and the progress reports of the others. -/
namespace NuDB

open Spec

/-- `m` calls no user supplied function. -/
structure Silent (m : M α) : Prop where
  go : ∀ σ w, (m σ w).2.out = w.out

section
variable {q : Path} {α β : Type}

theorem Silent.ret (a : α) : Silent (M.ret a) := ⟨fun _ _ => rfl⟩
theorem Silent.pure (a : α) : Silent (Pure.pure a : M α) := ⟨fun _ _ => rfl⟩
theorem Silent.raise (x : Exc) : Silent (M.raise x : M α) := ⟨fun _ _ => rfl⟩
theorem Silent.fail (e : Err) : Silent (M.fail e : M α) := ⟨fun _ _ => rfl⟩
theorem Silent.lift (r : Res α) : Silent (M.lift r) := ⟨fun _ _ => rfl⟩
theorem Silent.check (r : Except Err α) : Silent (M.check r) := by
  refine ⟨fun σ w => ?_⟩; unfold M.check; split <;> rfl
theorem Silent.history : Silent NuDB.history := ⟨fun _ _ => rfl⟩
theorem Silent.lookupFuel : Silent NuDB.lookupFuel := ⟨fun _ _ => rfl⟩

theorem Silent.bind {m : M α} {k : α → M β} (h : Silent m) (hk : ∀ a, Silent (k a)) : Silent (m >>= k) := by
  refine ⟨fun σ w => ?_⟩
  show (M.bind m k σ w).2.out = _
  unfold M.bind
  have := h.go σ w
  split
  · rename_i a w' e; rw [e] at this; rw [(hk a).go σ w']; exact this
  · rename_i x w' e; rw [e] at this; exact this

theorem Silent.attempt {m : M α} (h : Silent m) : Silent (M.attempt m) := by
  refine ⟨fun σ w => ?_⟩
  unfold M.attempt
  have := h.go σ w
  split <;> (rename_i e; rw [e] at this; exact this)

theorem Silent.fileOp {ok : Fs → Except Exc α × Fs} {part : Fs → Nat → Fs} : Silent (fileOp ok part) := by
  refine ⟨fun σ w => ?_⟩
  unfold NuDB.fileOp
  split <;> rfl

theorem Silent.fOpen : Silent (fOpen q) := Silent.fileOp
theorem Silent.fSize : Silent (fSize q) := Silent.fileOp
theorem Silent.fRead {o n : Nat} : Silent (fRead q o n) := Silent.fileOp
theorem Silent.fCreate : Silent (fCreate q) := Silent.fileOp
theorem Silent.fErase : Silent (fErase q) := Silent.fileOp
theorem Silent.fWrite {o : Nat} {bs : Bytes} : Silent (fWrite q o bs) := Silent.fileOp
theorem Silent.fAppend {o : Nat} {bs : Bytes} : Silent (fAppend q o bs) := Silent.fileOp
theorem Silent.fSync : Silent (fSync q) := Silent.fileOp
theorem Silent.fTrunc {n : Nat} : Silent (fTrunc q n) := Silent.fileOp

end

/-- Apply the rules above. -/
macro "silent" : tactic => `(tactic| repeat' (first
  | assumption
  | exact Silent.ret _ | exact Silent.pure _ | exact Silent.raise _ | exact Silent.fail _ | exact Silent.lift _
  | exact Silent.check _ | exact Silent.history | exact Silent.lookupFuel | exact Silent.fileOp
  | exact Silent.fOpen | exact Silent.fSize | exact Silent.fRead | exact Silent.fCreate | exact Silent.fErase
  | exact Silent.fWrite | exact Silent.fAppend | exact Silent.fSync | exact Silent.fTrunc
  | apply Silent.bind | apply Silent.attempt | intro _ | split))

theorem wp_silent {α : Type} {m : M α} (h : Silent m) {σ : Schedule} {w : World} {Q : α → World → Prop}
    {X : Exc → World → Prop} (hQ : ∀ a w', w'.out = w.out → Q a w') (hX : ∀ x w', w'.out = w.out → X x w') :
    wp σ m Q X w := by
  have := h.go σ w
  unfold wp
  split
  · rename_i e; rw [e] at this; exact hQ _ _ this
  · rename_i e; rw [e] at this; exact hX _ _ this

/-- As far as positions are concerned. -/
structure RPos (r : Reader) : Prop where
  off : r.offset ≤ r.last
  avail : r.avail ≤ r.offset

theorem RPos.le {r : Reader} (h : RPos r) : r.pos ≤ r.last := by
  have := h.off; unfold Reader.pos; omega

section
variable {σ : Schedule} {c : Cfg}

theorem Silent.prepare {r : Reader} {n : Nat} : Silent (r.prepare c n) := by unfold Reader.prepare; silent
theorem Silent.readDatHeader : Silent readDatHeader := by unfold NuDB.readDatHeader; silent
theorem Silent.readKeyHeader : Silent readKeyHeader := by unfold NuDB.readKeyHeader; silent
theorem Silent.flush {wr : Writer} : Silent wr.flush := by unfold Writer.flush; silent
theorem Silent.append {wr : Writer} {bs : Bytes} : Silent (wr.append bs) := by
  have : ∀ wr : Writer, Silent wr.flush := fun wr => Silent.flush
  unfold Writer.append
  dsimp only
  split
  · exact Silent.bind (this _) fun _ => Silent.ret _
  · exact Silent.bind (Silent.ret _) fun _ => Silent.ret _

theorem Silent.maybeSpill {b : Bkt} {wr : Writer} : Silent (maybeSpill b wr) := by
  unfold NuDB.maybeSpill
  split
  · apply Silent.bind (Silent.lift _); intro _
    apply Silent.bind (Silent.lift _); intro _
    apply Silent.bind Silent.append; intro _
    silent
  · exact Silent.ret _

theorem Silent.rekeyPrepare {kh : KeyHeader} {n : Nat} : Silent (rekeyPrepare c kh n) := by
  unfold NuDB.rekeyPrepare; silent
theorem Silent.rekeyAlloc {kh : KeyHeader} : Silent (rekeyAlloc kh) := by
  unfold NuDB.rekeyAlloc; silent

/-- Where a reader is after `prepare`, whatever the file contains. -/
theorem wp_prepare_pos {r : Reader} {n : Nat} {w : World} {Q : Bytes × Reader → World → Prop} {X : Exc → World → Prop}
    (hr : RPos r)
    (hQ : ∀ bs r' w', RPos r' → r'.last = r.last → r'.pos = r.pos + n → w'.out = w.out → Q (bs, r') w')
    (hX : ∀ x w', w'.out = w.out → X x w') : wp σ (r.prepare c n) Q X w := by
  have h1 := hr.off
  have h2 := hr.avail
  unfold Reader.prepare
  have fin : ∀ (r' : Reader) (w' : World), RPos r' → r'.last = r.last → r'.pos = r.pos → n ≤ r'.avail → w'.out = w.out →
      wp σ (do
        let out ← M.lift (peek r'.buf r'.used n)
        M.ret (out, { r' with used := r'.used + n, avail := r'.avail - n })) Q X w' := by
    intro r' w' a1 a2 a3 a4 a5
    apply wp_bind
    apply wp_lift_any
    · intro out _
      apply wp_ret
      have b1 := a1.off
      have b2 := a1.avail
      refine hQ out _ w' ⟨b1, ?_⟩ a2 ?_ a5
      · show r'.avail - n ≤ r'.offset; omega
      · unfold Reader.pos at *; dsimp only; omega
    · intro e _; exact hX _ _ a5
  by_cases hn : n > r.avail
  · rw [if_pos hn]
    by_cases hs : r.offset + n - r.avail > r.last
    · rw [if_pos hs]
      apply wp_bind
      exact wp_fail (hX _ _ rfl)
    · rw [if_neg hs]
      apply wp_bind
      apply wp_lift_any
      · intro old hold
        have hroom : r.used + r.avail ≤ r.buf.length := by
          unfold peek at hold
          split at hold
          · assumption
          · cases hold
        apply wp_bind
        apply wp_lift_any
        · intro buf hbuf
          have hbl : buf.length = (if n > r.buf.length then c.fresh n else r.buf).length := by
            generalize (if n > r.buf.length then c.fresh n else r.buf) = b0 at hbuf ⊢
            unfold poke at hbuf
            split at hbuf
            · rename_i h; cases hbuf; exact put_length h
            · cases hbuf
          have hbn : n ≤ buf.length ∧ r.avail ≤ buf.length := by
            rw [hbl]
            split
            · rw [fresh_length]; omega
            · omega
          apply wp_bind
          apply wp_silent Silent.fRead
          · intro data w' ho
            apply wp_bind
            apply wp_lift_any
            · intro buf2 _
              apply wp_bind
              apply wp_ret
              refine fin _ w' ⟨?_, ?_⟩ rfl ?_ ?_ ho
              · show r.offset + min (buf.length - r.avail) (r.last - r.offset) ≤ r.last; omega
              · show r.avail + min (buf.length - r.avail) (r.last - r.offset) ≤ r.offset + min (buf.length - r.avail) (r.last - r.offset)
                omega
              · unfold Reader.pos; dsimp only; omega
              · dsimp only; omega
            · intro e _; exact hX _ _ ho
          · intro x w' ho; exact hX _ _ ho
        · intro e _; exact hX _ _ rfl
      · intro e _; exact hX _ _ rfl
  · rw [if_neg hn]
    apply wp_bind
    apply wp_ret
    exact fin r w hr rfl rfl (by omega) rfl

/-- Progress reports of one scan of the data file. -/
theorem wp_rekeyStep_any {kh : KeyHeader} {b0 b1 pre nwork : Nat} {buf : List Bytes} {dw : Writer} {r : Reader} {w : World}
    {Q : List Bytes × Writer × Reader → World → Prop} {X : Exc → World → Prop} (hr : RPos r)
    (hQ : ∀ buf' dw' r' w' evs, RPos r' → r'.last = r.last → r.pos ≤ r'.pos → w'.out = w.out ++ evs →
      Steps nwork (pre + r.pos) (pre + r'.pos) evs → Q (buf', dw', r') w')
    (hX : ∀ x w' evs, w'.out = w.out ++ evs → Steps nwork (pre + r.pos) (pre + r.last) evs → X x w') :
    wp σ (rekeyStep c kh b0 b1 pre nwork buf dw r) Q X w := by
  have hX0 : ∀ x w', w'.out = w.out → X x w' := fun x w' h =>
    hX x w' [] (by rw [h, List.append_nil]) (Steps.nil _ _ _)
  unfold rekeyStep
  apply wp_bind
  apply wp_prepare_pos hr
  rotate_left
  · exact hX0
  intro is r1 w1 p1 l1 q1 o1
  apply wp_bind
  apply wp_emit
  have hle := p1.le
  have hX1 : ∀ x (w' : World), w'.out = w1.out ++ [.progress (pre + r1.pos) nwork] → X x w' := fun x w' h =>
    hX x w' [.progress (pre + r1.pos) nwork] (by rw [h, o1]) (Steps.progress (by omega) (by omega))
  have hQ1 : ∀ buf' dw' r' (w' : World), RPos r' → r'.last = r1.last → r1.pos ≤ r'.pos →
      w'.out = w1.out ++ [.progress (pre + r1.pos) nwork] → Q (buf', dw', r') w' := fun buf' dw' r' w' h1 h2 h3 h4 =>
    hQ buf' dw' r' w' [.progress (pre + r1.pos) nwork] h1 (h2.trans l1) (by omega) (by rw [h4, o1])
      (Steps.progress (by omega) (by omega))
  apply wp_bind
  apply wp_lift_any
  rotate_left
  · intro e _; exact hX1 _ _ rfl
  intro size _
  dsimp only
  split
  · apply wp_bind
    apply wp_prepare_pos p1
    rotate_left
    · intro x w' h; exact hX1 x w' h
    intro is2 r2 w2 p2 l2 q2 o2
    apply wp_bind
    apply wp_lift_any
    rotate_left
    · intro e _; exact hX1 _ _ o2
    intro n _
    dsimp only
    split
    · exact wp_ret (hQ1 _ _ _ _ p2 l2 (by omega) o2)
    · split
      · exact wp_raise (hX1 _ _ o2)
      · apply wp_bind
        apply wp_lift_any
        rotate_left
        · intro e _; exact hX1 _ _ o2
        intro b _
        apply wp_bind
        apply wp_silent Silent.maybeSpill
        rotate_left
        · intro x w' h; exact hX1 x w' (h.trans o2)
        rintro ⟨b3, dw3⟩ w3 o3
        dsimp only
        apply wp_bind
        apply wp_lift_any
        · intro b4 _
          exact wp_ret (hQ1 _ _ _ _ p2 l2 (by omega) (o3.trans o2))
        · intro e _; exact hX1 _ _ (o3.trans o2)
  · apply wp_bind
    apply wp_prepare_pos p1
    rotate_left
    · intro x w' h; exact hX1 x w' h
    intro is2 r2 w2 p2 l2 q2 o2
    apply wp_bind
    apply wp_prepare_pos p2
    rotate_left
    · intro x w' h; exact hX1 x w' (h.trans o2)
    intro is3 r3 w3 p3 l3 q3 o3
    dsimp only at q3 ⊢
    exact wp_ret (hQ1 _ _ _ _ p3 (l3.trans l2) (by omega) (o3.trans o2))

theorem wp_rekeyScan_any {kh : KeyHeader} {b0 b1 pre nwork : Nat} : ∀ (fuel : Nat) (buf : List Bytes) (dw : Writer) (r : Reader)
    (w : World), RPos r →
    wp σ (rekeyScan c kh b0 b1 pre nwork fuel buf dw r)
      (fun _ w' => ∃ evs, w'.out = w.out ++ evs ∧ Steps nwork (pre + r.pos) (pre + r.last) evs)
      (fun _ w' => ∃ evs, w'.out = w.out ++ evs ∧ Steps nwork (pre + r.pos) (pre + r.last) evs) w := by
  intro fuel
  induction fuel with
  | zero => intro buf dw r w _; exact ⟨[], by simp, Steps.nil _ _ _⟩
  | succ n ih =>
    intro buf dw r w hr
    unfold rekeyScan
    split
    · exact wp_ret ⟨[], by simp, Steps.nil _ _ _⟩
    · apply wp_bind
      apply wp_rekeyStep_any hr
      · intro buf' dw' r' w' evs h1 h2 h3 h4 h5
        dsimp only
        have hle := h1.le
        have hgo : ∀ w'' : World, (∃ evs, w''.out = w'.out ++ evs ∧ Steps nwork (pre + r'.pos) (pre + r'.last) evs) →
            ∃ evs, w''.out = w.out ++ evs ∧ Steps nwork (pre + r.pos) (pre + r.last) evs := by
          rintro w'' ⟨evs', e1, e2⟩
          rw [h2] at e2 hle
          exact ⟨evs ++ evs', by rw [e1, h4, List.append_assoc], h5.append e2 (by omega) (by omega)⟩
        exact wp_conseq (ih buf' dw' r' w' h1) (fun _ _ h => hgo _ h) (fun _ _ h => hgo _ h)
      · intro x w' evs h1 h2; exact ⟨evs, h1, h2⟩

/-- Progress reports of `rekey`: the pass with number `i` reports between `i * size` and `(i + 1) * size`. -/
theorem wp_rekeyChunks_any {kh : KeyHeader} {size chunk passes : Nat} (h92 : 92 ≤ size) (hch : 1 ≤ chunk)
    (hpass : kh.buckets ≤ passes * chunk) : ∀ (fuel i : Nat) (dw : Writer) (w : World), i ≤ passes →
    wp σ (rekeyChunks c kh size chunk (passes * size) fuel (i * chunk) dw)
      (fun _ w' => ∃ evs, w'.out = w.out ++ evs ∧ Steps (passes * size) (i * size) (passes * size) evs)
      (fun _ w' => ∃ evs, w'.out = w.out ++ evs ∧ Steps (passes * size) (i * size) (passes * size) evs) w := by
  intro fuel
  induction fuel with
  | zero => intro i dw w _; exact ⟨[], by simp, Steps.nil _ _ _⟩
  | succ n ih =>
    intro i dw w hi
    unfold rekeyChunks
    split
    · rename_i hb
      have hlt : i < passes := by
        apply Nat.lt_of_mul_lt_mul_right (a := chunk); omega
      have hmul : (i + 1) * size ≤ passes * size := Nat.mul_le_mul_right _ hlt
      have hsucc : (i + 1) * size = i * size + size := Nat.succ_mul _ _
      have hdiv : i * chunk / chunk = i := Nat.mul_div_cancel _ (by omega)
      apply wp_bind
      apply wp_lift_any
      rotate_left
      · intro e _; exact ⟨[], by simp, Steps.nil _ _ _⟩
      intro buf _
      rw [hdiv]
      have hr : RPos (Reader.new c .dat datHeaderSize size (1024 * 4096)) :=
        ⟨by show 92 ≤ size; exact h92, Nat.zero_le _⟩
      have hp : (Reader.new c .dat datHeaderSize size (1024 * 4096)).pos = 92 := rfl
      have hl : (Reader.new c .dat datHeaderSize size (1024 * 4096)).last = size := rfl
      apply wp_bind
      refine wp_conseq (wp_rekeyScan_any (nwork := passes * size) (size + 1) buf dw _ w hr) ?_ ?_
      · rintro ⟨buf2, dw2⟩ w2 ⟨evs, e1, e2⟩
        rw [hp, hl] at e2
        dsimp only
        have e3 : Steps (passes * size) (i * size) ((i + 1) * size) evs := e2.mono (by omega) (by omega)
        apply wp_bind
        apply wp_silent Silent.fWrite
        · intro _ w3 o3
          have hgo : ∀ w'' : World, (∃ evs, w''.out = w3.out ++ evs ∧ Steps (passes * size) ((i + 1) * size) (passes * size) evs) →
              ∃ evs, w''.out = w.out ++ evs ∧ Steps (passes * size) (i * size) (passes * size) evs := by
            rintro w'' ⟨evs', f1, f2⟩
            exact ⟨evs ++ evs', by rw [f1, o3, e1, List.append_assoc], e3.append f2 (by omega) hmul⟩
          rw [show i * chunk + chunk = (i + 1) * chunk from (Nat.succ_mul _ _).symm]
          exact wp_conseq (ih (i + 1) dw2 w3 hlt) (fun _ _ h => hgo _ h) (fun _ _ h => hgo _ h)
        · intro x w3 o3
          exact ⟨evs, by rw [o3, e1], e3.mono (by omega) hmul⟩
      · rintro x w2 ⟨evs, e1, e2⟩
        rw [hp, hl] at e2
        exact ⟨evs, e1, e2.mono (by omega) (by omega)⟩
    · exact wp_ret ⟨[], by simp, Steps.nil _ _ _⟩

theorem wp_rekey_any {a : RekeyArgs} {w : World} : wp σ (rekey c a)
      (fun _ w' => ∃ evs, w'.out = w.out ++ evs ∧ Steady evs) (fun _ w' => ∃ evs, w'.out = w.out ++ evs ∧ Steady evs) w := by
  have hX0 : ∀ w' : World, w'.out = w.out → ∃ evs, w'.out = w.out ++ evs ∧ Steady evs :=
    fun w' h => ⟨[], by rw [h, List.append_nil], (Steps.nil 0 0 0).steady (Nat.le_refl _)⟩
  unfold rekey
  apply wp_bind
  cases hf : w.fs .dat with
  | none =>
    apply wp_fOpen_none hf
    · exact hX0 _ rfl
    · intro x _ _; exact hX0 _ rfl
  | some f =>
  apply wp_fOpen (by exact hf) _ (fun x _ _ => hX0 _ rfl)
  apply wp_bind
  unfold readDatHeader
  apply wp_bind
  by_cases h92 : f.cur.length < 92
  · exact wp_fRead_short (f := f) (by exact hf) (by decide) (by simp only [datHeaderSize]; omega) (hX0 _ rfl) (fun x _ _ => hX0 _ rfl)
  apply wp_fRead (f := f) (by exact hf) (by simp only [datHeaderSize]; omega) _ (fun x _ _ => hX0 _ rfl)
  apply wp_ret
  apply wp_bind
  cases verifyDat (getDatHeader (slice f.cur 0 datHeaderSize)) with
  | error e => exact hX0 _ rfl
  | ok u =>
  apply wp_check_ok rfl
  apply wp_bind
  apply wp_fSize (by exact hf) _ (by exact fun x _ _ => hX0 _ rfl)
  apply wp_bind
  apply wp_silent (Silent.attempt Silent.fOpen)
  rotate_left
  · intro x w' h; exact hX0 _ h
  intro res w1 o1
  cases res with
  | ok _ => exact wp_fail (hX0 _ o1)
  | error e =>
    by_cases he : e = .no_such_file
    · subst he
      dsimp only
      apply wp_bind
      apply wp_lift_any
      rotate_left
      · intro e _; exact hX0 _ o1
      intro lf _
      generalize rekeyHeader c.H (getDatHeader (slice f.cur 0 datHeaderSize)) a lf = kh
      apply wp_bind
      apply wp_silent Silent.rekeyPrepare
      rotate_left
      · intro x w' h; exact hX0 _ (h.trans o1)
      intro _ w2 o2
      apply wp_bind
      apply wp_silent Silent.rekeyAlloc
      rotate_left
      · intro x w' h; exact hX0 _ (h.trans (o2.trans o1))
      intro _ w3 o3
      apply wp_bind
      apply wp_emit
      generalize hchunk : max 1 (a.bufferSize / kh.blockSize) = chunk
      have hch : 1 ≤ chunk := by omega
      generalize hps : (kh.buckets + chunk - 1) / chunk = passes
      have hpass : kh.buckets ≤ passes * chunk := by
        have h1 := Nat.div_add_mod (kh.buckets + chunk - 1) chunk
        have h2 := Nat.mod_lt (kh.buckets + chunk - 1) (show 0 < chunk by omega)
        rw [hps, Nat.mul_comm] at h1
        omega
      have hgo : ∀ w' : World, (∃ evs, w'.out = (w3.out ++ [.progress 0 (passes * f.cur.length)]) ++ evs ∧
          Steps (passes * f.cur.length) (0 * f.cur.length) (passes * f.cur.length) evs) →
          ∃ evs, w'.out = w.out ++ evs ∧ Steady evs := by
        rintro w' ⟨evs, b2, b3⟩
        refine ⟨[.progress 0 (passes * f.cur.length)] ++ evs, by rw [b2, o3, o2, o1, List.append_assoc]; rfl, ?_⟩
        exact ((Steps.progress (lo := 0) (hi := 0) (Nat.le_refl _) (Nat.le_refl _)).append (b3.mono (Nat.zero_le _) (Nat.le_refl _))
          (Nat.zero_le _) (Nat.zero_le _)).steady (Nat.le_refl _)
      apply wp_bind
      have key := wp_rekeyChunks_any (σ := σ) (c := c) (kh := kh) (size := f.cur.length) (by omega) hch hpass
        (kh.buckets + 1) 0 (Writer.new .dat f.cur.length (16 * 4096))
        { w3 with out := w3.out ++ [.progress 0 (passes * f.cur.length)] } (Nat.zero_le _)
      rw [Nat.zero_mul] at key
      refine wp_conseq key ?_ ?_
      · intro dw w4 h4
        apply wp_bind
        have h5 := hgo _ h4
        apply wp_silent Silent.flush
        · intro _ w5 o5
          apply wp_silent Silent.fErase
          · intro _ w6 o6
            rw [o6, o5]; exact h5
          · intro _ w6 o6
            rw [o6, o5]; exact h5
        · intro _ w5 o5
          rw [o5]; exact h5
      · intro x w4 h4; exact hgo _ h4
    · cases e <;> first | exact absurd rfl he | exact wp_fail (hX0 _ o1)

end

end NuDB
