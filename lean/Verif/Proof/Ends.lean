import Verif.Model.Verify
import Verif.Spec.Ends
import Verif.Proof.Damage2
import Verif.Props.Codec
/-
Loops end, or follow overflow records in circles.
-/
namespace NuDB

open Spec

/-- `m` keeps `I`; if it ends normally then with `R`; if it does not end then `C`. -/
def Ends (σ : Schedule) (I : Fs → Prop) (C : Prop) (m : M α) (R : α → Prop) : Prop :=
  ∀ w, I w.fs → wp σ m (fun a w' => I w'.fs ∧ R a) (fun x _ => x = .hang → C) w

section
variable {σ : Schedule} {I : Fs → Prop} {C : Prop} {α β : Type} {R : α → Prop}

theorem Ends.result {m : M α} {w : World} (h : Ends σ I C m R) (hi : I w.fs) (hh : (m σ w).1 = .error .hang) : C := by
  have := h w hi
  unfold wp at this
  rcases hr : m σ w with ⟨a | a, w'⟩
  · rw [hr] at this hh
    cases hh
    exact this rfl
  · rw [hr] at hh
    cases hh

theorem Ends.mono {C' : Prop} {R' : α → Prop} {m : M α} (h : Ends σ I C m R) (hc : C → C') (hr : ∀ a, R a → R' a) :
    Ends σ I C' m R' :=
  fun w hi => wp_conseq (h w hi) (fun a _ ha => ⟨ha.1, hr a ha.2⟩) (fun _ _ hx e => hc (hx e))

theorem Ends.bind {m : M α} {k : α → M β} {R' : β → Prop} (h : Ends σ I C m R) (hk : ∀ a, R a → Ends σ I C (k a) R') :
    Ends σ I C (m >>= k) R' :=
  fun w hi => wp_bind (wp_post (h w hi) fun a w' ha => hk a ha.2 w' ha.1)

theorem Ends.ret {a : α} (h : R a) : Ends σ I C (M.ret a) R := fun _ hi => wp_ret ⟨hi, h⟩

theorem Ends.pure {a : α} (h : R a) : Ends σ I C (Pure.pure a : M α) R := fun _ hi => wp_pure ⟨hi, h⟩

theorem Ends.fail {e : Err} : Ends σ I C (M.fail e : M α) R := fun _ _ => wp_fail (fun h => by cases h)

theorem Ends.raise {x : Exc} (h : x = .hang → C) : Ends σ I C (M.raise x : M α) R := fun _ _ => wp_raise h

theorem Ends.lift {r : Res α} (h : r ≠ .error .hang) (hq : ∀ a, r = .ok a → R a) : Ends σ I C (M.lift r) R := by
  intro w hi
  cases r with
  | ok a => exact wp_lift_ok rfl ⟨hi, hq a rfl⟩
  | error x => exact wp_lift_error rfl (fun e => absurd (by rw [e]) h)

theorem Ends.check {r : Except Err α} (hq : ∀ a, r = .ok a → R a) : Ends σ I C (M.check r) R := by
  intro w hi
  cases r with
  | ok a => exact wp_check_ok rfl ⟨hi, hq a rfl⟩
  | error x => exact (fun h => by cases h)

theorem Ends.attempt {m : M α} (h : Ends σ I C m R)
    (hm : ∀ w, I w.fs → match m σ w with | (.error (.err _), w') => I w'.fs | _ => True) :
    Ends σ I C (M.attempt m) (fun r => ∀ a, r = .ok a → R a) := by
  intro w hi
  have h1 := h w hi
  have h2 := hm w hi
  unfold wp M.attempt at *
  rcases hr : m σ w with ⟨a | a, w'⟩
  · rw [hr] at h1 h2
    cases a <;> first | exact ⟨h2, (fun _ e => by cases e)⟩ | exact h1
  · rw [hr] at h1
    exact ⟨h1.1, fun _ e => by cases e; exact h1.2⟩

/-- The file system after `m` satisfies `I` in any case. -/
def Stays (σ : Schedule) (I : Fs → Prop) (m : M α) : Prop := ∀ w, I w.fs → I (m σ w).2.fs

theorem Stays.any {m : M α} : Stays σ (fun _ => True) m := fun _ _ => trivial

theorem Stays.bind {m : M α} {k : α → M β} (h : Stays σ I m) (hk : ∀ a, Stays σ I (k a)) : Stays σ I (m >>= k) := by
  intro w hi
  show I (M.bind m k σ w).2.fs
  unfold M.bind
  have := h w hi
  rcases hr : m σ w with ⟨a | a, w'⟩
  · rw [hr] at this; exact this
  · rw [hr] at this; exact hk a w' this

theorem Stays.lift {r : Res α} : Stays σ I (M.lift r) := fun _ hi => hi
theorem Stays.ret {a : α} : Stays σ I (M.ret a) := fun _ hi => hi
theorem Stays.fail {e : Err} : Stays σ I (M.fail e : M α) := fun _ hi => hi

theorem stays_fRead {p : Path} {o n : Nat} : Stays σ I (fRead p o n) := by
  intro w hi
  unfold fRead fileOp
  cases σ w.clock with
  | none =>
    dsimp only
    split
    · split <;> exact hi
    · exact hi
  | fail k => exact hi
  | crash k => exact hi

theorem stays_fOpen {p : Path} : Stays σ I (fOpen p) := by
  intro w hi
  unfold fOpen fileOp
  cases σ w.clock with
  | none => dsimp only; split <;> exact hi
  | fail k => exact hi
  | crash k => exact hi

theorem Ends.attempt' {m : M α} (h : Ends σ I C m R) (hm : Stays σ I m) :
    Ends σ I C (M.attempt m) (fun r => ∀ a, r = .ok a → R a) := by
  apply h.attempt
  intro w hi
  have := hm w hi
  rcases hr : m σ w with ⟨a | a, w'⟩
  · rw [hr] at this
    cases a <;> first | trivial | exact this
  · trivial

theorem ends_fileOp {ok : Fs → Except Exc α × Fs} {part : Fs → Nat → Fs} (h1 : ∀ fs, (ok fs).1 ≠ .error .hang)
    (h2 : ∀ fs a, (ok fs).1 = .ok a → I fs → I (ok fs).2 ∧ R a) : Ends σ I C (fileOp ok part) R := by
  intro w hi
  apply wp_fileOp
  · have e1 := h1 w.fs
    have e2 := h2 w.fs
    rcases hr : ok w.fs with ⟨a | a, fs'⟩
    · rw [hr] at e1
      intro e
      exact absurd (by rw [e]) e1
    · rw [hr] at e2
      exact e2 a rfl hi
  · intro k _ h; cases h
  · intro k _ h; cases h

theorem ends_fOpen {p : Path} : Ends σ I C (fOpen p) (fun _ => True) := by
  apply ends_fileOp
  · intro fs; split <;> simp
  · intro fs a; split
    · exact fun _ h => ⟨h, trivial⟩
    · intro h; cases h

theorem ends_fSize {p : Path} : Ends σ I C (fSize p) (fun _ => True) := by
  apply ends_fileOp
  · intro fs; split <;> simp
  · intro fs a; split
    · exact fun _ h => ⟨h, trivial⟩
    · intro h; cases h

theorem ends_fRead {p : Path} {o n : Nat} : Ends σ I C (fRead p o n) (fun _ => True) := by
  apply ends_fileOp
  · intro fs; split
    · split <;> simp
    · simp
  · intro fs a; split
    · split
      · exact fun _ h => ⟨h, trivial⟩
      · intro h; cases h
    · intro h; cases h

/-- Reading the file `f`. -/
theorem ends_fRead_at {fs : Fs} {p : Path} {f : FileSt} {o n : Nat} (hf : fs p = some f) (hn : n ≠ 0) :
    Ends σ (· = fs) C (fRead p o n) (fun d => d = slice f.cur o n ∧ o + n ≤ f.cur.length) := by
  apply ends_fileOp
  · intro fs; split
    · split <;> simp
    · simp
  · intro fs' a
    split
    · rename_i f' hf'
      split
      · rename_i h1
        intro e h2
        subst h2
        rw [hf] at hf'
        cases hf'
        cases e
        exact ⟨rfl, rfl, by omega⟩
      · intro h; cases h
    · intro h; cases h

theorem ends_emit {e : Event} : Ends σ I C (emit e) (fun _ => True) := fun _ hi => ⟨hi, trivial⟩
theorem ends_history : Ends σ I C history (fun _ => True) := fun _ hi => ⟨hi, trivial⟩

/-! memory -/

theorem nh_peek {p : Bytes} {o n : Nat} : peek p o n ≠ .error .hang := by unfold peek; split <;> simp
theorem nh_poke {p b : Bytes} {o : Nat} : poke p o b ≠ .error .hang := by unfold poke; split <;> simp
theorem nh_assert {b : Bool} : assert b ≠ .error .hang := by unfold assert; split <;> simp

theorem nh_bind {r : Res α} {k : α → Res β} (h : r ≠ .error .hang) (hk : ∀ a, k a ≠ .error .hang) :
    (r >>= k) ≠ .error .hang := by
  cases r with
  | ok a => exact hk a
  | error x =>
    intro e
    apply h
    have : (Except.error x : Res β) = .error .hang := e
    cases this
    rfl

theorem nh_ok {a : α} : (Except.ok a : Res α) ≠ .error .hang := by simp
theorem nh_pure {a : α} : (Pure.pure a : Res α) ≠ .error .hang := nh_ok

theorem nh_ofMem {bs : Nat} {p : Bytes} : Bkt.ofMem bs p ≠ .error .hang :=
  nh_bind nh_peek fun _ => nh_bind nh_peek fun _ => nh_pure

theorem nh_clear {b : Bkt} : b.clear ≠ .error .hang := nh_bind nh_poke fun _ => nh_pure
theorem nh_ofEmpty {bs : Nat} {p : Bytes} : Bkt.ofEmpty bs p ≠ .error .hang := nh_clear
theorem nh_update {b : Bkt} : b.update ≠ .error .hang :=
  nh_bind nh_assert fun _ => nh_bind nh_assert fun _ => nh_bind nh_poke fun _ => nh_pure

theorem nh_getSize48 {p : Bytes} : getSize48 p ≠ .error .hang := nh_bind nh_assert fun _ => nh_pure

theorem nh_get {b : Bkt} {i : Nat} : b.get i ≠ .error .hang :=
  nh_bind nh_peek fun _ => nh_bind nh_getSize48 fun _ => nh_pure

theorem nh_lbLoop {p : Bytes} {h : Nat} : ∀ fuel first count, count < fuel → Bkt.lbLoop p h fuel first count ≠ .error .hang := by
  intro fuel
  induction fuel with
  | zero => intro _ _ h; omega
  | succ n ih =>
    intro first count hc
    unfold Bkt.lbLoop
    split
    · refine nh_bind nh_peek fun f => ?_
      dsimp only
      split
      · exact ih _ _ (by omega)
      · exact ih _ _ (by omega)
    · simp

theorem nh_lowerBound {b : Bkt} {h : Nat} : b.lowerBound h ≠ .error .hang := nh_lbLoop _ _ _ (by omega)

theorem nh_insert {b : Bkt} {o s h : Nat} : b.insert o s h ≠ .error .hang :=
  nh_bind nh_lowerBound fun _ => nh_bind nh_peek fun _ => nh_bind nh_poke fun _ => nh_bind nh_update fun _ =>
    nh_bind nh_assert fun _ => nh_bind nh_assert fun _ => nh_bind nh_assert fun _ => nh_bind nh_poke fun _ => nh_pure

theorem nh_padded {b : Bkt} : b.padded ≠ .error .hang := by
  unfold Bkt.padded
  split
  · exact nh_poke
  · simp

theorem nh_bucketIndexA {h n m : Nat} : bucketIndexA h n m ≠ .error .hang := nh_bind nh_assert fun _ => nh_pure

theorem nh_fixed {l : Load} : l.fixed ≠ .error .hang := by
  unfold Load.fixed
  split
  · simp
  · simp
  · split <;> simp

theorem nh_emptyBuckets {c : Cfg} {bs : Nat} : ∀ n, emptyBuckets c bs n ≠ .error .hang := by
  intro n
  induction n with
  | zero => exact nh_ok
  | succ n ih => exact nh_bind nh_ofEmpty fun _ => nh_bind ih fun _ => nh_pure

theorem nh_seekEntry {h o : Nat} {b : Bkt} : ∀ fuel i f, b.size < fuel + i → 0 < fuel → seekEntry h o b fuel i f ≠ .error .hang := by
  intro fuel
  induction fuel with
  | zero => intro _ _ _ h; omega
  | succ n ih =>
    intro i f hc _
    unfold seekEntry
    split
    · refine nh_bind nh_get fun e => ?_
      split
      · simp
      · split
        · simp
        · exact ih _ _ (by omega) (by omega)
    · simp

theorem Ends.liftT {r : Res α} (h : r ≠ .error .hang) : Ends σ I C (M.lift r) (fun _ => True) := Ends.lift h fun _ _ => trivial

/-! the readers -/

theorem stays_prepare {c : Cfg} {r : Reader} {n : Nat} : Stays σ I (r.prepare c n) := by
  unfold Reader.prepare
  dsimp only
  split
  · split
    · exact Stays.bind Stays.fail fun _ => Stays.bind Stays.lift fun _ => Stays.ret
    · exact Stays.bind Stays.lift fun _ => Stays.bind Stays.lift fun _ => Stays.bind stays_fRead fun _ =>
        Stays.bind Stays.lift fun _ => Stays.bind Stays.ret fun _ => Stays.bind Stays.lift fun _ => Stays.ret
  · exact Stays.bind Stays.ret fun _ => Stays.bind Stays.lift fun _ => Stays.ret

/-- A successful `prepare` moves on by the number of bytes asked for, and not beyond the end. -/
theorem ends_prepare {c : Cfg} {r : Reader} {n : Nat} (h0 : r.avail ≤ r.offset) (hl : r.offset ≤ r.last) :
    Ends σ I C (r.prepare c n) (fun x => x.2.pos = r.pos + n ∧ x.2.avail ≤ x.2.offset ∧ x.2.offset ≤ x.2.last ∧
      x.2.last = r.last) := by
  have tail : ∀ r' : Reader, r'.pos = r.pos ∧ r'.avail ≤ r'.offset ∧ r'.offset ≤ r'.last ∧ r'.last = r.last ∧
      n ≤ r'.avail → Ends σ I C (do
        let out ← M.lift (peek r'.buf r'.used n)
        M.ret (out, { r' with used := r'.used + n, avail := r'.avail - n }))
      (fun x : Bytes × Reader => x.2.pos = r.pos + n ∧ x.2.avail ≤ x.2.offset ∧ x.2.offset ≤ x.2.last ∧
      x.2.last = r.last) := by
    intro r' ⟨h1, h2, h3, h4, h5⟩
    refine Ends.bind (Ends.liftT nh_peek) fun out _ => ?_
    apply Ends.ret
    unfold Reader.pos at *
    dsimp only
    omega
  unfold Reader.prepare
  dsimp only
  split
  · split
    · exact Ends.bind (R := fun _ => False) Ends.fail fun _ h => h.elim
    · rename_i h1 h2
      refine Ends.bind (Ends.liftT nh_peek) fun old _ => ?_
      refine Ends.bind (R := fun (buf : Bytes) => n ≤ buf.length) (Ends.lift nh_poke ?_) ?_
      · intro a ha
        have : ∀ b : Bytes, poke b 0 old = .ok a → a.length = b.length := by
          intro b hb
          unfold poke at hb
          split at hb
          · cases hb; unfold put; simp; omega
          · cases hb
        rw [this _ ha]
        split
        · unfold Cfg.fresh; simp
        · omega
      · intro buf hb
        refine Ends.bind ends_fRead fun data _ => ?_
        refine Ends.bind (Ends.liftT nh_poke) fun buf' _ => ?_
        refine Ends.bind (Ends.ret (R := fun r' => r' = _) rfl) ?_
        rintro r' rfl
        refine tail _ ?_
        unfold Reader.pos
        dsimp only
        omega
  · refine Ends.bind (Ends.ret (R := fun r' => r' = r) rfl) ?_
    rintro r' rfl
    exact tail _ ⟨rfl, h0, hl, rfl, by omega⟩

/-- What `prepare` needs and keeps. -/
def RGood (last : Nat) (r : Reader) : Prop := r.avail ≤ r.offset ∧ r.offset ≤ r.last ∧ r.last = last

theorem RGood.prepare {c : Cfg} {r : Reader} {n last : Nat} (h : RGood last r) :
    Ends σ I C (r.prepare c n) (fun x => RGood last x.2 ∧ x.2.pos = r.pos + n) :=
  (ends_prepare h.1 h.2.1).mono (fun h => h) fun _ ⟨a, b, d, e⟩ => ⟨⟨b, d, e.trans h.2.2⟩, a⟩

theorem RGood.le {r : Reader} {last : Nat} (h : RGood last r) : r.pos ≤ last := by
  have := h.2.2 ▸ h.2.1
  unfold Reader.pos; omega

theorem rgood_new {c : Cfg} {p : Path} {o last n : Nat} (h : o ≤ last) : RGood last (Reader.new c p o last n) :=
  ⟨Nat.zero_le _, h, rfl⟩

end

end NuDB
