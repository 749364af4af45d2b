import Verif.Model.HeapRead
import Verif.Proof.HeapCommit
import Verif.Proof.Prog
/-
The functions of `Model/HeapRead` simulate those that work with values: streams, `visit`, `recover`, `open`.
-/
namespace NuDB.Raw

variable {α β γ δ : Type}

/-! ### Bytes -/

theorem peek_length {p bs : Bytes} {o n : Nat} (h : peek p o n = .ok bs) : bs.length = n := by
  unfold peek at h
  split at h
  · cases h; exact slice_length_of_le (by assumption)
  · cases h

theorem peek_sub {p bs : Bytes} {o n i k : Nat} (h : peek p o n = .ok bs) (hk : i + k ≤ n) :
    peek p (o + i) k = .ok (slice bs i k) := by
  unfold peek at h
  split at h
  · rename_i hl
    cases h
    rw [peek_ok (by omega)]
    congr 1
    unfold slice
    rw [List.drop_take, List.drop_drop, List.take_take]
    congr 1
    omega
  · cases h

theorem sim_fRead (p : Path) (o n : Nat) : Sim (fun a b => a = b ∧ a.length = n) (fRead p o n) (fRead p o n) := by
  intro σ w
  cases h : fRead p o n σ w with
  | mk r w' =>
    cases r with
    | error x => exact .inr rfl
    | ok b =>
      refine ⟨b, rfl, rfl, ?_⟩
      unfold fRead fileOp at h
      split at h
      · dsimp only at h
        cases hp : w.fs p with
        | none => rw [hp] at h; cases h
        | some f =>
          rw [hp] at h
          dsimp only at h
          split at h
          · rename_i hl
            cases h
            rcases hl with rfl | hl
            · simp [slice]
            · exact slice_length_of_le hl
          · cases h
      · cases h
      · cases h

theorem Sim.fail {R : α → β → Prop} {e : Err} : Sim R (M.fail e) (M.fail e) := Sim.raise

theorem sim_shortAs {R : α → β → Prop} {m : M α} {m' : M β} (e : Err) (h : Sim R m m') :
    Sim R (shortAs e m) (shortAs e m') := by
  unfold shortAs
  refine Sim.bind h.attempt ?_
  rintro (x | a) (y | b) hab
  · cases hab
    cases x <;> exact Sim.fail
  · exact hab.elim
  · exact hab.elim
  · exact Sim.ret hab

/-! ### Streams -/

/-- What the reader is as a value. -/
def RawReader.abs (r : RawReader) : Reader := ⟨r.path, r.buf, r.last, r.offset, r.avail, r.used⟩

/-- The stream points to these bytes in the buffer of the reader. -/
structure Points (r : RawReader) (is : IStream) (bs : Bytes) : Prop where
  gen : is.buf.gen = r.gen
  size : is.size = bs.length
  mem : peek r.buf is.buf.pos is.size = .ok bs

theorem Points.data {r : RawReader} {is : IStream} {bs : Bytes} (h : Points r is bs) {n : Nat} (hn : n ≤ bs.length) :
    ∃ is', is.data n = .ok (is.buf, is') ∧ r.deref is.buf n = .ok (bs.take n) ∧ Points r is' (bs.drop n) := by
  have hs := h.size
  refine ⟨_, by unfold IStream.data; rw [if_neg (by omega)], ?_, ?_⟩
  · unfold RawReader.deref
    rw [if_pos h.gen]
    have := peek_sub (i := 0) (k := n) h.mem (by omega)
    rw [Nat.add_zero, ← take_eq_slice] at this
    exact this
  · refine ⟨h.gen, by simp [hs], ?_⟩
    have := peek_sub (i := n) (k := is.size - n) h.mem (by omega)
    rw [this]
    congr 1
    unfold slice
    rw [List.take_of_length_le]
    simp; omega

theorem Points.field {r : RawReader} {is : IStream} {bs : Bytes} (h : Points r is bs) {n : Nat} (hn : n ≤ bs.length) :
    ∃ is', r.field is n = .ok (bs.take n, is') ∧ Points r is' (bs.drop n) := by
  obtain ⟨is', h1, h2, h3⟩ := h.data hn
  refine ⟨is', ?_, h3⟩
  unfold RawReader.field
  rw [h1]
  show (r.deref is.buf n >>= _) = _
  rw [h2]; rfl

/-- A field that is all of the stream. -/
theorem Points.whole {r : RawReader} {is : IStream} {bs : Bytes} (h : Points r is bs) {n : Nat} (hn : bs.length = n) :
    ∃ is', r.field is n = .ok (bs, is') := by
  obtain ⟨is', h1, _⟩ := h.field (Nat.le_of_eq hn.symm)
  rw [← hn, List.take_length] at h1
  exact ⟨is', by rw [← hn]; exact h1⟩

theorem lift_bind (a : Res α) (f : α → Res β) (k : β → M γ) :
    (M.lift (a >>= f) >>= k) = (M.lift a >>= fun x => M.lift (f x) >>= k) := by
  cases a <;> rfl

theorem room_eq (c : Cfg) (r : RawReader) (needed : Nat) :
    r.room c needed = (do
      let old ← peek r.buf r.used r.avail
      let buf ← poke (if needed > r.buf.length then c.fresh needed else r.buf) 0 old
      return { r with gen := if needed > r.buf.length then r.gen + 1 else r.gen, buf := buf }) := by
  unfold RawReader.room
  by_cases h : needed > r.buf.length
  · simp only [if_pos h]
  · simp only [if_neg h]

/-- `prepare` returns a stream to the bytes that it returns as a value. -/
theorem sim_rprepare {c : Cfg} {r : RawReader} {r' : Reader} {needed : Nat} (h : r.abs = r') :
    Sim (fun x y => x.2.abs = y.2 ∧ Points x.2 x.1 y.1 ∧ y.1.length = needed) (r.prepare c needed) (r'.prepare c needed) := by
  subst h
  have rest : ∀ r1 : RawReader, Sim (fun x y => x.2.abs = y.2 ∧ Points x.2 x.1 y.1 ∧ y.1.length = needed)
      (M.ret ((⟨⟨r1.gen, r1.used⟩, needed⟩ : IStream), { r1 with used := r1.used + needed, avail := r1.avail - needed }))
      (do let out ← M.lift (peek r1.abs.buf r1.abs.used needed)
          M.ret (out, { r1.abs with used := r1.abs.used + needed, avail := r1.abs.avail - needed })) := by
    intro r1
    refine Sim.lift_right (fun out ho => ?_) (fun x hx => ?_)
    · have hl := peek_length ho
      exact Sim.ret ⟨rfl, ⟨rfl, hl.symm, by exact ho⟩, hl⟩
    · unfold peek at hx
      split at hx
      · cases hx
      · cases hx; exact .inl rfl
  unfold RawReader.prepare Reader.prepare RawReader.fill
  by_cases h1 : needed > r.avail
  · rw [if_pos h1]
    simp only [if_pos (show needed > r.abs.avail from h1)]
    by_cases h2 : r.offset + needed - r.avail > r.last
    · rw [if_pos h2]
      simp only [if_pos (show r.abs.offset + needed - r.abs.avail > r.abs.last from h2)]
      exact Sim.fail
    · rw [if_neg h2]
      simp only [if_neg (show ¬ r.abs.offset + needed - r.abs.avail > r.abs.last from h2)]
      rw [M.bind_assoc']
      rw [room_eq, lift_bind]
      refine Sim.bind (Sim.refl _) ?_
      rintro old _ rfl
      rw [lift_bind]
      refine Sim.bind (Sim.refl _) ?_
      rintro buf _ rfl
      rw [show (∀ {β : Type} (a : RawReader) (k : RawReader → M β), (M.lift (pure a) >>= k) = k a) from fun _ _ => rfl, M.bind_assoc']
      refine Sim.bind (Sim.refl _) ?_
      rintro data _ rfl
      rw [M.bind_assoc']
      refine Sim.bind (Sim.refl _) ?_
      rintro buf' _ rfl
      exact rest { r with gen := if needed > r.buf.length then r.gen + 1 else r.gen, buf := buf', offset := _, avail := _, used := 0 }
  · rw [if_neg h1]
    simp only [if_neg (show ¬ needed > r.abs.avail from h1)]
    exact rest r

theorem abs_new (c : Cfg) (p : Path) (o l n : Nat) : (RawReader.new c p o l n).abs = Reader.new c p o l n := rfl

theorem abs_pos {r : RawReader} {r' : Reader} (h : r.abs = r') : r.pos = r'.pos := by subst h; rfl
theorem abs_eof {r : RawReader} {r' : Reader} (h : r.abs = r') : r.eof = r'.eof := by subst h; rfl

/-! ### visit -/

theorem null_throws (k n : Nat) (hn : n > 0) {R : α → β → Prop} :
    Sim R (do
      let (_, is) ← M.lift (IStream.null.data k)
      let _ ← M.lift (is.data n)
      M.raise .ub : M α) (M.raise .throw) := by
  intro σ w
  refine .inr ?_
  by_cases hk : k = 0
  · subst hk
    have e : (IStream.null).data 0 = .ok (⟨0, 0⟩, ⟨⟨0, 0⟩, 0⟩) := rfl
    have e2 : (⟨⟨0, 0⟩, 0⟩ : IStream).data n = .error .throw := by unfold IStream.data; rw [if_pos hn]
    rw [e]
    show M.bind (M.lift ((⟨⟨0, 0⟩, 0⟩ : IStream).data n)) _ σ w = _
    rw [e2]; rfl
  · have e2 : (IStream.null).data k = .error .throw := by
      exact if_pos (show 0 < k by omega)
    rw [e2]; rfl

theorem sim_visitStep {c : Cfg} {k n : Nat} {cb : List Event → Option Err} {r : RawReader} {r' : Reader} (h : r.abs = r') :
    Sim (fun x y => x.abs = y) (rawVisitStep c k n cb r) (visitStep c k n cb r') := by
  unfold rawVisitStep visitStep
  refine Sim.bind (sim_rprepare h) ?_
  rintro ⟨is, r1⟩ ⟨bs, r1'⟩ ⟨h1, h2, h3⟩
  dsimp only at h1 h2 h3 ⊢
  obtain ⟨is', e1⟩ := h2.whole h3
  refine Sim.lift_left _ e1 ?_
  dsimp only
  refine Sim.bind (Sim.refl _) ?_
  rintro size _ rfl
  have fin : ∀ {r : RawReader} {r' : Reader}, r.abs = r' →
      Sim (fun x y => x.abs = y) (do emit (.progress r.pos n); M.ret r) (do emit (.progress r'.pos n); M.ret r') := by
    intro r r' h
    rw [abs_pos h]
    refine Sim.bind (Sim.refl _) ?_
    rintro _ _ _
    exact Sim.ret h
  by_cases hs : size > 0
  · simp only [if_pos hs]
    refine Sim.bind (sim_rprepare h1).attempt ?_
    rintro (x | ⟨is2, r2⟩) (y | ⟨bs2, r2'⟩) hab
    · exact null_throws k size hs
    · exact hab.elim
    · exact hab.elim
    · obtain ⟨g1, g2, g3⟩ := hab
      dsimp only at g1 g2 g3 ⊢
      obtain ⟨is3, e3, e4, g4⟩ := g2.data (n := k) (by omega)
      refine Sim.lift_left _ e3 ?_
      dsimp only
      obtain ⟨is5, e5, e6, _⟩ := g4.data (n := size) (by rw [List.length_drop]; omega)
      refine Sim.lift_left _ e5 ?_
      dsimp only
      refine Sim.lift_left _ e4 ?_
      refine Sim.lift_left _ e6 ?_
      rw [List.take_of_length_le (l := bs2.drop k) (by rw [List.length_drop]; omega)]
      refine Sim.bind (Sim.refl _) ?_
      rintro _ _ _
      refine Sim.bind (Sim.refl _) ?_
      rintro ev _ rfl
      cases cb ev with
      | some e => exact Sim.fail
      | none => exact fin g1
  · simp only [if_neg hs]
    refine Sim.bind (sim_rprepare h1) ?_
    rintro ⟨is2, r2⟩ ⟨bs2, r2'⟩ ⟨g1, g2, g3⟩
    dsimp only at g1 g2 g3 ⊢
    obtain ⟨is', e2⟩ := g2.whole g3
    refine Sim.lift_left _ e2 ?_
    dsimp only
    refine Sim.bind (sim_rprepare g1) ?_
    rintro ⟨is3, r3⟩ ⟨bs3, r3'⟩ ⟨k1, _, _⟩
    exact fin k1

theorem sim_visitLoop {c : Cfg} {k n : Nat} {cb : List Event → Option Err} (fuel : Nat) :
    ∀ {r : RawReader} {r' : Reader}, r.abs = r' → Sim Eq (rawVisitLoop c k n cb fuel r) (visitLoop c k n cb fuel r') := by
  induction fuel with
  | zero => intros; exact Sim.raise
  | succ fuel ih =>
    intro r r' h
    unfold rawVisitLoop visitLoop
    rw [abs_eof h]
    by_cases he : r'.eof = true
    · rw [if_pos he, if_pos he]; exact Sim.ret rfl
    · rw [if_neg he, if_neg he]
      exact Sim.bind (sim_visitStep h) (fun _ _ => ih)

/-- The same first steps on both sides. -/
theorem Sim.step {m : M γ} {k : γ → M α} {k' : γ → M β} {R : α → β → Prop} (h : ∀ a, Sim R (k a) (k' a)) :
    Sim R (m >>= k) (m >>= k') :=
  Sim.bind (Sim.refl m) (fun a _ e => e ▸ h a)

theorem sim_visit {c : Cfg} {cb : List Event → Option Err} : Sim Eq (rawVisit c cb) (visit c cb) := by
  unfold rawVisit visit
  refine Sim.step fun _ => Sim.step fun _ => Sim.step fun _ => Sim.step fun _ => Sim.step fun _ => ?_
  exact sim_visitLoop _ (abs_new ..)

/-! ### recover -/

theorem sim_readHead {c : Cfg} {b : Bkt} {r : RawReader} {r' : Reader} (h : r.abs = r') :
    Sim (fun x y => x.1 = y.1 ∧ x.2.abs = y.2) (rawReadHead c b r) (b.readHead c r') := by
  unfold rawReadHead Bkt.readHead
  refine Sim.bind (sim_rprepare h) ?_
  rintro ⟨is, r1⟩ ⟨bs, r1'⟩ ⟨h1, h2, h3⟩
  dsimp only at h1 h2 h3 ⊢
  obtain ⟨is2, e1, g2⟩ := h2.field (n := 2) (by omega)
  refine Sim.lift_left _ e1 ?_
  dsimp only
  obtain ⟨is3, e2, _⟩ := g2.field (n := 6) (by rw [List.length_drop]; omega)
  refine Sim.lift_left _ e2 ?_
  dsimp only
  rw [show bs.take 2 = slice bs 0 2 from take_eq_slice .., show (bs.drop 2).take 6 = slice bs 2 6 from rfl]
  exact Sim.step fun b => Sim.ret ⟨rfl, h1⟩

theorem sim_readBody {c : Cfg} {b : Bkt} {r : RawReader} {r' : Reader} (h : r.abs = r') :
    Sim (fun x y => x.1 = y.1 ∧ x.2.abs = y.2) (rawReadBody c b r) (b.readBody c r') := by
  unfold rawReadBody Bkt.readBody
  refine Sim.bind (sim_rprepare h) ?_
  rintro ⟨is, r1⟩ ⟨bs, r1'⟩ ⟨h1, h2, h3⟩
  dsimp only at h1 h2 h3 ⊢
  obtain ⟨is2, e1, e2, _⟩ := h2.data (n := b.size * 18) (by omega)
  refine Sim.lift_left _ e1 ?_
  dsimp only
  refine Sim.lift_left _ e2 ?_
  rw [List.take_of_length_le (by omega)]
  exact Sim.step fun b => Sim.ret ⟨rfl, h1⟩

theorem sim_readBulk {c : Cfg} {b : Bkt} {r : RawReader} {r' : Reader} (h : r.abs = r') :
    Sim (fun x y => x.1 = y.1 ∧ x.2.abs = y.2) (rawReadBulk c b r) (b.readBulk c r') := by
  unfold rawReadBulk Bkt.readBulk
  refine Sim.bind (sim_readHead h) ?_
  rintro ⟨b1, r1⟩ ⟨_, r1'⟩ ⟨rfl, h1⟩
  exact sim_readBody h1

/-- The same outcome of a round of `recover`. -/
def LogRel : RawLogStep → LogStep → Prop
  | .done, .done => True
  | .next b r, .next b' r' => b = b' ∧ r.abs = r'
  | _, _ => False

theorem sim_recoverStep {c : Cfg} {kh : KeyHeader} {d : Nat} {b : Bkt} {r : RawReader} {r' : Reader} (h : r.abs = r') :
    Sim LogRel (rawRecoverStep c kh d b r) (recoverStep c kh d b r') := by
  unfold rawRecoverStep recoverStep
  rw [abs_eof h]
  by_cases he : r'.eof = true
  · rw [if_pos he, if_pos he]; exact Sim.ret trivial
  · rw [if_neg he, if_neg he]
    refine Sim.bind (sim_rprepare h).attempt ?_
    rintro (x | ⟨is, r1⟩) (y | ⟨bs, r1'⟩) hab
    · cases hab
      cases x <;> first | exact Sim.ret trivial | exact Sim.fail
    · exact hab.elim
    · exact hab.elim
    · obtain ⟨g1, g2, g3⟩ := hab
      dsimp only at g1 g2 g3 ⊢
      obtain ⟨is2, e1⟩ := g2.whole g3
      refine Sim.lift_left _ e1 ?_
      refine Sim.step fun _ => ?_
      refine Sim.bind (sim_readHead g1).attempt ?_
      rintro (x | ⟨b2, r2⟩) (y | ⟨b2', r2'⟩) hab
      · cases hab
        cases x <;> first | exact Sim.ret trivial | exact Sim.step fun _ => Sim.fail
      · exact hab.elim
      · exact hab.elim
      · obtain ⟨k1, k2⟩ := hab
        dsimp only at k1 k2 ⊢
        subst k1
        refine Sim.bind (sim_readBody k2).attempt ?_
        rintro (x | ⟨b3, r3⟩) (y | ⟨b3', r3'⟩) hab
        · cases hab
          cases x <;> first | exact Sim.ret trivial | exact Sim.step fun _ => Sim.fail
        · exact hab.elim
        · exact hab.elim
        · obtain ⟨q1, q2⟩ := hab
          dsimp only at q1 q2 ⊢
          subst q1
          exact Sim.step fun _ => Sim.ret ⟨rfl, q2⟩

theorem sim_recoverLoop {c : Cfg} {kh : KeyHeader} {d : Nat} (fuel : Nat) : ∀ {b : Bkt} {r : RawReader} {r' : Reader}, r.abs = r' →
    Sim Eq (rawRecoverLoop c kh d fuel b r) (recoverLoop c kh d fuel b r') := by
  induction fuel with
  | zero => intros; exact Sim.raise
  | succ fuel ih =>
    intro b r r' h
    unfold rawRecoverLoop recoverLoop
    refine Sim.bind (sim_recoverStep h) ?_
    rintro (_ | ⟨b1, r1⟩) (_ | ⟨b1', r1'⟩) hab
    · exact Sim.ret rfl
    · exact hab.elim
    · exact hab.elim
    · obtain ⟨rfl, h1⟩ := hab
      exact ih h1

theorem sim_replayLog {c : Cfg} {dh : DatHeader} {lh : LogHeader} {d l : Nat} :
    Sim Eq (rawReplayLog c dh lh d l) (replayLog c dh lh d l) := by
  unfold rawReplayLog replayLog
  refine Sim.step fun _ => Sim.step fun _ => Sim.step fun _ => Sim.step fun _ => Sim.step fun _ => ?_
  exact sim_recoverLoop _ (abs_new ..)

theorem sim_recover {c : Cfg} : Sim Eq (rawRecover c) (recover c) := by
  unfold rawRecover recover
  refine Sim.step fun _ => Sim.step fun _ => Sim.step fun _ => Sim.step fun _ => Sim.step fun _ => Sim.step fun ks => ?_
  by_cases hk : ks ≤ keyHeaderSize
  · rw [if_pos hk, if_pos hk]; exact Sim.refl _
  · rw [if_neg hk, if_neg hk]
    refine Sim.step fun x => ?_
    cases x with
    | error e => cases e <;> exact Sim.refl _
    | ok u =>
      refine Sim.step fun l => Sim.step fun x => ?_
      cases x with
      | error e => cases e <;> exact Sim.refl _
      | ok lh =>
        refine Sim.step fun _ => ?_
        by_cases hz : lh.keyFileSize = 0
        · simp only [if_pos hz]; exact Sim.refl _
        · simp only [if_neg hz]
          exact Sim.bind sim_replayLog (fun _ _ _ => Sim.refl _)

theorem sim_open {c : Cfg} : Sim Eq (rawOpen c) (openStore c) := by
  unfold rawOpen openStore
  exact Sim.bind sim_recover (fun _ _ _ => Sim.refl _)

end NuDB.Raw
