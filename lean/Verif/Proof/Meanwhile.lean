import Verif.Spec.Meanwhile
import Verif.Proof.Bytes
/-
`visit` while others append to the data file (C87): two runs side by side, one with the
others and one on a file that does not change.
-/
namespace NuDB

namespace Meanwhile

open Spec

/-- From the `n`-th operation on the data file begins with `F`. -/
def Begins (env : FilesAt) (F : Bytes) (n : Nat) : Prop := ∀ i, n ≤ i → ∃ f, env i .dat = some f ∧ F <+: f.cur

theorem begins {env : FilesAt} (hg : AppendsOnly env) {f : FileSt} {n : Nat} (h : env n .dat = some f) :
    Begins env f.cur n := by
  intro i hi
  obtain ⟨k, rfl⟩ := Nat.exists_eq_add_of_le hi
  induction k with
  | zero => exact ⟨f, h, List.prefix_refl _⟩
  | succ k ih =>
    obtain ⟨f1, h1, h2⟩ := ih (by omega)
    obtain ⟨f2, f3, h3, h4, h5⟩ := hg (n + k)
    rw [h1] at h3
    cases h3
    exact ⟨f3, h4, h2.trans h5⟩

/-- The two worlds: from now on the data file begins with `F`; in `v` it is `F`. -/
structure Side (env : FilesAt) (F : Bytes) (w v : World) : Prop where
  live : Begins env F w.clock
  still : ∃ g, v.fs .dat = some g ∧ g.cur = F
  clock : w.clock = v.clock
  out : w.out = v.out

/-- Both programs have the same outcome, which satisfies `P`, and stay side by side. -/
def Same (σ : Schedule) (env : FilesAt) (F : Bytes) (m m' : M α) (P : α → Prop) : Prop :=
  ∀ w v, Side env F w v → (m σ w).1 = (m' σ v).1 ∧ Side env F (m σ w).2 (m' σ v).2 ∧ ∀ a, (m' σ v).1 = .ok a → P a

variable {σ : Schedule} {F : Bytes} {env : FilesAt}

theorem same_bind {m m' : M α} {k k' : α → M β} {P : α → Prop} {Q : β → Prop} (h : Same σ env F m m' P)
    (hk : ∀ a, P a → Same σ env F (k a) (k' a) Q) : Same σ env F (m >>= k) (m' >>= k') Q := by
  intro w v hs
  obtain ⟨h1, h2, h3⟩ := h w v hs
  show ((M.bind m k σ w).1 = (M.bind m' k' σ v).1) ∧ Side env F (M.bind m k σ w).2 (M.bind m' k' σ v).2 ∧
    ∀ a, (M.bind m' k' σ v).1 = .ok a → Q a
  unfold M.bind
  cases e : m σ w with
  | mk r w' =>
    cases e' : m' σ v with
    | mk r' v' =>
      rw [e, e'] at h1 h2
      rw [e'] at h3
      simp only at h1 h2 h3
      subst h1
      cases r with
      | ok a => exact hk a (h3 a rfl) w' v' h2
      | error x => exact ⟨rfl, h2, fun a h => nomatch h⟩

theorem same_ret {P : α → Prop} {a : α} (h : P a) : Same σ env F (M.ret a) (M.ret a) P := by
  intro w v hs
  refine ⟨rfl, hs, fun b e => ?_⟩
  cases e; exact h

theorem same_raise {P : α → Prop} {x : Exc} : Same σ env F (M.raise x) (M.raise x) P :=
  fun _ _ hs => ⟨rfl, hs, fun _ e => nomatch e⟩

theorem same_lift {r : Res α} : Same σ env F (M.lift r) (M.lift r) (fun _ => True) :=
  fun _ _ hs => ⟨rfl, hs, fun _ _ => trivial⟩

theorem same_check {r : Except Err α} : Same σ env F (M.check r) (M.check r) (fun _ => True) := by
  intro w v hs
  unfold M.check
  cases r <;> exact ⟨rfl, hs, fun _ _ => trivial⟩

theorem same_emit {e : Event} : Same σ env F (emit e) (emit e) (fun _ => True) :=
  fun _ _ hs => ⟨rfl, ⟨hs.live, hs.still, hs.clock, by show _ ++ _ = _ ++ _; rw [hs.out]⟩, fun _ _ => trivial⟩

theorem same_history : Same σ env F history history (fun _ => True) :=
  fun w v hs => ⟨by show Except.ok w.out = Except.ok v.out; rw [hs.out], hs, fun _ _ => trivial⟩

theorem same_attempt {m m' : M α} {P : α → Prop} (h : Same σ env F m m' P) :
    Same σ env F (M.attempt m) (M.attempt m') (fun r => ∀ a, r = .ok a → P a) := by
  intro w v hs
  obtain ⟨h1, h2, h3⟩ := h w v hs
  unfold M.attempt
  cases e : m σ w with
  | mk r w' =>
    cases e' : m' σ v with
    | mk r' v' =>
      rw [e, e'] at h1 h2
      rw [e'] at h3
      simp only at h1 h2 h3
      subst h1
      cases r with
      | ok a =>
        refine ⟨rfl, h2, ?_⟩
        intro b hb c hc
        cases hb; cases hc
        exact h3 a rfl
      | error x =>
        cases x <;> first
          | (refine ⟨rfl, h2, ?_⟩; intro b hb; cases hb; done)
          | (refine ⟨rfl, h2, ?_⟩; intro b hb c hc; cases hb; cases hc)

/-- Reads within the first `F.length` bytes. -/
theorem same_fRead {off n : Nat} (hn : n = 0 ∨ off + n ≤ F.length) :
    Same σ env F (after env (fRead .dat off n)) (fRead .dat off n) (fun _ => True) := by
  intro w v hs
  obtain ⟨f, h1, h2⟩ := hs.live w.clock (Nat.le_refl _)
  obtain ⟨g, h3, h4⟩ := hs.still
  have hc := hs.clock
  have hb : Begins env F (v.clock + 1) := fun i hi => hs.live i (by omega)
  unfold after fRead fileOp
  dsimp only
  rw [hc] at h1 ⊢
  have hl := h2.length_le
  cases σ v.clock with
  | fail k => exact ⟨rfl, ⟨hb, hs.still, rfl, hs.out⟩, fun _ _ => trivial⟩
  | crash k => exact ⟨rfl, ⟨hb, hs.still, rfl, hs.out⟩, fun _ _ => trivial⟩
  | none =>
    simp only [h1, h3]
    rw [if_pos (show n = 0 ∨ off + n ≤ f.cur.length by omega), if_pos (show n = 0 ∨ off + n ≤ g.cur.length by rw [h4]; exact hn)]
    refine ⟨?_, ⟨hb, ⟨g, h3, h4⟩, rfl, hs.out⟩, fun _ _ => trivial⟩
    show Except.ok _ = Except.ok _
    rw [h4]
    rcases hn with rfl | hn
    · simp
    · rw [slice_eq_of_prefix h2 hn]

theorem same_prepare (c : Cfg) (r : Reader) (needed : Nat) (hp : r.path = .dat) (hl : r.last = F.length) :
    Same σ env F (r.prepareMean c env needed) (r.prepare c needed) (fun x => x.2.path = .dat ∧ x.2.last = F.length) := by
  have tail : ∀ r : Reader, r.path = .dat → r.last = F.length →
      Same σ env F (do
        let out ← M.lift (peek r.buf r.used needed)
        M.ret (out, { r with used := r.used + needed, avail := r.avail - needed })) (do
        let out ← M.lift (peek r.buf r.used needed)
        M.ret (out, { r with used := r.used + needed, avail := r.avail - needed }))
        (fun x : Bytes × Reader => x.2.path = .dat ∧ x.2.last = F.length) := by
    intro r h1 h2
    apply same_bind same_lift
    intro out _
    exact same_ret ⟨h1, h2⟩
  unfold Reader.prepareMean Reader.prepare
  dsimp only
  split
  · split
    · exact same_bind (P := fun _ => False) same_raise fun _ h => h.elim
    · apply same_bind same_lift
      intro old _
      apply same_bind same_lift
      intro buf _
      apply same_bind (P := fun _ => True)
      · rw [hp]
        apply same_fRead
        omega
      intro data _
      apply same_bind same_lift
      intro buf' _
      exact same_bind (P := fun r : Reader => r.path = .dat ∧ r.last = F.length) (same_ret ⟨hp, hl⟩)
        fun r h => tail r h.1 h.2
  · exact same_bind (P := fun r : Reader => r.path = .dat ∧ r.last = F.length) (same_ret ⟨hp, hl⟩)
      fun r h => tail r h.1 h.2

theorem same_visitStep (c : Cfg) (ks fz : Nat) (cb : List Event → Option Err) (r : Reader)
    (hp : r.path = .dat) (hl : r.last = F.length) :
    Same σ env F (visitStepMean c env ks fz cb r) (visitStep c ks fz cb r) (fun r => r.path = .dat ∧ r.last = F.length) := by
  have tail : ∀ r : Reader, (r.path = .dat ∧ r.last = F.length) →
      Same σ env F (do emit (.progress r.pos fz); M.ret r) (do emit (.progress r.pos fz); M.ret r)
        (fun r : Reader => r.path = .dat ∧ r.last = F.length) := by
    intro r h
    apply same_bind same_emit
    intro _ _
    exact same_ret h
  unfold visitStepMean visitStep
  apply same_bind (same_prepare c r 6 hp hl)
  rintro ⟨is, r1⟩ ⟨hp1, hl1⟩
  apply same_bind same_lift
  intro size _
  dsimp only
  split
  · apply same_bind (same_attempt (same_prepare c r1 _ hp1 hl1))
    intro x hx
    cases x with
    | error e => exact same_bind (P := fun _ => False) same_raise fun _ h => h.elim
    | ok a =>
      have ha := hx a rfl
      apply same_bind same_emit
      intro _ _
      apply same_bind same_history
      intro hist _
      cases cb hist with
      | some e => exact same_bind (P := fun _ => False) same_raise fun _ h => h.elim
      | none => exact same_bind (same_ret ha) tail
  · apply same_bind (same_prepare c r1 _ hp1 hl1)
    rintro ⟨is2, r2⟩ ⟨hp2, hl2⟩
    apply same_bind (same_prepare c r2 _ hp2 hl2)
    rintro ⟨is3, r3⟩ h3
    exact same_bind (same_ret h3) tail

theorem same_visitLoop (c : Cfg) (ks fz : Nat) (cb : List Event → Option Err) : ∀ n (r : Reader),
    r.path = .dat → r.last = F.length →
    Same σ env F (visitLoopMean c env ks fz cb n r) (visitLoop c ks fz cb n r) (fun _ => True) := by
  intro n
  induction n with
  | zero => intro r _ _; exact same_raise
  | succ n ih =>
    intro r hp hl
    unfold visitLoopMean visitLoop
    split
    · exact same_ret trivial
    · apply same_bind (same_visitStep c ks fz cb r hp hl)
      intro r' h'
      exact ih r' h'.1 h'.2

theorem after_bind (m : M α) (k : α → M β) : after env (m >>= k) = after env m >>= k := rfl

/-- `visit` while others append is `visit` on the data file as it was when its size was read. -/
theorem visit_frozen (hg : AppendsOnly env) (c : Cfg) (cb : List Event → Option Err) {w : World} {f g : FileSt}
    (hf : env w.clock .dat = some f) (h92 : 92 ≤ f.cur.length) (hm : whenSized env w .dat = some g) :
    (visitMean c env cb σ w).1 = (visit c cb σ (withCopy g w)).1 ∧
      (visitMean c env cb σ w).2.out = (visit c cb σ (withCopy g w)).2.out := by
  obtain ⟨f1, e1, p1⟩ := begins hg hf w.clock (by omega)
  obtain ⟨f2, e2, p2⟩ := begins hg e1 (w.clock + 1) (by omega)
  obtain ⟨f3, e3, p3⟩ := begins hg e2 (w.clock + 2) (by omega)
  have h3 : f3 = g := Option.some.inj (e3.symm.trans hm)
  subst h3
  have hc : (withCopy f3 w).fs .dat = some f3 := by simp [withCopy, Fs.set]
  have l2 := (p1.trans p2).length_le
  have l3 := p3.length_le
  unfold visitMean visit readDatHeader
  show (M.bind _ _ σ w).1 = (M.bind _ _ σ _).1 ∧ (M.bind _ _ σ w).2.out = (M.bind _ _ σ _).2.out
  -- open
  have o1 : after env (fOpen .dat) σ w = (match σ w.clock with
      | .none => (.ok (), ⟨env w.clock, w.clock + 1, w.out⟩)
      | .fail _ => (.error (.err .io), ⟨env w.clock, w.clock + 1, w.out⟩)
      | .crash _ => (.error .crash, ⟨env w.clock, w.clock + 1, w.out⟩)) := by
    unfold after fOpen fileOp
    simp only [e1]
    cases σ w.clock <;> rfl
  have o2 : fOpen .dat σ (withCopy f3 w) = (match σ w.clock with
      | .none => (.ok (), ⟨(withCopy f3 w).fs, w.clock + 1, w.out⟩)
      | .fail _ => (.error (.err .io), ⟨(withCopy f3 w).fs, w.clock + 1, w.out⟩)
      | .crash _ => (.error .crash, ⟨(withCopy f3 w).fs, w.clock + 1, w.out⟩)) := by
    unfold fOpen fileOp
    simp only [hc]
    show (match σ w.clock with | .none => _ | .fail _ => _ | .crash _ => _) = _
    cases σ w.clock <;> rfl
  unfold M.bind
  rw [o1, o2]
  cases σ w.clock with
  | fail k => exact ⟨rfl, rfl⟩
  | crash k => exact ⟨rfl, rfl⟩
  | none =>
    have r1 : after env (fRead .dat 0 datHeaderSize) σ ⟨env w.clock, w.clock + 1, w.out⟩ = (match σ (w.clock + 1) with
        | .none => (.ok (slice f3.cur 0 92), ⟨env (w.clock + 1), w.clock + 2, w.out⟩)
        | .fail _ => (.error (.err .io), ⟨env (w.clock + 1), w.clock + 2, w.out⟩)
        | .crash _ => (.error .crash, ⟨env (w.clock + 1), w.clock + 2, w.out⟩)) := by
      unfold after fRead fileOp
      simp only [e2]
      rw [if_pos (show datHeaderSize = 0 ∨ 0 + datHeaderSize ≤ f2.cur.length from .inr (by show 0 + 92 ≤ _; omega)),
        ← slice_eq_of_prefix p3 (show 0 + datHeaderSize ≤ f2.cur.length by show 0 + 92 ≤ _; omega)]
      cases σ (w.clock + 1) <;> rfl
    have r2 : fRead .dat 0 datHeaderSize σ ⟨(withCopy f3 w).fs, w.clock + 1, w.out⟩ = (match σ (w.clock + 1) with
        | .none => (.ok (slice f3.cur 0 92), ⟨(withCopy f3 w).fs, w.clock + 2, w.out⟩)
        | .fail _ => (.error (.err .io), ⟨(withCopy f3 w).fs, w.clock + 2, w.out⟩)
        | .crash _ => (.error .crash, ⟨(withCopy f3 w).fs, w.clock + 2, w.out⟩)) := by
      unfold fRead fileOp
      simp only [hc]
      rw [if_pos (show datHeaderSize = 0 ∨ 0 + datHeaderSize ≤ f3.cur.length from .inr (by show 0 + 92 ≤ _; omega))]
      cases σ (w.clock + 1) <;> rfl
    have s1 : after env (fSize .dat) σ ⟨env (w.clock + 1), w.clock + 2, w.out⟩ = (match σ (w.clock + 2) with
        | .none => (.ok f3.cur.length, ⟨whenSized env w, w.clock + 3, w.out⟩)
        | .fail _ => (.error (.err .io), ⟨whenSized env w, w.clock + 3, w.out⟩)
        | .crash _ => (.error .crash, ⟨whenSized env w, w.clock + 3, w.out⟩)) := by
      unfold after fSize fileOp
      simp only [e3]
      cases σ (w.clock + 2) <;> rfl
    have s2 : fSize .dat σ ⟨(withCopy f3 w).fs, w.clock + 2, w.out⟩ = (match σ (w.clock + 2) with
        | .none => (.ok f3.cur.length, ⟨(withCopy f3 w).fs, w.clock + 3, w.out⟩)
        | .fail _ => (.error (.err .io), ⟨(withCopy f3 w).fs, w.clock + 3, w.out⟩)
        | .crash _ => (.error .crash, ⟨(withCopy f3 w).fs, w.clock + 3, w.out⟩)) := by
      unfold fSize fileOp
      simp only [hc]
      cases σ (w.clock + 2) <;> rfl
    have h0 : ∀ (k : DatHeader → M Unit) (v : World), (M.bind (after env (M.bind (fRead .dat 0 datHeaderSize)
        fun b => M.ret (getDatHeader b))) k) σ v = M.bind (after env (fRead .dat 0 datHeaderSize)) (fun b => k (getDatHeader b)) σ v := by
      intro k v
      unfold after M.bind
      dsimp only
      cases fRead .dat 0 datHeaderSize σ { fs := env v.clock, clock := v.clock, out := v.out } with
      | mk r v' => cases r <;> rfl
    have h0' : ∀ (k : DatHeader → M Unit) (v : World), (M.bind (M.bind (fRead .dat 0 datHeaderSize)
        fun b => M.ret (getDatHeader b)) k) σ v = M.bind (fRead .dat 0 datHeaderSize) (fun b => k (getDatHeader b)) σ v := by
      intro k v
      unfold M.bind
      cases fRead .dat 0 datHeaderSize σ v with
      | mk r v' => cases r <;> rfl
    show (M.bind (after env (M.bind _ _)) _ σ _).1 = (M.bind (M.bind _ _) _ σ _).1 ∧
      (M.bind (after env (M.bind _ _)) _ σ _).2.out = (M.bind (M.bind _ _) _ σ _).2.out
    rw [h0, h0']
    unfold M.bind
    rw [r1, r2]
    cases σ (w.clock + 1) with
    | fail k => exact ⟨rfl, rfl⟩
    | crash k => exact ⟨rfl, rfl⟩
    | none =>
      dsimp only
      show (M.bind (M.check _) _ σ _).1 = (M.bind (M.check _) _ σ _).1 ∧
        (M.bind (M.check _) _ σ _).2.out = (M.bind (M.check _) _ σ _).2.out
      unfold M.bind M.check
      cases verifyDat (getDatHeader (slice f3.cur 0 92)) with
      | error e => exact ⟨rfl, rfl⟩
      | ok u =>
        dsimp only
        show (M.bind (after env (fSize .dat)) _ σ _).1 = (M.bind (fSize .dat) _ σ _).1 ∧
          (M.bind (after env (fSize .dat)) _ σ _).2.out = (M.bind (fSize .dat) _ σ _).2.out
        unfold M.bind
        rw [s1, s2]
        cases σ (w.clock + 2) with
        | fail k => exact ⟨rfl, rfl⟩
        | crash k => exact ⟨rfl, rfl⟩
        | none =>
          have hs : Side env f3.cur ⟨whenSized env w, w.clock + 3, w.out⟩ ⟨(withCopy f3 w).fs, w.clock + 3, w.out⟩ :=
            ⟨fun i hi => begins hg e3 i (Nat.le_trans (Nat.le_succ _) hi), ⟨f3, hc, rfl⟩, rfl, rfl⟩
          have key := same_bind (σ := σ) (env := env) (F := f3.cur) (m := emit (.progress 0 f3.cur.length)) same_emit
            (fun _ _ => same_visitLoop c (getDatHeader (slice f3.cur 0 92)).keySize f3.cur.length cb (f3.cur.length + 1)
              (Reader.new c .dat datHeaderSize f3.cur.length (1024 * 4096)) rfl rfl)
          obtain ⟨k1, k2, _⟩ := key _ _ hs
          exact ⟨k1, k2.out⟩

end Meanwhile
end NuDB
