import Verif.Proof.Frame
/- Programs that look at a single file. -/
namespace NuDB

/-- `p`, the clock and the reports so far are the same. -/
structure Alike (p : Path) (w v : World) : Prop where
  fs : w.fs p = v.fs p
  clock : w.clock = v.clock
  out : w.out = v.out

/-- `m` depends on no other file than `p`, and its results satisfy `P`. -/
structure Only (p : Path) (P : α → Prop) (m : M α) : Prop where
  go : ∀ σ w v, Alike p w v → (m σ w).1 = (m σ v).1 ∧ Alike p (m σ w).2 (m σ v).2 ∧ ∀ a, (m σ w).1 = .ok a → P a

section
variable {p : Path} {α β : Type} {P : α → Prop} {Q : β → Prop}

theorem Only.ret {a : α} (h : P a) : Only p P (M.ret a) :=
  ⟨fun _ _ _ hw => ⟨rfl, hw, fun b e => by cases e; exact h⟩⟩
theorem Only.raise {x : Exc} : Only p P (M.raise x : M α) := ⟨fun _ _ _ h => ⟨rfl, h, fun _ e => by cases e⟩⟩
theorem Only.fail {e : Err} : Only p P (M.fail e : M α) := ⟨fun _ _ _ h => ⟨rfl, h, fun _ e => by cases e⟩⟩
theorem Only.lift {r : Res α} (h : ∀ a, P a) : Only p P (M.lift r) := ⟨fun _ _ _ hw => ⟨rfl, hw, fun a _ => h a⟩⟩
theorem Only.check {r : Except Err α} (h : ∀ a, P a) : Only p P (M.check r) := by
  refine ⟨fun σ w v hw => ?_⟩; unfold M.check; cases r <;> exact ⟨rfl, hw, fun a _ => h a⟩
theorem Only.emit {e : Event} {P : Unit → Prop} (h : P ()) : Only p P (NuDB.emit e) :=
  ⟨fun _ _ _ hw => ⟨rfl, ⟨hw.fs, hw.clock, by show _ ++ _ = _ ++ _; rw [hw.out]⟩, fun _ _ => h⟩⟩
theorem Only.history : Only p (fun _ => True) NuDB.history :=
  ⟨fun _ w v h => ⟨by show Except.ok w.out = Except.ok v.out; rw [h.out], h, fun _ _ => trivial⟩⟩

theorem Only.bind {m : M α} {k : α → M β} (P : α → Prop) (h : Only p P m) (hk : ∀ a, P a → Only p Q (k a)) :
    Only p Q (m >>= k) := by
  refine ⟨fun σ w v hw => ?_⟩
  have := h.go σ w v hw
  show (M.bind m k σ w).1 = (M.bind m k σ v).1 ∧ Alike p (M.bind m k σ w).2 (M.bind m k σ v).2 ∧
    ∀ a, (M.bind m k σ w).1 = .ok a → Q a
  unfold M.bind
  generalize m σ w = x at this ⊢
  generalize m σ v = y at this ⊢
  obtain ⟨rx, wx⟩ := x
  obtain ⟨ry, wy⟩ := y
  obtain ⟨h1, h2, h3⟩ := this
  simp only at h1 h2 h3
  subst h1
  cases rx with
  | ok a => exact (hk a (h3 a rfl)).go σ wx wy h2
  | error e => exact ⟨rfl, h2, fun _ e => by cases e⟩

theorem Only.attempt {m : M α} (h : Only p P m) : Only p (fun x => ∀ a, x = .ok a → P a) (M.attempt m) := by
  refine ⟨fun σ w v hw => ?_⟩
  have := h.go σ w v hw
  unfold M.attempt
  generalize m σ w = x at this ⊢
  generalize m σ v = y at this ⊢
  obtain ⟨rx, wx⟩ := x
  obtain ⟨ry, wy⟩ := y
  obtain ⟨h1, h2, h3⟩ := this
  simp only at h1 h2 h3
  subst h1
  cases rx with
  | ok a => exact ⟨rfl, h2, fun b e b' e' => by cases e; cases e'; exact h3 _ rfl⟩
  | error e =>
    cases e
    case err e => exact ⟨rfl, h2, fun b e b' e' => by cases e; cases e'⟩
    all_goals exact ⟨rfl, h2, fun b e => by cases e⟩

theorem Only.fileOp {ok : Fs → Except Exc α × Fs} {part : Fs → Nat → Fs}
    (h1 : ∀ fs fs', fs p = fs' p → (ok fs).1 = (ok fs').1 ∧ (ok fs).2 p = (ok fs').2 p)
    (h2 : ∀ fs fs' k, fs p = fs' p → part fs k p = part fs' k p) : Only p (fun _ => True) (NuDB.fileOp ok part) := by
  refine ⟨fun σ w v h => ?_⟩
  unfold NuDB.fileOp
  rw [← h.clock, ← h.out]
  cases σ w.clock with
  | none => exact ⟨(h1 _ _ h.fs).1, ⟨(h1 _ _ h.fs).2, rfl, rfl⟩, fun _ _ => trivial⟩
  | fail k => exact ⟨rfl, ⟨h2 _ _ k h.fs, rfl, rfl⟩, fun _ _ => trivial⟩
  | crash k => exact ⟨rfl, ⟨h2 _ _ k h.fs, rfl, rfl⟩, fun _ _ => trivial⟩

theorem Only.fOpen : Only p (fun _ => True) (fOpen p) := by
  apply Only.fileOp
  · intro fs fs' h; rw [← h]; cases e : fs p <;> exact ⟨rfl, h⟩
  · intro fs fs' k h; exact h

theorem Only.fSize : Only p (fun _ => True) (fSize p) := by
  apply Only.fileOp
  · intro fs fs' h; rw [← h]; cases e : fs p <;> exact ⟨rfl, h⟩
  · intro fs fs' k h; exact h

theorem Only.fRead {o n : Nat} : Only p (fun _ => True) (fRead p o n) := by
  apply Only.fileOp
  · intro fs fs' h; rw [← h]
    cases e : fs p
    · exact ⟨rfl, h⟩
    · simp only
      split <;> exact ⟨rfl, h⟩
  · intro fs fs' k h; exact h

theorem Only.prepare {c : Cfg} {r : Reader} {n : Nat} (h : r.path = p) :
    Only p (fun a : Bytes × Reader => a.2.path = p) (r.prepare c n) := by
  subst h
  unfold Reader.prepare
  have h2 : ∀ q : Reader, q.path = r.path → Only r.path (fun a : Bytes × Reader => a.2.path = r.path) (do
        let out ← M.lift (peek q.buf q.used n)
        M.ret (out, { q with used := q.used + n, avail := q.avail - n })) :=
    fun q hq => Only.bind (fun _ => True) (Only.lift (fun _ => trivial)) (fun _ _ => Only.ret hq)
  split
  · split
    · exact Only.bind (fun q : Reader => q.path = r.path) Only.fail h2
    · refine Only.bind (fun _ => True) (Only.lift (fun _ => trivial)) (fun _ _ => ?_)
      refine Only.bind (fun _ => True) (Only.lift (fun _ => trivial)) (fun _ _ => ?_)
      refine Only.bind (fun _ => True) Only.fRead (fun _ _ => ?_)
      refine Only.bind (fun _ => True) (Only.lift (fun _ => trivial)) (fun _ _ => ?_)
      exact Only.bind (fun q : Reader => q.path = r.path) (Only.ret rfl) h2
  · exact Only.bind (fun q : Reader => q.path = r.path) (Only.ret rfl) h2

variable {c : Cfg}

theorem Only.visitStep {ks total : Nat} {cb : List Event → Option Err} {r : Reader} (hr : r.path = p) :
    Only p (fun r : Reader => r.path = p) (visitStep c ks total cb r) := by
  unfold NuDB.visitStep
  refine Only.bind _ (Only.prepare hr) ?_
  rintro ⟨is, r1⟩ h1
  refine Only.bind (fun _ => True) (Only.lift (fun _ => trivial)) (fun size _ => ?_)
  have hend : ∀ q : Reader, q.path = p → Only p (fun r : Reader => r.path = p) (do
      NuDB.emit (.progress q.pos total); M.ret q) :=
    fun q hq => Only.bind (fun _ => True) (Only.emit trivial) (fun _ _ => Only.ret hq)
  dsimp only
  split
  · refine Only.bind _ (Only.attempt (Only.prepare h1)) ?_
    intro x hx
    cases x with
    | error e => exact Only.bind _ Only.raise hend
    | ok a =>
      obtain ⟨is2, r2⟩ := a
      have h2 : r2.path = p := hx _ rfl
      dsimp only
      refine Only.bind (fun _ => True) (Only.emit trivial) (fun _ _ => ?_)
      refine Only.bind (fun _ => True) Only.history (fun l _ => ?_)
      split
      · exact Only.bind _ Only.fail hend
      · exact Only.bind _ (Only.ret h2) hend
  · refine Only.bind _ (Only.prepare h1) ?_
    rintro ⟨is2, r2⟩ h2
    refine Only.bind _ (Only.prepare h2) ?_
    rintro ⟨is3, r3⟩ h3
    exact Only.bind _ (Only.ret h3) hend

theorem Only.visitLoop {ks total : Nat} {cb : List Event → Option Err} (fuel : Nat) : ∀ {r : Reader}, r.path = p →
    Only p (fun _ => True) (visitLoop c ks total cb fuel r) := by
  induction fuel with
  | zero => intro r _; exact Only.raise
  | succ n ih =>
    intro r hr
    unfold NuDB.visitLoop
    split
    · exact Only.ret trivial
    · exact Only.bind _ (Only.visitStep hr) (fun a ha => ih ha)

theorem Only.visit {cb : List Event → Option Err} : Only .dat (fun _ => True) (visit c cb) := by
  unfold NuDB.visit
  refine Only.bind (fun _ => True) Only.fOpen (fun _ _ => ?_)
  refine Only.bind (fun _ => True) ?_ (fun _ _ => ?_)
  · unfold readDatHeader
    exact Only.bind (fun _ => True) Only.fRead (fun _ _ => Only.ret trivial)
  refine Only.bind (fun _ => True) (Only.check (fun _ => trivial)) (fun _ _ => ?_)
  refine Only.bind (fun _ => True) Only.fSize (fun _ _ => ?_)
  refine Only.bind (fun _ => True) (Only.emit trivial) (fun _ _ => ?_)
  exact Only.visitLoop _ rfl

end

end NuDB
