import Verif.Model.Heap
import Verif.Proof.Bytes
/-
The commit on the level of memory (`Model/Heap`) simulates the commit of `Model/Store`.
-/
namespace NuDB.Raw

/-- Undefined behaviour or a failing assertion. -/
def _root_.NuDB.Exc.wrong (x : Exc) : Prop := x = .ub ∨ x = .abort

/-- `m` does what `m'` does unless `m'` is undefined or fails an assertion; results are related by `R`. -/
def Sim (R : α → β → Prop) (m : M α) (m' : M β) : Prop := ∀ σ w,
  match m' σ w with
  | (.ok b, w') => ∃ a, m σ w = (.ok a, w') ∧ R a b
  | (.error x, w') => x.wrong ∨ m σ w = (.error x, w')

/-- Likewise for code that does not touch files. -/
def RSim (R : α → β → Prop) (r : Res α) (r' : Res β) : Prop :=
  match r' with
  | .ok b => ∃ a, r = .ok a ∧ R a b
  | .error x => x.wrong ∨ r = .error x

variable {α β γ δ : Type} {R : α → β → Prop} {S : γ → δ → Prop}

theorem Sim.ret {a : α} {b : β} (h : R a b) : Sim R (M.ret a) (M.ret b) := fun _ _ => ⟨a, rfl, h⟩

theorem Sim.raise {x : Exc} : Sim R (M.raise x) (M.raise x) := fun _ _ => .inr rfl

theorem Sim.refl (m : M α) : Sim Eq m m := by
  intro σ w
  rcases m σ w with ⟨a | a, w'⟩
  · exact .inr rfl
  · exact ⟨a, rfl, rfl⟩

theorem Sim.bind {m : M α} {m' : M β} {k : α → M γ} {k' : β → M δ} (h : Sim R m m')
    (hk : ∀ a b, R a b → Sim S (k a) (k' b)) : Sim S (m >>= k) (m' >>= k') := by
  intro σ w
  have := h σ w
  show match M.bind m' k' σ w with
    | (.ok b, w') => ∃ a, M.bind m k σ w = (.ok a, w') ∧ S a b
    | (.error x, w') => x.wrong ∨ M.bind m k σ w = (.error x, w')
  unfold M.bind
  rcases hm : m' σ w with ⟨x | b, w'⟩
  · rw [hm] at this
    rcases this with h | h
    · exact .inl h
    · exact .inr (by rw [h])
  · rw [hm] at this
    obtain ⟨a, ha, hab⟩ := this
    rw [ha]
    exact hk a b hab σ w'

theorem Sim.lift {r : Res α} {r' : Res β} (h : RSim R r r') : Sim R (M.lift r) (M.lift r') := by
  intro σ w
  unfold RSim at h
  cases r' with
  | error x =>
    rcases h with h | h
    · exact .inl h
    · exact .inr (by rw [h]; rfl)
  | ok b =>
    obtain ⟨a, rfl, h⟩ := h
    exact ⟨a, rfl, h⟩

theorem Sim.attempt {m : M α} {m' : M β} (h : Sim R m m') :
    Sim (fun a b => match a, b with
      | .ok a, .ok b => R a b
      | .error e, .error e' => e = e'
      | _, _ => False) (M.attempt m) (M.attempt m') := by
  intro σ w
  have := h σ w
  unfold M.attempt
  rcases hm : m' σ w with ⟨x | b, w'⟩
  · rw [hm] at this
    rcases this with h | h
    · rcases h with rfl | rfl
      · exact .inl (.inl rfl)
      · exact .inl (.inr rfl)
    · rw [h]
      cases x <;> first
        | exact ⟨_, rfl, rfl⟩
        | exact .inr rfl
  · rw [hm] at this
    obtain ⟨a, ha, hab⟩ := this
    rw [ha]
    exact ⟨_, rfl, hab⟩

/-- The other side may do pure work first. -/
theorem Sim.lift_right {m : M α} {r : Res γ} {k : γ → M β} (h : ∀ a, r = .ok a → Sim R m (k a))
    (hx : ∀ x, r = .error x → x.wrong) : Sim R m (M.lift r >>= k) := by
  intro σ w
  show match M.bind (M.lift r) k σ w with
    | (.ok b, w') => ∃ a, m σ w = (.ok a, w') ∧ R a b
    | (.error x, w') => x.wrong ∨ m σ w = (.error x, w')
  unfold M.bind M.lift
  cases r with
  | error x => exact .inl (hx x rfl)
  | ok a => exact h a rfl σ w

theorem Sim.lift_left {m : M β} {r : Res γ} {k : γ → M α} (a : γ) (h : r = .ok a) (hk : Sim R (k a) m) :
    Sim R (M.lift r >>= k) m := by
  subst h
  exact hk

theorem Sim.mono {m : M α} {m' : M β} {R' : α → β → Prop} (h : Sim R m m') (hr : ∀ a b, R a b → R' a b) : Sim R' m m' := by
  intro σ w
  have := h σ w
  rcases hm : m' σ w with ⟨x | b, w'⟩
  · rw [hm] at this; exact this
  · rw [hm] at this
    obtain ⟨a, ha, hab⟩ := this
    exact ⟨a, ha, hr a b hab⟩

theorem RSim.ret {a : α} {b : β} (h : R a b) : RSim R (.ok a) (.ok b) := ⟨a, rfl, h⟩

theorem RSim.refl (r : Res α) : RSim Eq r r := by
  cases r with
  | error x => exact .inr rfl
  | ok a => exact ⟨a, rfl, rfl⟩

theorem RSim.bind {m : Res α} {m' : Res β} {k : α → Res γ} {k' : β → Res δ} (h : RSim R m m')
    (hk : ∀ a b, R a b → RSim S (k a) (k' b)) : RSim S (m >>= k) (m' >>= k') := by
  unfold RSim at h
  cases m' with
  | error x =>
    rcases h with h | h
    · exact .inl h
    · exact .inr (by rw [h]; rfl)
  | ok b =>
    obtain ⟨a, rfl, h⟩ := h
    exact hk a b h

/-- The object `v` with the memory it points to is the bucket `b`. -/
structure Holds (h : Ram) (v : View) (b : Bkt) : Prop where
  mem : h[v.addr]? = some b.p
  bs : v.bs = b.bs
  size : v.size = b.size
  spill : v.spill = b.spill

theorem Holds.over {h : Ram} {v : View} {b : Bkt} (hb : Holds h v b) : v.over b.p = b := by
  cases b; cases v
  obtain ⟨_, h1, h2, h3⟩ := hb
  simp only at h1 h2 h3
  subst h1 h2 h3
  rfl

theorem Holds.lt {h : Ram} {v : View} {b : Bkt} (hb : Holds h v b) : v.addr < h.length :=
  (List.getElem?_eq_some_iff.mp hb.mem).1

theorem Holds.ask {h : Ram} {v : View} {b : Bkt} (hb : Holds h v b) (f : Bkt → Res α) : v.ask h f = f b := by
  unfold View.ask
  rw [hb.mem]
  show f (v.over b.p) = f b
  rw [hb.over]

theorem Holds.set {h : Ram} {v : View} {b : Bkt} {a : Nat} {p : Bytes} (hb : Holds h v b) (hne : v.addr ≠ a) :
    Holds (h.set a p) v b :=
  ⟨by rw [List.getElem?_set_ne (fun e => hne e.symm)]; exact hb.mem, hb.bs, hb.size, hb.spill⟩

theorem Holds.grow {h : Ram} {v : View} {b : Bkt} (hb : Holds h v b) (t : Ram) : Holds (h ++ t) v b :=
  ⟨by rw [List.getElem?_append_left hb.lt]; exact hb.mem, hb.bs, hb.size, hb.spill⟩

/-- Memory outside of the addresses `S` is the same. -/
structure Same (S : List Nat) (h h' : Ram) : Prop where
  len : h'.length = h.length
  lens : ∀ a : Nat, h'[a]?.map List.length = h[a]?.map List.length
  out : ∀ a : Nat, a ∉ S → h'[a]? = h[a]?

theorem Same.refl (S : List Nat) (h : Ram) : Same S h h := ⟨rfl, fun _ => rfl, fun _ _ => rfl⟩

theorem Same.trans {S : List Nat} {h h' h'' : Ram} (x : Same S h h') (y : Same S h' h'') : Same S h h'' :=
  ⟨y.1.trans x.1, fun a => (y.2 a).trans (x.2 a), fun a ha => (y.3 a ha).trans (x.3 a ha)⟩

theorem Same.set {S : List Nat} {h : Ram} {a : Nat} {p q : Bytes} (ha : a ∈ S) (hq : h[a]? = some q) (hl : p.length = q.length) :
    Same S h (h.set a p) := by
  refine ⟨List.length_set, fun b => ?_, fun b hb => List.getElem?_set_ne (fun e => hb (by rw [← e]; exact ha))⟩
  by_cases e : a = b
  · subst e
    rw [List.getElem?_set_self (List.getElem?_eq_some_iff.mp hq).1, hq]
    simp [hl]
  · rw [List.getElem?_set_ne e]

theorem Same.mono {S T : List Nat} {h h' : Ram} (x : Same S h h') (hs : ∀ a ∈ S, a ∈ T) : Same T h h' :=
  ⟨x.1, x.2, fun a ha => x.3 a (fun e => ha (hs a e))⟩

theorem Same.holds {S : List Nat} {h h' : Ram} {v : View} {b : Bkt} (x : Same S h h') (hb : Holds h v b) (hv : v.addr ∉ S) :
    Holds h' v b := ⟨by rw [x.3 _ hv]; exact hb.mem, hb.bs, hb.size, hb.spill⟩

/-- The function does not change the size of the memory. -/
def Keeps (f : Bkt → Res Bkt) : Prop := ∀ b b', f b = .ok b' → b'.p.length = b.p.length

theorem poke_len {p q bs : Bytes} {o : Nat} (h : poke p o bs = .ok q) : q.length = p.length := by
  unfold poke at h
  split at h
  · cases h; exact put_length (by assumption)
  · cases h

theorem res_bind {α β : Type} {r : Res α} {k : α → Res β} {b : β} (h : (r >>= k) = .ok b) : ∃ a, r = .ok a ∧ k a = .ok b := by
  cases r with
  | error x => cases h
  | ok a => exact ⟨a, rfl, h⟩

theorem keeps_clear : Keeps Bkt.clear := by
  intro b b' h
  obtain ⟨p, h1, h2⟩ := res_bind h
  cases h2
  exact poke_len h1

theorem keeps_update : Keeps Bkt.update := by
  intro b b' h
  obtain ⟨_, _, h⟩ := res_bind h
  obtain ⟨_, _, h⟩ := res_bind h
  obtain ⟨p, h1, h2⟩ := res_bind h
  cases h2
  exact poke_len h1

theorem keeps_setSpill (n : Nat) : Keeps (Bkt.setSpill · n) := fun _ _ h => by
  have := keeps_update _ _ (show Bkt.update _ = _ from h)
  exact this

theorem keeps_insert (o s n : Nat) : Keeps (Bkt.insert · o s n) := by
  intro b b' h
  obtain ⟨_, _, h⟩ := res_bind h
  obtain ⟨_, _, h⟩ := res_bind h
  obtain ⟨p, h1, h⟩ := res_bind h
  obtain ⟨b1, h2, h⟩ := res_bind h
  obtain ⟨_, _, h⟩ := res_bind h
  obtain ⟨_, _, h⟩ := res_bind h
  obtain ⟨_, _, h⟩ := res_bind h
  obtain ⟨p', h3, h⟩ := res_bind h
  cases h
  have := keeps_update _ _ h2
  exact (poke_len h3).trans (this.trans (poke_len h1))

theorem keeps_erase (i : Nat) : Keeps (Bkt.erase · i) := by
  intro b b' h
  simp only [Bkt.erase] at h
  split at h
  · cases h
  · obtain ⟨p, h1, h⟩ := res_bind h
    obtain ⟨p', h2, h⟩ := res_bind h
    have e1 : p.length = b.p.length := by
      unfold Bkt.eraseMove at h1
      split at h1
      · obtain ⟨_, _, h1⟩ := res_bind h1
        exact poke_len h1
      · cases h1; rfl
    have := keeps_update _ _ h
    exact this.trans ((poke_len h2).trans e1)

/-- The result of a changing member function. -/
structure Changed (h : Ram) (a : Nat) (x : View × Ram) (b : Bkt) : Prop where
  holds : Holds x.2 x.1 b
  addr : x.1.addr = a
  same : Same [a] h x.2

theorem Holds.change {h : Ram} {v : View} {b : Bkt} (hb : Holds h v b) {f : Bkt → Res Bkt} (hk : Keeps f) :
    RSim (Changed h v.addr) (v.change h f) (f b) := by
  unfold View.change
  rw [hb.mem]
  show RSim _ (f (v.over b.p) >>= _) (f b)
  rw [hb.over]
  cases hf : f b with
  | error x => exact .inr rfl
  | ok b' =>
    exact ⟨_, rfl, ⟨List.getElem?_set_self hb.lt, rfl, rfl, rfl⟩, rfl, Same.set (by simp) hb.mem (hk _ _ hf)⟩

theorem ofMem_p {bs : Nat} {p : Bytes} {b : Bkt} (hb : Bkt.ofMem bs p = .ok b) : b.p = p := by
  obtain ⟨_, _, hb⟩ := res_bind hb
  obtain ⟨_, _, hb⟩ := res_bind hb
  cases hb; rfl

theorem Holds.ofAddr {h : Ram} {bs a : Nat} {p : Bytes} (hp : h[a]? = some p) :
    RSim (fun v b => Holds h v b ∧ v.addr = a ∧ b.p = p) (View.ofAddr bs a h) (Bkt.ofMem bs p) := by
  unfold View.ofAddr
  rw [hp]
  show RSim _ (Bkt.ofMem bs p >>= _) _
  cases hb : Bkt.ofMem bs p with
  | error x => exact .inr rfl
  | ok b =>
    have hbp := ofMem_p hb
    exact ⟨_, rfl, ⟨by rw [hbp]; exact hp, rfl, rfl, rfl⟩, rfl, hbp⟩

/-! ### The writer -/

/-- What the writer is as a value. -/
def RawWriter.abs (w : RawWriter) : Writer := ⟨w.path, w.offset, w.buf.take w.used, w.buf.length⟩

/-- The bytes counted are in the buffer. -/
def RawWriter.Ok (w : RawWriter) : Prop := w.used ≤ w.buf.length

def WRel (w : RawWriter) (w' : Writer) : Prop := w.Ok ∧ w.abs = w'

theorem RawWriter.abs_len {w : RawWriter} (h : w.Ok) : w.abs.data.length = w.used := by
  unfold RawWriter.Ok at h
  simp [RawWriter.abs]; omega

theorem WRel.pos {w : RawWriter} {w' : Writer} (h : WRel w w') : w.pos = w'.pos := by
  obtain ⟨h, rfl⟩ := h
  unfold RawWriter.pos Writer.pos
  rw [RawWriter.abs_len h]; rfl

theorem WRel.used {w : RawWriter} {w' : Writer} (h : WRel w w') : w.used = w'.data.length := by
  obtain ⟨h, rfl⟩ := h
  exact (RawWriter.abs_len h).symm

theorem sim_flush {w : RawWriter} {w' : Writer} (h : WRel w w') :
    Sim (fun a b => WRel a b ∧ a.used = 0) w.flush w'.flush := by
  unfold RawWriter.flush Writer.flush
  rw [← h.used]
  obtain ⟨ho, rfl⟩ := h
  by_cases hu : w.used ≠ 0
  · rw [if_pos hu, if_pos hu]
    refine Sim.lift_left (w.buf.take w.used) ?_ ?_
    · unfold RawWriter.Ok at ho
      rw [peek_ok (by omega), ← take_eq_slice]
    · refine Sim.bind (Sim.refl _) ?_
      rintro _ _ rfl
      refine Sim.ret ⟨⟨Nat.zero_le _, ?_⟩, rfl⟩
      simp [RawWriter.abs]
  · rw [if_neg hu, if_neg hu]
    exact Sim.ret ⟨⟨ho, rfl⟩, by omega⟩

/-- `os` has been used to append `bs` to what the writer had before. -/
structure Filled (needed : Nat) (w₀ : Writer) (bs : Bytes) (os : OStream) (w : RawWriter) : Prop where
  ok : w.Ok
  base : os.base + needed = w.used
  size : os.size = bs.length
  path : w.path = w₀.path
  offset : w.offset = w₀.offset
  cap : w.buf.length = w₀.cap
  data : w.buf.take (os.base + os.size) = w₀.data ++ bs

theorem Filled.write {needed : Nat} {w₀ : Writer} {bs bs' : Bytes} {os : OStream} {w : RawWriter} (h : Filled needed w₀ bs os w)
    (hn : bs.length + bs'.length ≤ needed) :
    ∃ x, os.write w bs' = .ok x ∧ Filled needed w₀ (bs ++ bs') x.1 x.2 := by
  have ho := h.ok
  unfold RawWriter.Ok at ho
  have hb : os.base + os.size + bs'.length ≤ w.buf.length := by
    have := h.base; have := h.size; omega
  refine ⟨_, by unfold OStream.write; rw [poke_ok hb]; rfl, ?_, h.base, ?_, h.path, h.offset, ?_, ?_⟩
  · show w.used ≤ (put w.buf _ bs').length
    rw [put_length hb]; exact ho
  · simp [h.size]
  · rw [put_length hb]; exact h.cap
  · show (put w.buf (os.base + os.size) bs').take (os.base + (os.size + bs'.length)) = _
    unfold put
    rw [h.data, ← List.append_assoc]
    apply List.take_left'
    have := congrArg List.length h.data
    simp only [List.length_append, List.length_take] at this ⊢
    omega

theorem Filled.done {needed : Nat} {w₀ : Writer} {bs : Bytes} {os : OStream} {w : RawWriter} (h : Filled needed w₀ bs os w)
    (hn : bs.length = needed) : WRel w { w₀ with data := w₀.data ++ bs } := by
  refine ⟨h.ok, ?_⟩
  unfold RawWriter.abs
  rw [← h.base, ← hn, ← h.size, h.data, h.path, h.offset, h.cap]

/-- What `prepare` and `append` do after the flush. -/
theorem prepared {c : Cfg} {a : RawWriter} {b : Writer} {bs : Bytes} (h : WRel a b)
    (hb : a.used + bs.length ≤ a.buf.length ∨ a.used = 0) :
    let w := if bs.length > a.buf.length then { a with buf := c.fresh bs.length } else a
    let v := if bs.length > b.cap then { b with cap := bs.length, data := [] } else b
    Filled bs.length v [] ⟨w.used, 0⟩ { w with used := w.used + bs.length } := by
  obtain ⟨ho, rfl⟩ := h
  unfold RawWriter.Ok at ho
  by_cases hl : bs.length > a.buf.length
  · have hz : a.used = 0 := by omega
    have hl' : bs.length > a.abs.cap := hl
    simp only [if_pos hl, if_pos hl']
    refine ⟨?_, rfl, rfl, rfl, rfl, ?_, ?_⟩
    · show a.used + bs.length ≤ (Cfg.fresh c bs.length).length
      simp [Cfg.fresh, hz]
    · simp [Cfg.fresh]
    · simp [hz]
  · have hl' : ¬ bs.length > a.abs.cap := hl
    simp only [if_neg hl, if_neg hl']
    refine ⟨?_, rfl, rfl, rfl, rfl, rfl, ?_⟩
    · show a.used + bs.length ≤ a.buf.length
      omega
    · simp [RawWriter.abs]

/-- `prepare` gives a stream for as many bytes as were asked for. -/
theorem sim_prepare {c : Cfg} {w : RawWriter} {w' : Writer} (h : WRel w w') (bs : Bytes) :
    Sim (fun a b => ∃ w₀ : Writer, Filled bs.length w₀ [] a.1 a.2 ∧ b = { w₀ with data := w₀.data ++ bs })
      (w.prepare c bs.length) (w'.append bs) := by
  unfold RawWriter.prepare Writer.append
  have e : w'.cap = w.buf.length := by rw [← h.2]; rfl
  rw [← h.used, e]
  by_cases hu : w.used + bs.length > w.buf.length
  · rw [if_pos hu, if_pos hu]
    refine Sim.bind (sim_flush h) ?_
    rintro a b ⟨h1, h2⟩
    exact Sim.ret ⟨_, prepared h1 (.inr h2), rfl⟩
  · rw [if_neg hu, if_neg hu]
    exact Sim.ret ⟨_, prepared (c := c) h (bs := bs) (.inl (by omega)), rfl⟩

/-! ### Buckets -/

theorem compact_len {b : Bkt} {body : Bytes} (h : b.compact = .ok body) : body.length = bucketSize b.size := by
  unfold Bkt.compact peek at h
  split at h
  · rename_i hl
    cases h
    exact slice_length_of_le hl
  · cases h

theorem compact_wrong {b : Bkt} {x : Exc} (h : b.compact = .error x) : x.wrong := by
  unfold Bkt.compact peek at h
  split at h
  · cases h
  · cases h; exact .inl rfl

theorem assert_wrong {b : Bool} {x : Exc} (h : assert b = .error x) : x.wrong := by
  unfold assert at h
  split at h
  · cases h
  · cases h; exact .inr rfl

@[simp] theorem putU48_length (n : Nat) : (putU48 n).length = 6 := rfl
@[simp] theorem putU16_length (n : Nat) : (putU16 n).length = 2 := rfl
@[simp] theorem putU64_length (n : Nat) : (putU64 n).length = 8 := rfl

theorem sim_spill {c : Cfg} {v : View} {b : Bkt} {h : Ram} {w : RawWriter} {w' : Writer} (hb : Holds h v b) (hw : WRel w w') :
    Sim (fun x y => Holds x.2.1 x.1 y.1 ∧ x.1.addr = v.addr ∧ Same [v.addr] h x.2.1 ∧ WRel x.2.2 y.2)
      (rawSpill c v h w) (maybeSpill b w') := by
  unfold rawSpill maybeSpill
  have ef : (v.size ≥ bucketCapacity v.bs) = (b.full = true) := by
    simp [Bkt.full, hb.size, hb.bs]
  by_cases hf : b.full = true
  · rw [if_pos (ef.mpr hf), if_pos hf]
    refine Sim.lift_right (fun body hbody => ?_) (fun x => compact_wrong)
    refine Sim.lift_right (fun _ ha => ?_) (fun x => assert_wrong)
    have hl := compact_len hbody
    have e1 : 6 + 2 + bucketSize v.size = (putU48 0 ++ putU16 b.actualSize ++ body).length := by
      simp [hl, hb.size]; omega
    rw [e1]
    refine Sim.bind (sim_prepare hw _) ?_
    rintro ⟨os, w₁⟩ _ ⟨w₀, h1, rfl⟩
    dsimp only at h1 ⊢
    obtain ⟨⟨os2, w2⟩, e2, h2⟩ := h1.write (bs' := putU48 0) (by simp)
    refine Sim.lift_left _ e2 ?_
    have e3 : bucketSize v.size = b.actualSize := by rw [hb.size]; rfl
    rw [e3]
    refine Sim.lift_left () ha ?_
    obtain ⟨⟨os3, w3⟩, e3, h3⟩ := h2.write (bs' := putU16 b.actualSize) (by simp; omega)
    refine Sim.lift_left _ e3 ?_
    refine Sim.lift_left body ((hb.ask _).trans hbody) ?_
    obtain ⟨⟨os4, w4⟩, e4, h4⟩ := h3.write (bs' := body) (by simp; omega)
    refine Sim.lift_left _ e4 ?_
    refine Sim.bind (Sim.lift (hb.change keeps_clear)) ?_
    rintro ⟨v5, h5⟩ b5 ⟨g1, g2, g3⟩
    dsimp only at g1 g2 g3 ⊢
    rw [show os3.size = 6 + 2 from by simpa using h3.size, hw.pos]
    refine Sim.bind (Sim.lift (g1.change (keeps_setSpill _))) ?_
    rintro ⟨v6, h6⟩ b6 ⟨k1, k2, k3⟩
    dsimp only at k1 k2 k3 ⊢
    refine Sim.ret ⟨k1, k2.trans g2, ?_, ?_⟩
    · rw [g2] at k3
      exact g3.trans k3
    · have := h4.done (by simp)
      simpa using this
  · rw [if_neg (fun h => hf (ef.mp h)), if_neg hf]
    exact Sim.ret ⟨hb, rfl, .refl _ _, hw⟩

theorem sim_splitOwn {n1 n2 buckets modulus : Nat} (fuel : Nat) : ∀ {i : Nat} {v1 v2 : View} {b1 b2 : Bkt} {h : Ram},
    Holds h v1 b1 → Holds h v2 b2 → v1.addr ≠ v2.addr →
    RSim (fun x y => Holds x.2.2 x.1 y.1 ∧ Holds x.2.2 x.2.1 y.2 ∧ x.1.addr = v1.addr ∧ x.2.1.addr = v2.addr ∧
        Same [v1.addr, v2.addr] h x.2.2)
      (rawSplitOwn n1 n2 buckets modulus fuel i v1 v2 h) (splitOwn n1 n2 buckets modulus fuel i b1 b2) := by
  induction fuel with
  | zero => intros; exact .inr rfl
  | succ fuel ih =>
    intro i v1 v2 b1 b2 h h1 h2 hne
    unfold rawSplitOwn splitOwn
    rw [h1.size]
    by_cases hi : i < b1.size
    · rw [if_pos hi, if_pos hi, h1.ask]
      refine RSim.bind (RSim.refl _) ?_
      rintro e _ rfl
      refine RSim.bind (RSim.refl _) ?_
      rintro n _ rfl
      refine RSim.bind (RSim.refl _) ?_
      rintro _ _ _
      by_cases hn : n = n2
      · rw [if_pos hn, if_pos hn]
        refine RSim.bind (h2.change (keeps_insert _ _ _)) ?_
        rintro ⟨v2', h'⟩ b2' ⟨g1, g2, g3⟩
        dsimp only at g1 g2 g3 ⊢
        have h1' : Holds h' v1 b1 := g3.holds h1 (by simpa using hne)
        refine RSim.bind (h1'.change (keeps_erase _)) ?_
        rintro ⟨v1', h''⟩ b1' ⟨k1, k2, k3⟩
        dsimp only at k1 k2 k3 ⊢
        have g1' : Holds h'' v2' b2' := k3.holds g1 (by rw [g2]; simpa using fun e => hne e.symm)
        have := ih (i := i) k1 g1' (by rw [k2, g2]; exact hne)
        rw [k2, g2] at this
        have hs : Same [v1.addr, v2.addr] h h'' := (g3.mono (by simp)).trans (k3.mono (by simp))
        revert this
        unfold RSim
        split
        · rintro ⟨a, ha, q1, q2, q3, q4, q5⟩
          exact ⟨a, ha, q1, q2, q3, q4, hs.trans q5⟩
        · exact id
      · rw [if_neg hn, if_neg hn]
        exact ih h1 h2 hne
    · rw [if_neg hi, if_neg hi]
      exact RSim.ret ⟨h1, h2, rfl, rfl, .refl _ _⟩

theorem sim_splitTmp {c : Cfg} {n1 n2 buckets modulus : Nat} {vt : View} {t : Bkt} (fuel : Nat) :
    ∀ {i : Nat} {v1 v2 : View} {b1 b2 : Bkt} {h : Ram} {w : RawWriter} {w' : Writer},
    Holds h vt t → Holds h v1 b1 → Holds h v2 b2 → v1.addr ≠ v2.addr → vt.addr ≠ v1.addr → vt.addr ≠ v2.addr → WRel w w' →
    Sim (fun x y => Holds x.2.2.1 x.1 y.1 ∧ Holds x.2.2.1 x.2.1 y.2.1 ∧ x.1.addr = v1.addr ∧ x.2.1.addr = v2.addr ∧
        Same [v1.addr, v2.addr] h x.2.2.1 ∧ WRel x.2.2.2 y.2.2)
      (rawSplitTmp c n1 n2 buckets modulus vt fuel i v1 v2 h w) (splitTmp n1 n2 buckets modulus t fuel i b1 b2 w') := by
  induction fuel with
  | zero => intros; exact Sim.raise
  | succ fuel ih =>
    intro i v1 v2 b1 b2 h w w' ht h1 h2 hne hn1 hn2 hw
    unfold rawSplitTmp splitTmp
    rw [ht.size]
    by_cases hi : i < t.size
    · rw [if_pos hi, if_pos hi, ht.ask]
      refine Sim.bind (Sim.refl _) ?_
      rintro e _ rfl
      refine Sim.bind (Sim.refl _) ?_
      rintro n _ rfl
      refine Sim.bind (Sim.refl _) ?_
      rintro _ _ _
      by_cases hn : n = n2
      · rw [if_pos hn, if_pos hn]
        refine Sim.bind (sim_spill h2 hw) ?_
        rintro ⟨v2', h', w₁⟩ ⟨b2', w₁'⟩ ⟨g1, g2, g3, g4⟩
        dsimp only at g1 g2 g3 g4 ⊢
        refine Sim.bind (Sim.lift (g1.change (keeps_insert _ _ _))) ?_
        rintro ⟨v2'', h''⟩ b2'' ⟨k1, k2, k3⟩
        dsimp only at k1 k2 k3 ⊢
        have hs : Same [v2.addr] h h'' := g3.trans (by rw [← g2]; exact k3)
        have e2 := k2.trans g2
        have := ih (i := i + 1) (hs.holds ht (by simpa using hn2)) (hs.holds h1 (by simpa using hne)) k1
          (by rw [e2]; exact hne) hn1 (by rw [e2]; exact hn2) g4
        rw [e2] at this
        refine this.mono ?_
        rintro x y ⟨q1, q2, q3, q4, q5, q6⟩
        exact ⟨q1, q2, q3, q4, (hs.mono (by simp)).trans q5, q6⟩
      · rw [if_neg hn, if_neg hn]
        refine Sim.bind (sim_spill h1 hw) ?_
        rintro ⟨v1', h', w₁⟩ ⟨b1', w₁'⟩ ⟨g1, g2, g3, g4⟩
        dsimp only at g1 g2 g3 g4 ⊢
        refine Sim.bind (Sim.lift (g1.change (keeps_insert _ _ _))) ?_
        rintro ⟨v1'', h''⟩ b1'' ⟨k1, k2, k3⟩
        dsimp only at k1 k2 k3 ⊢
        have hs : Same [v1.addr] h h'' := g3.trans (by rw [← g2]; exact k3)
        have e2 := k2.trans g2
        have := ih (i := i + 1) (hs.holds ht (by simpa using hn1)) k1 (hs.holds h2 (by simpa using fun e => hne e.symm))
          (by rw [e2]; exact hne) (by rw [e2]; exact hn1) hn2 g4
        rw [e2] at this
        refine this.mono ?_
        rintro x y ⟨q1, q2, q3, q4, q5, q6⟩
        exact ⟨q1, q2, q3, q4, (hs.mono (by simp)).trans q5, q6⟩
    · rw [if_neg hi, if_neg hi]
      exact Sim.ret ⟨h1, h2, rfl, rfl, .refl _ _, hw⟩

theorem Sim.map {m : M α} {f : α → γ} {T : γ → α → Prop} (h : ∀ σ w a w', m σ w = (.ok a, w') → T (f a) a) :
    Sim T (m >>= fun a => M.ret (f a)) m := by
  intro σ w
  simp only [Bind.bind, M.bind]
  rcases hm : m σ w with ⟨x | a, w'⟩
  · exact .inr rfl
  · exact ⟨_, rfl, h σ w a w' hm⟩

theorem readFile_keeps {b b' : Bkt} {p : Path} {off : Nat} {σ : Schedule} {w w' : World}
    (h : b.readFile p off σ w = (.ok b', w')) : b'.p.length = b.p.length := by
  unfold Bkt.readFile at h
  simp only [Bind.bind, M.bind, M.lift] at h
  split at h
  · rename_i data w1 h1
    cases hp : poke b.p 0 data with
    | error x => rw [hp] at h; cases h
    | ok q =>
      rw [hp] at h
      dsimp only at h
      cases hq : Bkt.ofMem b.bs q with
      | error x => rw [hq] at h; cases h
      | ok b1 =>
        rw [hq] at h
        dsimp only at h
        split at h
        · cases h
        · cases h
          rw [ofMem_p hq]
          exact poke_len hp
  · cases h

theorem sim_readFile {v : View} {b : Bkt} {h : Ram} {p : Path} {off : Nat} (hb : Holds h v b) :
    Sim (Changed h v.addr) (v.readFile h p off) (b.readFile p off) := by
  unfold View.readFile
  rw [hb.mem]
  show Sim _ ((v.over b.p).readFile p off >>= _) _
  rw [hb.over]
  refine Sim.map ?_
  intro σ w b' w' hr
  exact ⟨⟨List.getElem?_set_self hb.lt, rfl, rfl, rfl⟩, rfl, Same.set (by simp) hb.mem (readFile_keeps hr)⟩

/-- The relation after `split`. -/
def AfterSplit (h : Ram) (v1 v2 vt : View) (x : View × View × View × Ram × RawWriter) (y : Bkt × Bkt × Bkt × Writer) : Prop :=
  Holds x.2.2.2.1 x.1 y.1 ∧ Holds x.2.2.2.1 x.2.1 y.2.1 ∧ Holds x.2.2.2.1 x.2.2.1 y.2.2.1 ∧ x.1.addr = v1.addr ∧
    x.2.1.addr = v2.addr ∧ x.2.2.1.addr = vt.addr ∧ Same [v1.addr, v2.addr, vt.addr] h x.2.2.2.1 ∧ WRel x.2.2.2.2 y.2.2.2

theorem sim_splitSpills {c : Cfg} {cap n1 n2 buckets modulus : Nat} (fuel : Nat) :
    ∀ {spill : Nat} {v1 v2 vt : View} {b1 b2 t : Bkt} {h : Ram} {w : RawWriter} {w' : Writer},
    Holds h vt t → Holds h v1 b1 → Holds h v2 b2 → v1.addr ≠ v2.addr → vt.addr ≠ v1.addr → vt.addr ≠ v2.addr → WRel w w' →
    Sim (AfterSplit h v1 v2 vt) (rawSplitSpills c cap n1 n2 buckets modulus fuel spill v1 v2 vt h w)
      (splitSpills cap n1 n2 buckets modulus fuel spill b1 b2 t w') := by
  induction fuel with
  | zero => intros; exact Sim.raise
  | succ fuel ih =>
    intro spill v1 v2 vt b1 b2 t h w w' ht h1 h2 hne hn1 hn2 hw
    have rest : ∀ {w : RawWriter} {w' : Writer}, WRel w w' → Sim (AfterSplit h v1 v2 vt)
        (do let (tmp, h) ← vt.readFile h .dat spill
            let (b1, b2, h, w) ← rawSplitTmp c n1 n2 buckets modulus tmp (tmp.size + 1) 0 v1 v2 h w
            if tmp.spill ≠ 0 then rawSplitSpills c cap n1 n2 buckets modulus fuel tmp.spill b1 b2 tmp h w
            else M.ret (b1, b2, tmp, h, w))
        (do let tmp ← t.readFile .dat spill
            let (b1, b2, w) ← splitTmp n1 n2 buckets modulus tmp (tmp.size + 1) 0 b1 b2 w'
            if tmp.spill ≠ 0 then splitSpills cap n1 n2 buckets modulus fuel tmp.spill b1 b2 tmp w
            else M.ret (b1, b2, tmp, w)) := by
      intro w w' hw
      refine Sim.bind (sim_readFile ht) ?_
      rintro ⟨vt', h'⟩ t' ⟨g1, g2, g3⟩
      dsimp only at g1 g2 g3 ⊢
      have hs : Same [vt.addr] h h' := g3
      rw [g1.size]
      refine Sim.bind (sim_splitTmp (t'.size + 1) g1 (hs.holds h1 (by simpa using fun e => hn1 e.symm))
        (hs.holds h2 (by simpa using fun e => hn2 e.symm)) hne (by rw [g2]; exact hn1) (by rw [g2]; exact hn2) hw) ?_
      rintro ⟨v1', v2', h'', w₁⟩ ⟨b1', b2', w₁'⟩ ⟨k1, k2, k3, k4, k5, k6⟩
      dsimp only at k1 k2 k3 k4 k5 k6 ⊢
      have ht'' : Holds h'' vt' t' := k5.holds g1 (by rw [g2]; simp [hn1, hn2])
      have hs2 : Same [v1.addr, v2.addr, vt.addr] h h'' := (hs.mono (by simp)).trans (k5.mono (by simp))
      rw [g1.spill]
      by_cases hsp : t'.spill ≠ 0
      · rw [if_pos hsp, if_pos hsp]
        refine (ih ht'' k1 k2 (by rw [k3, k4]; exact hne) (by rw [g2, k3]; exact hn1) (by rw [g2, k4]; exact hn2) k6).mono ?_
        unfold AfterSplit
        rw [k3, k4, g2]
        rintro x y ⟨q1, q2, q3, q4, q5, q6, q7, q8⟩
        exact ⟨q1, q2, q3, q4, q5, q6, hs2.trans q7, q8⟩
      · rw [if_neg hsp, if_neg hsp]
        exact Sim.ret ⟨k1, k2, ht'', k3, k4, g2, hs2, k6⟩
    unfold rawSplitSpills splitSpills
    have e : (w.pos - w.used) = (w'.pos - w'.data.length) := by rw [hw.pos, hw.used]
    rw [e]
    by_cases hf : spill + bucketSize cap > w'.pos - w'.data.length
    · rw [if_pos hf, if_pos hf]
      refine Sim.bind (sim_flush hw) ?_
      rintro a b ⟨hab, _⟩
      exact rest hab
    · rw [if_neg hf, if_neg hf]
      exact rest hw

theorem sim_split {c : Cfg} {cap n1 n2 buckets modulus : Nat} {v1 v2 vt : View} {b1 b2 t : Bkt} {h : Ram} {w : RawWriter}
    {w' : Writer} (ht : Holds h vt t) (h1 : Holds h v1 b1) (h2 : Holds h v2 b2) (hne : v1.addr ≠ v2.addr) (hn1 : vt.addr ≠ v1.addr)
    (hn2 : vt.addr ≠ v2.addr) (hw : WRel w w') :
    Sim (AfterSplit h v1 v2 vt) (rawSplit c cap n1 n2 buckets modulus v1 v2 vt h w)
      (split cap n1 n2 buckets modulus b1 b2 t w') := by
  unfold rawSplit split
  rw [h1.size]
  by_cases hz : b1.size = 0
  · rw [if_pos hz, if_pos hz]
    exact Sim.ret ⟨h1, h2, ht, rfl, rfl, rfl, .refl _ _, hw⟩
  · rw [if_neg hz, if_neg hz]
    refine Sim.bind (Sim.lift (sim_splitOwn (b1.size + 1) h1 h2 hne)) ?_
    rintro ⟨v1', v2', h'⟩ ⟨b1', b2'⟩ ⟨g1, g2, g3, g4, g5⟩
    dsimp only at g1 g2 g3 g4 g5 ⊢
    have ht' : Holds h' vt t := g5.holds ht (by simp [hn1, hn2])
    rw [g1.spill]
    by_cases hsp : b1'.spill ≠ 0
    · rw [if_pos hsp, if_pos hsp]
      refine Sim.bind (Sim.lift (g1.change (keeps_setSpill 0))) ?_
      rintro ⟨v1'', h''⟩ b1'' ⟨k1, k2, k3⟩
      dsimp only at k1 k2 k3 ⊢
      have hs : Same [v1.addr] h' h'' := by rw [← g3]; exact k3
      have e1 := k2.trans g3
      refine (sim_splitSpills _ (hs.holds ht' (by simpa using hn1)) k1 (hs.holds g2 (by rw [g4]; simpa using fun e => hne e.symm))
        (by rw [e1, g4]; exact hne) (by rw [e1]; exact hn1) (by rw [g4]; exact hn2) hw).mono ?_
      unfold AfterSplit
      rw [e1, g4]
      rintro x y ⟨q1, q2, q3, q4, q5, q6, q7, q8⟩
      exact ⟨q1, q2, q3, q4, q5, q6, ((g5.mono (by simp)).trans (hs.mono (by simp))).trans q7, q8⟩
    · rw [if_neg hsp, if_neg hsp]
      exact Sim.ret ⟨g1, g2, ht', g3, g4, rfl, g5.mono (by simp), hw⟩

end NuDB.Raw
