import Verif.Spec.Work
import Verif.Proof.Heap
/- Budgets: the operations of a program tree, weighed, cost no more than what is given to it. -/
namespace NuDB

open Spec
open Raw (res_bind poke_len ofMem_p keeps_clear keeps_setSpill keeps_insert keeps_erase)

private theorem ofMem_bs {n : Nat} {p : Bytes} {b : Bkt} (h : Bkt.ofMem n p = .ok b) : b.bs = n ∧ b.p = p := by
  unfold Bkt.ofMem at h
  simp only [bind, Except.bind, pure, Except.pure] at h
  split at h
  · cases h
  · split at h
    · cases h
    · cases h; exact ⟨rfl, rfl⟩

private theorem padded_length {b : Bkt} {q : Bytes} (h : b.padded = .ok q) : q.length = b.p.length := by
  unfold Bkt.padded poke at h
  split at h
  · split at h
    · rename_i h1
      cases h
      exact put_length h1
    · cases h
  · cases h

/-- `Pays P μ Φ R B m`: all operations of `m` satisfy `P`, their weights and `Φ` of the result add up to at most `B`, and the result
satisfies `R`. -/
inductive Pays (P : FileOp → Prop) (μ : FileOp → Nat) (Φ : α → Nat) (R : α → Prop) : Nat → Prog α → Prop
  | ret {a B} (h : R a) (hb : Φ a ≤ B) : Pays P μ Φ R B (.ret a)
  | raise {x B} : Pays P μ Φ R B (.raise x)
  | size {p k B B'} (h : P (.size p)) (hb : μ (.size p) + B' ≤ B) (hk : ∀ n, Pays P μ Φ R B' (k n)) : Pays P μ Φ R B (.size p k)
  | read {p off n k B B'} (h : P (.read p off n)) (hb : μ (.read p off n) + B' ≤ B) (hk : ∀ b, Pays P μ Φ R B' (k b)) :
      Pays P μ Φ R B (.read p off n k)
  | write {p off b k B B'} (h : P (.write p off b)) (hb : μ (.write p off b) + B' ≤ B) (hk : Pays P μ Φ R B' k) :
      Pays P μ Φ R B (.write p off b k)
  | append {p off b k B B'} (h : P (.append p off b)) (hb : μ (.append p off b) + B' ≤ B) (hk : Pays P μ Φ R B' k) :
      Pays P μ Φ R B (.append p off b k)
  | sync {p k B B'} (h : P (.sync p)) (hb : μ (.sync p) + B' ≤ B) (hk : Pays P μ Φ R B' k) : Pays P μ Φ R B (.sync p k)
  | trunc {p n k B B'} (h : P (.trunc p n)) (hb : μ (.trunc p n) + B' ≤ B) (hk : Pays P μ Φ R B' k) :
      Pays P μ Φ R B (.trunc p n k)

section
variable {P : FileOp → Prop} {μ : FileOp → Nat} {Φ : α → Nat} {R : α → Prop} {B : Nat}

theorem Pays.sound {m : Prog α} (h : Pays P μ Φ R B m) {l : List FileOp} {r : Option α} (t : Trace m l r) :
    (∀ o ∈ l, P o) ∧ (l.map μ).sum ≤ B ∧ ∀ a, r = some a → R a ∧ (l.map μ).sum + Φ a ≤ B := by
  induction h generalizing l r with
  | ret h hb =>
    cases t with
    | stop => simp
    | ret => exact ⟨by simp, by simp, fun a e => by cases e; exact ⟨h, by simpa using hb⟩⟩
  | raise => cases t with | stop => simp
  | size h hb hk ih =>
    cases t with
    | stop => simp
    | size n t =>
      obtain ⟨h1, h2, h3⟩ := ih n t
      refine ⟨fun o ho => ?_, by simp only [List.map_cons, List.sum_cons]; omega, fun a e => ?_⟩
      · rcases List.mem_cons.mp ho with rfl | ho
        · exact h
        · exact h1 o ho
      · have := h3 a e
        exact ⟨this.1, by simp only [List.map_cons, List.sum_cons]; omega⟩
  | read h hb hk ih =>
    cases t with
    | stop => simp
    | read n t =>
      obtain ⟨h1, h2, h3⟩ := ih n t
      refine ⟨fun o ho => ?_, by simp only [List.map_cons, List.sum_cons]; omega, fun a e => ?_⟩
      · rcases List.mem_cons.mp ho with rfl | ho
        · exact h
        · exact h1 o ho
      · have := h3 a e
        exact ⟨this.1, by simp only [List.map_cons, List.sum_cons]; omega⟩
  | write h hb hk ih =>
    cases t with
    | stop => simp
    | write t =>
      obtain ⟨h1, h2, h3⟩ := ih t
      refine ⟨fun o ho => ?_, by simp only [List.map_cons, List.sum_cons]; omega, fun a e => ?_⟩
      · rcases List.mem_cons.mp ho with rfl | ho
        · exact h
        · exact h1 o ho
      · have := h3 a e
        exact ⟨this.1, by simp only [List.map_cons, List.sum_cons]; omega⟩
  | append h hb hk ih =>
    cases t with
    | stop => simp
    | append t =>
      obtain ⟨h1, h2, h3⟩ := ih t
      refine ⟨fun o ho => ?_, by simp only [List.map_cons, List.sum_cons]; omega, fun a e => ?_⟩
      · rcases List.mem_cons.mp ho with rfl | ho
        · exact h
        · exact h1 o ho
      · have := h3 a e
        exact ⟨this.1, by simp only [List.map_cons, List.sum_cons]; omega⟩
  | sync h hb hk ih =>
    cases t with
    | stop => simp
    | sync t =>
      obtain ⟨h1, h2, h3⟩ := ih t
      refine ⟨fun o ho => ?_, by simp only [List.map_cons, List.sum_cons]; omega, fun a e => ?_⟩
      · rcases List.mem_cons.mp ho with rfl | ho
        · exact h
        · exact h1 o ho
      · have := h3 a e
        exact ⟨this.1, by simp only [List.map_cons, List.sum_cons]; omega⟩
  | trunc h hb hk ih =>
    cases t with
    | stop => simp
    | trunc t =>
      obtain ⟨h1, h2, h3⟩ := ih t
      refine ⟨fun o ho => ?_, by simp only [List.map_cons, List.sum_cons]; omega, fun a e => ?_⟩
      · rcases List.mem_cons.mp ho with rfl | ho
        · exact h
        · exact h1 o ho
      · have := h3 a e
        exact ⟨this.1, by simp only [List.map_cons, List.sum_cons]; omega⟩

theorem Pays.more {m : Prog α} (h : Pays P μ Φ R B m) {C : Nat} (hc : B ≤ C) : Pays P μ Φ R C m := by
  cases h with
  | ret h hb => exact .ret h (by omega)
  | raise => exact .raise
  | size h hb hk => exact .size h (Nat.le_trans hb hc) hk
  | read h hb hk => exact .read h (Nat.le_trans hb hc) hk
  | write h hb hk => exact .write h (Nat.le_trans hb hc) hk
  | append h hb hk => exact .append h (Nat.le_trans hb hc) hk
  | sync h hb hk => exact .sync h (Nat.le_trans hb hc) hk
  | trunc h hb hk => exact .trunc h (Nat.le_trans hb hc) hk

theorem Pays.bind {Ψ : β → Nat} {S : β → Prop} {m : Prog α} {f : α → Prog β} (h : Pays P μ Φ R B m)
    (hf : ∀ a, R a → Pays P μ Ψ S (Φ a) (f a)) : Pays P μ Ψ S B (m >>= f) := by
  show Pays P μ Ψ S B (m.bind f)
  induction h with
  | ret h hb => exact (hf _ h).more hb
  | raise => exact .raise
  | size h hb _ ih => exact .size h hb ih
  | read h hb _ ih => exact .read h hb ih
  | write h hb _ ih => exact .write h hb ih
  | append h hb _ ih => exact .append h hb ih
  | sync h hb _ ih => exact .sync h hb ih
  | trunc h hb _ ih => exact .trunc h hb ih

theorem Pays.lift {r : Res α} (h : ∀ a, r = .ok a → R a) : Pays P μ (fun _ => B) R B (Prog.lift r) := by
  cases r with
  | ok a => exact .ret (h a rfl) (Nat.le_refl _)
  | error x => exact .raise

theorem Pays.liftT {r : Res α} : Pays P μ (fun _ => B) (fun _ => True) B (Prog.lift r) := .lift (fun _ _ => trivial)

theorem Pays.ite {cond : Prop} [Decidable cond] {p q : Prog α} (hp : Pays P μ Φ R B p) (hq : Pays P μ Φ R B q) :
    Pays P μ Φ R B (if cond then p else q) := by split <;> assumption

end

/-- Prices: of a read from the key file, of a write to it, of a byte of the log file, of a sync. -/
def price (kr kw lb sy : Nat) : FileOp → Nat
  | .read .key _ _ => kr
  | .write .key _ _ => kw
  | .append .log _ b => b.length * lb
  | .sync _ => sy
  | _ => 0

/-- All blobs of the cache have the size of a block. -/
def Blobs (bs : Nat) (c : Cache) : Prop := ∀ e ∈ c, e.2.length = bs

theorem Blobs.store {bs : Nat} {c : Cache} {n : Nat} {p : Bytes} (h : Blobs bs c) (hp : p.length = bs) : Blobs bs (c.store n p) := by
  intro e he
  unfold Cache.store at he
  obtain ⟨d, hd, rfl⟩ := List.mem_map.mp he
  split
  · exact hp
  · exact h d hd

theorem store_len {c : Cache} {n : Nat} {p : Bytes} : (c.store n p).length = c.length := by simp [Cache.store]

theorem find_blob {bs : Nat} {c : Cache} {n : Nat} {p : Bytes} (h : Blobs bs c) (hf : c.find n = some p) : p.length = bs := by
  unfold Cache.find at hf
  obtain ⟨e, he, rfl⟩ := Option.map_eq_some_iff.mp hf
  exact h e (List.mem_of_find?_eq_some he)

theorem peek_len {p q : Bytes} {o n : Nat} (h : peek p o n = .ok q) : q.length = n ∧ o + n ≤ p.length := by
  unfold peek at h
  split at h
  · rename_i hl
    cases h
    exact ⟨by simp [slice]; omega, hl⟩
  · cases h

theorem insert_blob {cfg : Cfg} {c c' : Cache} {n : Nat} {b b' : Bkt} (h : c.insert cfg n b = .ok (c', b')) (hb : Blobs b.bs c) :
    Blobs b.bs c' ∧ c'.length = c.length + 1 ∧ b'.p.length = b.bs := by
  unfold Cache.insert at h
  obtain ⟨body, h1, h⟩ := res_bind h
  obtain ⟨p, h2, h⟩ := res_bind h
  have hp : p.length = b.bs := by rw [poke_len h2]; simp [Cfg.fresh]
  split at h
  · cases h
  · obtain ⟨b1, h3, h⟩ := res_bind h
    cases h
    refine ⟨fun e he => ?_, by simp, by rw [ofMem_p h3]; exact hp⟩
    rcases List.mem_append.mp he with he | he
    · exact hb e he
    · rw [List.mem_singleton.mp he]; exact hp

theorem create_blob {cfg : Cfg} {c c' : Cache} {bs n : Nat} {b' : Bkt} (h : c.create cfg bs n = .ok (c', b')) (hb : Blobs bs c) :
    Blobs bs c' ∧ c'.length = c.length + 1 ∧ b'.p.length = bs := by
  unfold Cache.create at h
  obtain ⟨b, h1, h⟩ := res_bind h
  have hp : b.p.length = bs := by
    have := keeps_clear _ _ h1
    rw [this]; simp [Cfg.fresh]
  split at h
  · cases h
  · cases h
    refine ⟨fun e he => ?_, by simp, hp⟩
    rcases List.mem_append.mp he with he | he
    · exact hb e he
    · rw [List.mem_singleton.mp he]; exact hp

section
variable {kr kw lb sy bs B : Nat}

/-- The writer appends to the data file. -/
def OnDat (w : Writer) : Prop := w.path = .dat

theorem pays_flushP {w : Writer} (h : OnDat w) : Pays (BlockWise bs) (price kr kw lb sy) (fun _ => B) OnDat B w.flushP := by
  unfold OnDat at h
  unfold Writer.flushP
  refine .ite (.append (B' := B) ?_ ?_ (.ret h (Nat.le_refl _))) (.ret h (Nat.le_refl _))
  · rw [h]; exact .inl rfl
  · rw [h]; simp [price]

theorem pays_appendP {w : Writer} {b : Bytes} (h : OnDat w) :
    Pays (BlockWise bs) (price kr kw lb sy) (fun _ => B) OnDat B (w.appendP b) := by
  unfold Writer.appendP
  have key : ∀ w, OnDat w → Pays (BlockWise bs) (price kr kw lb sy) (fun _ => B) OnDat B (do
      let w := if b.length > w.cap then { w with cap := b.length, data := [] } else w
      Prog.ret { w with data := w.data ++ b }) := by
    intro w hw
    refine .ret ?_ (Nat.le_refl _)
    unfold OnDat at *
    split <;> exact hw
  split
  · exact .bind (pays_flushP h) key
  · exact .bind (.ret h (Nat.le_refl B)) key

theorem pays_maybeSpillP {b : Bkt} {w : Writer} (h : OnDat w) (hb : b.p.length = bs) :
    Pays (BlockWise bs) (price kr kw lb sy) (fun _ => B) (fun r : Bkt × Writer => r.1.p.length = bs ∧ OnDat r.2) B (maybeSpillP b w) := by
  unfold maybeSpillP
  refine .ite ?_ (.ret ⟨hb, h⟩ (Nat.le_refl _))
  refine .bind .liftT fun _ _ => ?_
  refine .bind .liftT fun _ _ => ?_
  refine .bind (pays_appendP h) fun w hw => ?_
  refine .bind (.lift (R := fun b : Bkt => b.p.length = bs) fun a ha => (keeps_clear _ _ ha).trans hb) fun b hb => ?_
  refine .bind (.lift (R := fun b : Bkt => b.p.length = bs) fun a ha => (keeps_setSpill _ _ _ ha).trans hb) fun b hb => ?_
  exact .ret ⟨hb, hw⟩ (Nat.le_refl _)

/-- What is known after a part of a split. -/
def Halves (bs : Nat) (b1 b2 : Bkt) (w : Writer) : Prop := b1.p.length = bs ∧ b2.p.length = bs ∧ OnDat w

theorem pays_splitTmpP {n1 n2 N m : Nat} {tmp : Bkt} : ∀ fuel i b1 b2 w, Halves bs b1 b2 w →
    Pays (BlockWise bs) (price kr kw lb sy) (fun _ => B) (fun r : Bkt × Bkt × Writer => Halves bs r.1 r.2.1 r.2.2) B
      (splitTmpP n1 n2 N m tmp fuel i b1 b2 w) := by
  intro fuel
  induction fuel with
  | zero => intros; exact .raise
  | succ fuel ih =>
    intro i b1 b2 w hw
    unfold splitTmpP
    refine .ite ?_ (.ret hw (Nat.le_refl _))
    refine .bind .liftT fun _ _ => ?_
    refine .bind .liftT fun _ _ => ?_
    refine .bind .liftT fun _ _ => ?_
    refine .ite ?_ ?_
    · refine .bind (pays_maybeSpillP hw.2.2 hw.2.1) fun r hr => ?_
      obtain ⟨b, w⟩ := r
      refine .bind (.lift (R := fun b : Bkt => b.p.length = bs) fun a ha => (keeps_insert _ _ _ _ _ ha).trans hr.1) fun b hb => ?_
      exact ih _ _ _ _ ⟨hw.1, hb, hr.2⟩
    · refine .bind (pays_maybeSpillP hw.2.2 hw.1) fun r hr => ?_
      obtain ⟨b, w⟩ := r
      refine .bind (.lift (R := fun b : Bkt => b.p.length = bs) fun a ha => (keeps_insert _ _ _ _ _ ha).trans hr.1) fun b hb => ?_
      exact ih _ _ _ _ ⟨hb, hw.2.1, hr.2⟩

theorem pays_readFileP {b : Bkt} {p : Path} {off C : Nat} (hc : price kr kw lb sy (.read p off (bucketSize (bucketCapacity b.bs))) + B ≤ C) :
    Pays (BlockWise bs) (price kr kw lb sy) (fun _ => B) (fun b' : Bkt => b'.bs = b.bs ∧ b'.p.length = b.p.length) C (b.readFileP p off) := by
  unfold Bkt.readFileP
  refine .bind (Φ := fun _ => B) (R := fun _ => True) (.read trivial hc (fun _ => .ret trivial (Nat.le_refl _))) fun d _ => ?_
  refine .bind (.lift (R := fun m : Bytes => m.length = b.p.length) fun a ha => poke_len ha) fun m hm => ?_
  refine .bind (.lift (R := fun b' : Bkt => b'.bs = b.bs ∧ b'.p = m) fun a ha => ofMem_bs ha) fun b' hb => ?_
  exact .ite .raise (.ret ⟨hb.1, by rw [hb.2]; exact hm⟩ (Nat.le_refl _))

theorem pays_splitSpillsP {cap n1 n2 N m : Nat} : ∀ fuel spill b1 b2 tmp w, Halves bs b1 b2 w →
    Pays (BlockWise bs) (price kr kw lb sy) (fun _ => B) (fun r : Bkt × Bkt × Bkt × Writer => Halves bs r.1 r.2.1 r.2.2.2) B
      (splitSpillsP cap n1 n2 N m fuel spill b1 b2 tmp w) := by
  intro fuel
  induction fuel with
  | zero => intros; exact .raise
  | succ fuel ih =>
    intro spill b1 b2 tmp w hw
    unfold splitSpillsP
    have key : ∀ w, OnDat w → Pays (BlockWise bs) (price kr kw lb sy) (fun _ => B)
        (fun r : Bkt × Bkt × Bkt × Writer => Halves bs r.1 r.2.1 r.2.2.2) B (do
        let tmp ← tmp.readFileP .dat spill
        let (b1, b2, w) ← splitTmpP n1 n2 N m tmp (tmp.size + 1) 0 b1 b2 w
        if tmp.spill ≠ 0 then splitSpillsP cap n1 n2 N m fuel tmp.spill b1 b2 tmp w
        else .ret (b1, b2, tmp, w)) := by
      intro w' hw'
      refine .bind (pays_readFileP (B := B) (by simp [price])) fun tmp _ => ?_
      refine .bind (pays_splitTmpP _ _ _ _ _ ⟨hw.1, hw.2.1, hw'⟩) fun r hr => ?_
      obtain ⟨b1, b2, w⟩ := r
      exact .ite (ih _ _ _ _ _ hr) (.ret hr (Nat.le_refl _))
    split
    · exact .bind (pays_flushP hw.2.2) key
    · exact .bind (.ret hw.2.2 (Nat.le_refl B)) key

theorem splitOwn_len {n1 n2 N m : Nat} : ∀ fuel i (b1 b2 : Bkt) r, splitOwn n1 n2 N m fuel i b1 b2 = .ok r →
    r.1.p.length = b1.p.length ∧ r.2.p.length = b2.p.length := by
  intro fuel
  induction fuel with
  | zero => intro i b1 b2 r h; cases h
  | succ fuel ih =>
    intro i b1 b2 r h
    unfold splitOwn at h
    split at h
    · obtain ⟨e, _, h⟩ := res_bind h
      obtain ⟨n, _, h⟩ := res_bind h
      obtain ⟨_, _, h⟩ := res_bind h
      split at h
      · obtain ⟨b2', h2, h⟩ := res_bind h
        obtain ⟨b1', h1, h⟩ := res_bind h
        have := ih _ _ _ _ h
        exact ⟨this.1.trans (keeps_erase _ _ _ h1), this.2.trans (keeps_insert _ _ _ _ _ h2)⟩
      · exact ih _ _ _ _ h
    · cases h; exact ⟨rfl, rfl⟩

theorem pays_splitP {cap n1 n2 N m : Nat} {b1 b2 tmp : Bkt} {w : Writer} (hw : Halves bs b1 b2 w) :
    Pays (BlockWise bs) (price kr kw lb sy) (fun _ => B) (fun r : Bkt × Bkt × Bkt × Writer => Halves bs r.1 r.2.1 r.2.2.2) B
      (splitP cap n1 n2 N m b1 b2 tmp w) := by
  unfold splitP
  refine .ite (.ret hw (Nat.le_refl _)) ?_
  refine .bind (.lift (R := fun r : Bkt × Bkt => r.1.p.length = bs ∧ r.2.p.length = bs) fun r hr => ?_) fun r hr => ?_
  · have := splitOwn_len _ _ _ _ _ hr
    exact ⟨this.1.trans hw.1, this.2.trans hw.2.1⟩
  obtain ⟨b1, b2⟩ := r
  refine .ite ?_ (.ret ⟨hr.1, hr.2, hw.2.2⟩ (Nat.le_refl _))
  refine .bind (.lift (R := fun b : Bkt => b.p.length = bs) fun a ha => (keeps_setSpill _ _ _ ha).trans hr.1) fun b hb => ?_
  exact pays_splitSpillsP _ _ _ _ _ _ ⟨hb, hr.2, hw.2.2⟩

/-- Caches with at most this many blobs, of the size of a block. -/
structure Roomy (bs i j : Nat) (c1 c0 : Cache) : Prop where
  blobs1 : Blobs bs c1
  blobs0 : Blobs bs c0
  len1 : c1.length ≤ i
  len0 : c0.length ≤ j

theorem pays_loadP {c : Cfg} {n i j : Nat} {c1 c0 : Cache} (h : Roomy bs i j c1 c0) :
    Pays (BlockWise bs) (price kr kw lb sy) (fun _ => B)
      (fun r : Bkt × Cache × Cache => r.1.p.length = bs ∧ Roomy bs (i + 1) (j + 1) r.2.1 r.2.2) (kr + B) (loadP c bs n c1 c0) := by
  have hb : B ≤ kr + B := by omega
  have l1 := h.len1
  have l0 := h.len0
  unfold loadP
  cases h1 : c1.find n with
  | some p =>
    refine .bind (.lift (R := fun b : Bkt => b.p = p) fun _ hb => ofMem_p hb) fun b hp => ?_
    exact .ret ⟨by rw [hp]; exact find_blob h.blobs1 h1, h.blobs1, h.blobs0, by dsimp only; omega, by dsimp only; omega⟩ hb
  | none =>
    cases h0 : c0.find n with
    | some p =>
      refine .bind (.lift (R := fun b : Bkt => b.bs = bs) fun _ hb => (ofMem_bs hb).1) fun b hp => ?_
      refine .bind (.lift (R := fun r : Cache × Bkt => Blobs bs r.1 ∧ r.1.length = c1.length + 1 ∧ r.2.p.length = bs) fun r hr => ?_)
        fun r hr => ?_
      · have := insert_blob (c' := r.1) (b' := r.2) hr (by rw [hp]; exact h.blobs1)
        rw [hp] at this; exact this
      exact .ret ⟨hr.2.2, hr.1, h.blobs0, by have := hr.2.1; dsimp only; omega, by dsimp only; omega⟩ hb
    | none =>
      refine .bind (.lift (R := fun b : Bkt => b.bs = bs) fun _ hb => (ofMem_bs hb).1) fun b hp => ?_
      refine .bind (pays_readFileP (B := B) (by simp [price])) fun b2 hb2 => ?_
      have e2 : b2.bs = bs := hb2.1.trans hp
      refine .bind (.lift (R := fun r : Cache × Bkt => Blobs bs r.1 ∧ r.1.length = c0.length + 1 ∧ r.2.p.length = bs) fun r hr => ?_)
        fun r hr => ?_
      · have := insert_blob (c' := r.1) (b' := r.2) hr (by rw [e2]; exact h.blobs0)
        rw [e2] at this; exact this
      refine .bind (.lift (R := fun r : Cache × Bkt => Blobs bs r.1 ∧ r.1.length = c1.length + 1 ∧ r.2.p.length = bs) fun r hr => ?_)
        fun q hq => ?_
      · have := insert_blob (c' := r.1) (b' := r.2) hr (by rw [e2]; exact h.blobs1)
        rw [e2] at this; exact this
      exact .ret ⟨hq.2.2, hq.1, hr.1, by have := hq.2.1; dsimp only; omega, by have := hr.2.1; dsimp only; omega⟩ (Nat.le_refl _)

theorem pays_appendDataP : ∀ (p : Pool) (w : Writer), OnDat w →
    Pays (BlockWise bs) (price kr kw lb sy) (fun _ => B) (fun r : List (Item × Nat) × Writer => r.1.length = p.length ∧ OnDat r.2) B
      (appendDataP p w) := by
  intro p
  induction p with
  | nil => intro w h; exact .ret ⟨rfl, h⟩ (Nat.le_refl _)
  | cons it p ih =>
    intro w h
    unfold appendDataP
    refine .bind .liftT fun _ _ => ?_
    refine .bind (pays_appendP h) fun w hw => ?_
    refine .bind (ih w hw) fun r hr => ?_
    exact .ret ⟨by simp [hr.1], hr.2⟩ (Nat.le_refl _)

/-- What is known of the state of a commit after `i` and `j` loads. -/
def WorkRoom (bs i j : Nat) (x : Work) : Prop := Roomy bs i j x.c1 x.c0 ∧ OnDat x.w

theorem pays_commitSplitP {c : Cfg} {kh : KeyHeader} {t i j : Nat} {x : Work} (h : WorkRoom kh.blockSize i j x) :
    Pays (BlockWise kh.blockSize) (price kr kw lb sy) (fun _ => B) (WorkRoom kh.blockSize (i + 2) (j + 1)) (kr + B) (commitSplitP c kh t x) := by
  unfold commitSplitP
  have l1 := h.1.len1
  have l0 := h.1.len0
  refine .ite ?_ (.ret ⟨⟨h.1.blobs1, h.1.blobs0, by dsimp only; omega, by dsimp only; omega⟩, h.2⟩ (by omega))
  refine .bind (pays_loadP h.1) fun r hr => ?_
  obtain ⟨b1, c1, c0⟩ := r
  refine .bind (.lift (R := fun r : Cache × Bkt => Blobs kh.blockSize r.1 ∧ r.1.length = c1.length + 1 ∧ r.2.p.length = kh.blockSize)
    fun r hr' => ?_) fun r hr' => ?_
  · exact create_blob (c' := r.1) (b' := r.2) hr' hr.2.blobs1
  obtain ⟨d1, b2⟩ := r
  refine .bind (pays_splitP ⟨hr.1, hr'.2.2, h.2⟩) fun r hw => ?_
  obtain ⟨b1', b2', tmp, w⟩ := r
  have e1 := hr.2.len1
  have e2 := hr'.2.1
  refine .ret ⟨⟨(hr'.1.store hw.1).store hw.2.1, hr.2.blobs0, ?_, hr.2.len0⟩, hw.2.2⟩ (Nat.le_refl _)
  dsimp only at *
  rw [store_len, store_len]; omega

theorem pays_commitInsertP {c : Cfg} {kh : KeyHeader} {t i j : Nat} {it : Item} {off : Nat} {x : Work} (h : WorkRoom kh.blockSize i j x) :
    Pays (BlockWise kh.blockSize) (price kr kw lb sy) (fun _ => B) (WorkRoom kh.blockSize (i + 3) (j + 2)) (2 * kr + B)
      (commitInsertP c kh t it off x) := by
  unfold commitInsertP
  refine .bind ((pays_commitSplitP (B := kr + B) h).more (by omega)) fun x hx => ?_
  refine .bind .liftT fun _ _ => ?_
  refine .bind (pays_loadP hx.1) fun r hr => ?_
  obtain ⟨b1, c1, c0⟩ := r
  refine .bind (pays_maybeSpillP hx.2 hr.1) fun r hw => ?_
  obtain ⟨b, w⟩ := r
  refine .bind (.lift (R := fun b : Bkt => b.p.length = kh.blockSize) fun a ha => (keeps_insert _ _ _ _ _ ha).trans hw.1) fun b hb => ?_
  have e1 := hr.2.len1
  refine .ret ⟨⟨hr.2.blobs1.store hb, hr.2.blobs0, ?_, hr.2.len0⟩, hw.2⟩ (Nat.le_refl _)
  dsimp only at *
  rw [store_len]; omega

theorem pays_commitInsertsP {c : Cfg} {kh : KeyHeader} {t : Nat} : ∀ (l : List (Item × Nat)) i j x, WorkRoom kh.blockSize i j x →
    Pays (BlockWise kh.blockSize) (price kr kw lb sy) (fun _ => B) (WorkRoom kh.blockSize (i + 3 * l.length) (j + 2 * l.length))
      (l.length * (2 * kr) + B) (commitInsertsP c kh t l x) := by
  intro l
  induction l with
  | nil => intro i j x h; exact .ret h (by simp)
  | cons a l ih =>
    intro i j x h
    obtain ⟨it, off⟩ := a
    unfold commitInsertsP
    refine .bind ((pays_commitInsertP (B := l.length * (2 * kr) + B) h).more ?_) fun x hx => ?_
    · rw [List.length_cons, Nat.add_mul]; omega
    · have := ih (i + 3) (j + 2) x hx
      rw [List.length_cons]
      have e1 : i + 3 * (l.length + 1) = i + 3 + 3 * l.length := by omega
      have e2 : j + 2 * (l.length + 1) = j + 2 + 2 * l.length := by omega
      rw [e1, e2]; exact this

theorem logHeader_len (h : LogHeader) : (putLogHeader h).length = 62 := by
  simp [putLogHeader, logType]

theorem pays_commitPrepareP {c : Cfg} {s : Store} :
    Pays (BlockWise s.kh.blockSize) (price kr kw lb sy) (fun _ => B) (fun x : Work => Roomy s.kh.blockSize (3 * s.p0.length) (2 * s.p0.length) x.c1 x.c0)
      (62 * lb + (sy + (s.p0.length * (2 * kr) + B))) (commitPrepareP c s) := by
  unfold commitPrepareP
  refine .bind .liftT fun _ _ => ?_
  refine .bind (Φ := fun _ => 62 * lb + (sy + (s.p0.length * (2 * kr) + B))) (R := fun _ => True)
    (.size trivial (Nat.le_of_eq (Nat.zero_add _)) fun _ => .ret trivial (Nat.le_refl _)) fun _ _ => ?_
  cases s.ec with
  | some e => exact .raise
  | none =>
    refine .bind (Φ := fun _ => 62 * lb + (sy + (s.p0.length * (2 * kr) + B))) (R := fun _ => True)
      (.size trivial (Nat.le_of_eq (Nat.zero_add _)) fun _ => .ret trivial (Nat.le_refl _)) fun _ _ => ?_
    refine .bind (Φ := fun _ => sy + (s.p0.length * (2 * kr) + B)) (R := fun _ => True)
      (.append (B' := sy + (s.p0.length * (2 * kr) + B)) (.inr rfl) (by simp only [price, logHeader_len]; exact Nat.le_refl _)
        (.ret trivial (Nat.le_refl _))) fun _ _ => ?_
    refine .bind (Φ := fun _ => s.p0.length * (2 * kr) + B) (R := fun _ => True)
      (.sync (B' := s.p0.length * (2 * kr) + B) trivial (Nat.le_refl _) (.ret trivial (Nat.le_refl _))) fun _ _ => ?_
    refine .bind (Φ := fun _ => s.p0.length * (2 * kr) + B) (R := fun _ => True)
      (.size trivial (Nat.le_of_eq (Nat.zero_add _)) fun _ => .ret trivial (Nat.le_refl _)) fun _ _ => ?_
    refine .bind (pays_appendDataP _ _ rfl) fun r hr => ?_
    refine .bind (Φ := fun _ => B) (R := WorkRoom s.kh.blockSize (3 * s.p0.length) (2 * s.p0.length)) ?_ fun x hx => ?_
    · have := pays_commitInsertsP (kr := kr) (kw := kw) (lb := lb) (sy := sy) (B := B) (c := c) (kh := s.kh) (t := s.thresh) r.1 0 0
        { c0 := [], c1 := [], frac := s.frac, buckets := s.buckets, modulus := s.modulus, tmp := ‹Bkt›, w := r.2 }
        ⟨⟨fun e he => (by cases he), fun e he => (by cases he), Nat.le_refl _, Nat.le_refl _⟩, hr.2⟩
      rw [hr.1, Nat.zero_add, Nat.zero_add] at this
      exact this
    refine .bind (pays_flushP hx.2) fun w hw => ?_
    exact .ret hx.1 (Nat.le_refl _)

/-! ### The log -/

/-- The writer appends to the log file. -/
def OnLog (w : Writer) : Prop := w.path = .log

theorem pays_flushL {w : Writer} (h : OnLog w) :
    Pays (BlockWise bs) (price kr kw lb sy) (fun w' => w'.data.length * lb + B) OnLog (w.data.length * lb + B) w.flushP := by
  unfold OnLog at h
  unfold Writer.flushP
  refine .ite (.append (B' := B) ?_ ?_ (.ret h (by simp))) (.ret h (Nat.le_refl _))
  · rw [h]; exact .inr rfl
  · rw [h]; exact Nat.le_refl _

theorem pays_appendL {w : Writer} {b : Bytes} {C : Nat} (h : OnLog w) (hc : w.data.length * lb + (b.length * lb + B) ≤ C) :
    Pays (BlockWise bs) (price kr kw lb sy) (fun w' => w'.data.length * lb + B) OnLog C (w.appendP b) := by
  unfold Writer.appendP
  have key : ∀ w, OnLog w → Pays (BlockWise bs) (price kr kw lb sy) (fun w' => w'.data.length * lb + B) OnLog
      (w.data.length * lb + (b.length * lb + B)) (do
      let w := if b.length > w.cap then { w with cap := b.length, data := [] } else w
      Prog.ret { w with data := w.data ++ b }) := by
    intro w hw
    refine .ret ?_ ?_
    · unfold OnLog at *
      split <;> exact hw
    · dsimp only
      rw [List.length_append, Nat.add_mul]
      split
      · simp only [List.length_nil, Nat.zero_mul]; omega
      · omega
  split
  · exact .bind ((pays_flushL h).more hc) key
  · exact .bind (.ret (Φ := fun w' : Writer => w'.data.length * lb + (b.length * lb + B)) h hc) key

theorem pays_logRecordsP : ∀ (l : List (Nat × Bytes)) w, OnLog w → (∀ e ∈ l, e.2.length = bs) →
    Pays (BlockWise bs) (price kr kw lb sy) (fun w' => w'.data.length * lb + B) OnLog (l.length * ((8 + bs) * lb) + (w.data.length * lb + B))
      (logRecordsP bs l w) := by
  intro l
  induction l with
  | nil => intro w h _; exact .ret h (by simp)
  | cons a l ih =>
    intro w h hl
    obtain ⟨n, p⟩ := a
    have hp : p.length = bs := hl (n, p) (by simp)
    unfold logRecordsP
    refine .bind (.lift (R := fun b : Bkt => b.p = p) fun _ hb => ofMem_p hb) fun b hb => ?_
    refine .bind (.lift (R := fun q : Bytes => q.length ≤ bs) fun q hq => ?_) fun q hq => ?_
    · have := peek_len hq
      rw [hb] at this; omega
    refine .bind (pays_appendL (B := l.length * ((8 + bs) * lb) + B) h ?_) fun w hw => ?_
    · have e : (putU64 n ++ q).length * lb ≤ (8 + bs) * lb := Nat.mul_le_mul_right _ (by simp; omega)
      have e2 : (((n, p) :: l).length) * ((8 + bs) * lb) = l.length * ((8 + bs) * lb) + (8 + bs) * lb := by
        rw [List.length_cons, Nat.add_mul, Nat.one_mul]
      omega
    · have := ih w hw (fun e he => hl e (by simp [he]))
      have e : w.data.length * lb + (l.length * ((8 + bs) * lb) + B) = l.length * ((8 + bs) * lb) + (w.data.length * lb + B) := by omega
      rw [e]; exact this

theorem pays_commitLogP {c : Cfg} {c0 : Cache} (h : Blobs bs c0) :
    Pays (BlockWise bs) (price kr kw lb sy) (fun _ => B) (fun _ => True) (c0.length * ((8 + bs) * lb) + (sy + B)) (commitLogP c bs c0) := by
  unfold commitLogP
  refine .bind (Φ := fun _ => c0.length * ((8 + bs) * lb) + (sy + B)) (R := fun _ => True)
    (.size trivial (Nat.le_of_eq (Nat.zero_add _)) fun _ => .ret trivial (Nat.le_refl _)) fun _ _ => ?_
  refine .bind ((pays_logRecordsP (B := sy + B) (c.order c0) (Writer.new .log _ writeSize) rfl fun e he => h e ((c.order_perm c0).mem_iff.mp he)).more ?_) fun w hw => ?_
  · rw [(c.order_perm c0).length_eq]; simp [Writer.new]
  refine .bind (pays_flushL hw) fun w hw => ?_
  exact .sync (B' := B) trivial (by simp only [price]; omega) (.ret trivial (Nat.le_refl _))

/-! ### The key file -/

theorem pays_keyBlocksP : ∀ (l : List (Nat × Bytes)), (∀ e ∈ l, e.2.length = bs) →
    Pays (BlockWise bs) (price kr kw lb sy) (fun _ => B) (fun _ => True) (l.length * kw + B) (keyBlocksP bs l) := by
  intro l
  induction l with
  | nil => intro _; exact .ret trivial (by simp)
  | cons a l ih =>
    intro hl
    obtain ⟨n, p⟩ := a
    have hp : p.length = bs := hl (n, p) (by simp)
    unfold keyBlocksP
    refine .bind (.lift (R := fun b : Bkt => b.p = p) fun _ hb => ofMem_p hb) fun b hb => ?_
    refine .bind (Φ := fun _ => l.length * kw + B) (R := fun _ => True) ?_ fun _ _ => ih (fun e he => hl e (by simp [he]))
    unfold Bkt.writeFileP
    refine .bind (.lift (R := fun q : Bytes => q.length = bs) fun q hq => ?_) fun q hq => ?_
    · rw [padded_length hq, hb]; exact hp
    · refine .write (B' := l.length * kw + B) ⟨rfl, hq, n, rfl⟩ ?_ (.ret trivial (Nat.le_refl _))
      simp only [price, List.length_cons, Nat.add_mul]; omega

theorem pays_commitKeysP {c : Cfg} {c1 : Cache} (h : Blobs bs c1) :
    Pays (BlockWise bs) (price kr kw lb sy) (fun _ => B) (fun _ => True) (c1.length * kw + (3 * sy + B)) (commitKeysP c bs c1) := by
  unfold commitKeysP
  refine .bind ((pays_keyBlocksP (B := 3 * sy + B) (c.order c1) fun e he => h e ((c.order_perm c1).mem_iff.mp he)).more ?_) fun _ _ => ?_
  · rw [(c.order_perm c1).length_eq]; exact Nat.le_refl _
  refine .bind (Φ := fun _ => 2 * sy + B) (R := fun _ => True)
    (.sync (B' := 2 * sy + B) trivial (by simp only [price]; omega) (.ret trivial (Nat.le_refl _))) fun _ _ => ?_
  refine .bind (Φ := fun _ => sy + B) (R := fun _ => True)
    (.sync (B' := sy + B) trivial (by simp only [price]; omega) (.ret trivial (Nat.le_refl _))) fun _ _ => ?_
  refine .bind (Φ := fun _ => sy + B) (R := fun _ => True)
    (.trunc (B' := sy + B) ⟨rfl, rfl⟩ (by simp [price]) (.ret trivial (Nat.le_refl _))) fun _ _ => ?_
  exact .sync (B' := B) trivial (by simp only [price]; omega) (.ret trivial (Nat.le_refl _))

theorem pays_commitP {c : Cfg} {s : Store} :
    Pays (BlockWise s.kh.blockSize) (price kr kw lb sy) (fun _ => 0) (fun _ => True)
      (62 * lb + 5 * sy + s.p0.length * (2 * kr) + 2 * s.p0.length * ((8 + s.kh.blockSize) * lb) + 3 * s.p0.length * kw)
      (commitP c s) := by
  unfold commitP
  refine .bind ((pays_commitPrepareP (B := 2 * s.p0.length * ((8 + s.kh.blockSize) * lb) + (sy + (3 * s.p0.length * kw + (3 * sy + 0))))).more
    (by omega)) fun x hx => ?_
  refine .bind ((pays_commitLogP (B := 3 * s.p0.length * kw + (3 * sy + 0)) hx.blobs0).more ?_) fun _ _ => ?_
  · have := Nat.mul_le_mul_right ((8 + s.kh.blockSize) * lb) hx.len0
    omega
  · refine (pays_commitKeysP (B := 0) hx.blobs1).more ?_
    have := Nat.mul_le_mul_right kw hx.len1
    omega

end

theorem keyReads_sum (l : List FileOp) : keyReads l = (l.map (price 1 0 0 0)).sum := by
  induction l with
  | nil => rfl
  | cons a l ih =>
    unfold keyReads at *
    rw [List.countP_cons, ih, List.map_cons, List.sum_cons]
    cases a with
    | read p => cases p <;> simp [price] <;> omega
    | write p => cases p <;> simp [price]
    | append p => cases p <;> simp [price]
    | _ => simp [price]

theorem keyWrites_sum (l : List FileOp) : keyWrites l = (l.map (price 0 1 0 0)).sum := by
  induction l with
  | nil => rfl
  | cons a l ih =>
    unfold keyWrites at *
    rw [List.countP_cons, ih, List.map_cons, List.sum_cons]
    cases a with
    | read p => cases p <;> simp [price]
    | write p => cases p <;> simp [price] <;> omega
    | append p => cases p <;> simp [price]
    | _ => simp [price]

theorem bytesLogged_sum (l : List FileOp) : bytesLogged l = (l.map (price 0 0 1 0)).sum := by
  induction l with
  | nil => rfl
  | cons a l ih =>
    unfold bytesLogged at *
    rw [List.map_cons, List.sum_cons, ih, List.map_cons, List.sum_cons]
    cases a with
    | read p => cases p <;> simp [price]
    | write p => cases p <;> simp [price]
    | append p => cases p <;> simp [price]
    | _ => simp [price]

theorem syncs_sum (l : List FileOp) : syncs l = (l.map (price 0 0 0 1)).sum := by
  induction l with
  | nil => rfl
  | cons a l ih =>
    unfold syncs at *
    rw [List.countP_cons, ih, List.map_cons, List.sum_cons]
    cases a with
    | read p => cases p <;> simp [price]
    | write p => cases p <;> simp [price]
    | append p => cases p <;> simp [price]
    | sync p => simp [price]; omega
    | _ => simp [price]

end NuDB
