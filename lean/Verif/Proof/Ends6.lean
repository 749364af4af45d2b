import Verif.Proof.Ends5
/-
`flush` and `close` end unless overflow records refer to each other in circles.
-/
namespace NuDB

open Spec

/-- The data file begins with `D`. -/
def Begins (D : Bytes) (fs : Fs) : Prop := ∃ f, fs .dat = some f ∧ D <+: f.cur

/-- `m` only appends to the data file; if it ends normally then with `R`; if it does not end then the data file
satisfies `C`. -/
def GEnds (σ : Schedule) (D : Bytes) (C : Bytes → Prop) (m : M α) (R : α → Prop) : Prop :=
  ∀ w, Begins D w.fs → wp σ m (fun a w' => Begins D w'.fs ∧ R a)
    (fun x w' => Begins D w'.fs ∧ (x = .hang → ∃ f, w'.fs .dat = some f ∧ C f.cur)) w

section
variable {σ : Schedule} {D : Bytes} {C : Bytes → Prop} {α β : Type} {R : α → Prop}

theorem GEnds.bind {m : M α} {k : α → M β} {R' : β → Prop} (h : GEnds σ D C m R) (hk : ∀ a, R a → GEnds σ D C (k a) R') :
    GEnds σ D C (m >>= k) R' :=
  fun w hi => wp_bind (wp_post (h w hi) fun a w' ha => hk a ha.2 w' ha.1)

theorem GEnds.mono {R' : α → Prop} {m : M α} (h : GEnds σ D C m R) (hr : ∀ a, R a → R' a) : GEnds σ D C m R' :=
  fun w hi => wp_post (h w hi) (fun a _ ha => ⟨ha.1, hr a ha.2⟩)

theorem GEnds.ret {a : α} (h : R a) : GEnds σ D C (M.ret a) R := fun _ hi => wp_ret ⟨hi, h⟩

theorem GEnds.fail {e : Err} : GEnds σ D C (M.fail e : M α) R := fun _ hi => wp_fail ⟨hi, fun h => by cases h⟩

theorem GEnds.lift {r : Res α} (h : r ≠ .error .hang) (hq : ∀ a, r = .ok a → R a) : GEnds σ D C (M.lift r) R := by
  intro w hi
  cases r with
  | ok a => exact wp_lift_ok rfl ⟨hi, hq a rfl⟩
  | error x => exact wp_lift_error rfl ⟨hi, fun e => absurd (by rw [e]) h⟩

theorem GEnds.liftT {r : Res α} (h : r ≠ .error .hang) : GEnds σ D C (M.lift r) (fun _ => True) := GEnds.lift h fun _ _ => trivial

theorem GEnds.attempt {m : M α} (h : GEnds σ D C m R) : GEnds σ D C (M.attempt m) (fun r => ∀ a, r = .ok a → R a) := by
  intro w hi
  have h1 := h w hi
  unfold wp M.attempt at *
  rcases hr : m σ w with ⟨a | a, w'⟩
  · rw [hr] at h1
    cases a <;> first | exact ⟨h1.1, (fun _ e => by cases e)⟩ | exact h1
  · rw [hr] at h1
    exact ⟨h1.1, fun _ e => by cases e; exact h1.2⟩

theorem gends_fileOp {ok : Fs → Except Exc α × Fs} {part : Fs → Nat → Fs} (h1 : ∀ fs, (ok fs).1 ≠ .error .hang)
    (h2 : ∀ fs, Begins D fs → Begins D (ok fs).2) (h3 : ∀ fs k, Begins D fs → Begins D (part fs k)) :
    GEnds σ D C (fileOp ok part) (fun _ => True) := by
  intro w hi
  apply wp_fileOp
  · have e1 := h1 w.fs
    have e2 := h2 w.fs hi
    rcases hr : ok w.fs with ⟨a | a, fs'⟩
    · rw [hr] at e1 e2
      exact ⟨e2, fun e => absurd (by rw [e]) e1⟩
    · rw [hr] at e2
      exact ⟨e2, trivial⟩
  · intro k _; exact ⟨h3 _ _ hi, fun h => by cases h⟩
  · intro k _; exact ⟨h3 _ _ hi, fun h => by cases h⟩

theorem Begins.other {fs : Fs} {p : Path} {f : Option FileSt} (h : Begins D fs) (hp : p ≠ .dat) : Begins D (fs.set p f) := by
  obtain ⟨g, h1, h2⟩ := h
  exact ⟨g, by unfold Fs.set; rw [if_neg (Ne.symm hp)]; exact h1, h2⟩

theorem Begins.same {fs : Fs} {p : Path} {f g : FileSt} (h : Begins D fs) (hf : fs p = some f) (hg : f.cur <+: g.cur) :
    Begins D (fs.set p (some g)) := by
  by_cases hp : p = .dat
  · subst hp
    obtain ⟨f', h1, h2⟩ := h
    rw [hf] at h1
    cases h1
    exact ⟨g, by unfold Fs.set; rw [if_pos rfl], h2.trans hg⟩
  · exact h.other hp

theorem gends_fSize {p : Path} : GEnds σ D C (fSize p) (fun _ => True) := by
  apply gends_fileOp
  · intro fs; split <;> simp
  · intro fs h; split <;> exact h
  · intro _ _ h; exact h

theorem gends_fSync {p : Path} : GEnds σ D C (fSync p) (fun _ => True) := by
  apply gends_fileOp
  · intro fs; split <;> simp
  · intro fs h; split
    · rename_i hf; exact h.same hf (by exact List.prefix_refl _)
    · exact h
  · intro _ _ h; exact h

theorem gends_fTrunc_log {n : Nat} : GEnds σ D C (fTrunc .log n) (fun _ => True) := by
  apply gends_fileOp
  · intro fs; split <;> simp
  · intro fs h; split
    · exact h.other (by decide)
    · exact h
  · intro _ _ h; exact h

theorem gends_fErase_log : GEnds σ D C (fErase .log) (fun _ => True) := by
  apply gends_fileOp
  · intro fs; split <;> simp
  · intro fs h; split
    · exact h.other (by decide)
    · exact h
  · intro _ _ h; exact h

theorem gends_fWrite_key {o : Nat} {b : Bytes} : GEnds σ D C (fWrite .key o b) (fun _ => True) := by
  apply gends_fileOp
  · intro fs; split <;> simp
  · intro fs h; split
    · exact h.other (by decide)
    · exact h
  · intro fs k h
    split
    · exact h.other (by decide)
    · exact h

theorem prefix_append_end {f : FileSt} {b : Bytes} : f.cur <+: (f.push (.write f.cur.length b)).cur := by
  have : (f.push (.write f.cur.length b)).cur = writeAt f.cur f.cur.length b := by
    unfold FileSt.cur FileSt.push
    rw [List.foldl_append]
    rfl
  rw [this]
  unfold writeAt
  split
  · exact List.prefix_refl _
  · unfold put
    simp

theorem gends_fAppend {p : Path} {o : Nat} {b : Bytes} : GEnds σ D C (fAppend p o b) (fun _ => True) := by
  apply gends_fileOp
  · intro fs; split
    · split <;> simp
    · simp
  · intro fs h; split
    · rename_i f hf
      split
      · rename_i ho
        subst ho
        exact h.same hf prefix_append_end
      · exact h
    · exact h
  · intro fs k h
    split
    · rename_i f hf
      split
      · rename_i ho
        subst ho
        exact h.same hf prefix_append_end
      · exact h
    · exact h

theorem gends_fRead {p : Path} {o n : Nat} : GEnds σ D C (fRead p o n) (fun _ => True) := by
  apply gends_fileOp
  · intro fs; split
    · split <;> simp
    · simp
  · intro fs h; split
    · split <;> exact h
    · exact h
  · intro _ _ h; exact h

theorem gends_flushW {w : Writer} : GEnds σ D C w.flush (fun _ => True) := by
  unfold Writer.flush
  split
  · exact GEnds.bind gends_fAppend fun _ _ => GEnds.ret trivial
  · exact GEnds.ret trivial

theorem gends_append {w : Writer} {bs : Bytes} : GEnds σ D C (w.append bs) (fun _ => True) := by
  unfold Writer.append
  dsimp only
  split
  · refine GEnds.bind gends_flushW fun _ _ => ?_
    exact GEnds.ret trivial
  · refine GEnds.bind (R := fun _ => True) (GEnds.ret trivial) fun _ _ => ?_
    exact GEnds.ret trivial

theorem gends_maybeSpill {b : Bkt} {w : Writer} : GEnds σ D C (maybeSpill b w) (fun _ => True) := by
  unfold maybeSpill
  split
  · refine GEnds.bind (GEnds.liftT nh_peek) fun _ _ => ?_
    refine GEnds.bind (GEnds.liftT nh_assert) fun _ _ => ?_
    refine GEnds.bind gends_append fun _ _ => ?_
    refine GEnds.bind (GEnds.liftT nh_clear) fun _ _ => ?_
    refine GEnds.bind (GEnds.liftT nh_update) fun _ _ => ?_
    exact GEnds.ret trivial
  · exact GEnds.ret trivial

theorem gends_readFile {b : Bkt} {p : Path} {o : Nat} : GEnds σ D C (b.readFile p o) (fun _ => True) := by
  unfold Bkt.readFile
  refine GEnds.bind gends_fRead fun d _ => ?_
  refine GEnds.bind (GEnds.liftT nh_poke) fun d _ => ?_
  refine GEnds.bind (GEnds.liftT nh_ofMem) fun d _ => ?_
  split
  · exact GEnds.fail
  · exact GEnds.ret trivial

/-! splitting -/

theorem update_size {b b' : Bkt} (h : b.update = .ok b') : b'.size = b.size := by
  unfold Bkt.update assert at h
  split at h
  · split at h
    · unfold poke at h
      change (if _ then _ else _ : Res Bytes) >>= _ = _ at h
      split at h
      · cases h; rfl
      · cases h
    · cases h
  · cases h

theorem nh_erase {b : Bkt} {i : Nat} : b.erase i ≠ .error .hang := by
  unfold Bkt.erase
  split
  · simp
  · refine nh_bind ?_ fun _ => nh_bind nh_poke fun _ => nh_update
    unfold Bkt.eraseMove
    split
    · exact nh_bind nh_peek fun _ => nh_poke
    · exact nh_ok

theorem erase_size {b b' : Bkt} {i : Nat} (h : b.erase i = .ok b') : b'.size = b.size - 1 := by
  unfold Bkt.erase at h
  split at h
  · cases h
  · dsimp only at h
    cases h1 : Bkt.eraseMove b.p i (b.size - 1) with
    | error x => rw [h1] at h; cases h
    | ok p =>
      rw [h1] at h
      change (poke p _ _ >>= _) = _ at h
      cases h2 : poke p (8 + (b.size - 1) * 18) (zeros 18) with
      | error x => rw [h2] at h; cases h
      | ok q =>
        rw [h2] at h
        exact update_size (b := { b with size := b.size - 1, p := q }) h

theorem nh_splitOwn {n1 n2 bk m : Nat} : ∀ fuel i b1 b2, b1.size < fuel + i → 0 < fuel →
    splitOwn n1 n2 bk m fuel i b1 b2 ≠ .error .hang := by
  intro fuel
  induction fuel with
  | zero => intro _ _ _ _ h; omega
  | succ n ih =>
    intro i b1 b2 hi _
    unfold splitOwn
    split
    · refine nh_bind nh_get fun e => nh_bind nh_bucketIndexA fun k => nh_bind nh_assert fun _ => ?_
      split
      · refine nh_bind nh_insert fun b2' => ?_
        cases he : b1.erase i with
        | error x =>
          intro h
          cases h
          exact nh_erase he
        | ok b1' =>
          have := erase_size he
          exact ih _ _ _ (by omega) (by omega)
      · exact ih _ _ _ (by omega) (by omega)
    · simp

theorem gends_splitTmp {n1 n2 bk m : Nat} {tmp : Bkt} : ∀ fuel i b1 b2 w, tmp.size < fuel + i → 0 < fuel →
    GEnds σ D C (splitTmp n1 n2 bk m tmp fuel i b1 b2 w) (fun _ => True) := by
  intro fuel
  induction fuel with
  | zero => intro _ _ _ _ _ h; omega
  | succ n ih =>
    intro i b1 b2 w hi _
    unfold splitTmp
    split
    · refine GEnds.bind (GEnds.liftT nh_get) fun e _ => ?_
      refine GEnds.bind (GEnds.liftT nh_bucketIndexA) fun k _ => ?_
      refine GEnds.bind (GEnds.liftT nh_assert) fun _ _ => ?_
      split
      · refine GEnds.bind gends_maybeSpill ?_
        rintro ⟨b2', w'⟩ _
        refine GEnds.bind (GEnds.liftT nh_insert) fun b2'' _ => ?_
        exact ih _ _ _ _ (by omega) (by omega)
      · refine GEnds.bind gends_maybeSpill ?_
        rintro ⟨b1', w'⟩ _
        refine GEnds.bind (GEnds.liftT nh_insert) fun b1'' _ => ?_
        exact ih _ _ _ _ (by omega) (by omega)
    · exact GEnds.ret trivial

/-- Knowing more of the data file. -/
theorem GEnds.from {m : M α} (h : ∀ f : FileSt, D <+: f.cur → GEnds σ f.cur C m R) : GEnds σ D C m R := by
  intro w ⟨f, hf, hd⟩
  have down : ∀ fs, Begins f.cur fs → Begins D fs := fun fs ⟨g, h1, h2⟩ => ⟨g, h1, hd.trans h2⟩
  exact wp_conseq (h f hd w ⟨f, hf, List.prefix_refl _⟩) (fun a w' h => ⟨down _ h.1, h.2⟩) (fun x w' h => ⟨down _ h.1, h.2⟩)

theorem bytesAt_prefix {A B : Bytes} {o n : Nat} (h : A <+: B) (hl : o + n ≤ A.length) : bytesAt B o n = bytesAt A o n := by
  obtain ⟨t, rfl⟩ := h
  unfold bytesAt
  rw [List.drop_append_of_le_length (by omega), List.take_append_of_le_length (by rw [List.length_drop]; omega)]

/-- The record that was read is still there later. -/
theorem gends_link {tmp : Bkt} {o bs : Nat} (hb : tmp.bs = bs) (h104 : 104 ≤ bs) {k : Bkt → M β} {R' : β → Prop}
    (hk : ∀ (A : Bytes) (b : Bkt), D <+: A → b.bs = bs → b.spill = linkAt A o → o + (8 + 18 * ((bs - 8) / 18)) ≤ A.length →
      GEnds σ A C (k b) R') : GEnds σ D C (tmp.readFile .dat o >>= k) R' := by
  intro w hi
  obtain ⟨f, hf, hd⟩ := hi
  have down : ∀ fs, Begins f.cur fs → Begins D fs := fun fs ⟨g, h1, h2⟩ => ⟨g, h1, hd.trans h2⟩
  have h1 := ends_readFile (σ := σ) (C := False) (o := o) hf hb h104 w rfl
  have h2 := gends_readFile (σ := σ) (C := C) (b := tmp) (p := .dat) (o := o) w ⟨f, hf, hd⟩
  apply wp_bind
  refine wp_conseq (wp_and h1 h2) ?_ ?_
  · intro b w' ⟨⟨e1, e2, e3, e4⟩, _⟩
    refine wp_conseq (hk f.cur b hd e2 e3 e4 w' ⟨f, by rw [e1]; exact hf, List.prefix_refl _⟩) ?_ ?_
    · intro a w' h; exact ⟨down _ h.1, h.2⟩
    · intro a w' h; exact ⟨down _ h.1, h.2⟩
  · intro x w' h; exact h.2

theorem Trail.grow {room : Nat} {A B : Bytes} {o n : Nat} (h0 : o ≠ 0) (hl : o + (8 + 18 * room) ≤ A.length) (hp : A <+: B)
    (h : Trail B room n (linkAt A o)) : Trail B room (n + 1) o := by
  refine ⟨h0, ?_, ?_⟩
  · have := hp.length_le; omega
  · have : linkAt B o = linkAt A o := by unfold linkAt; rw [bytesAt_prefix hp (by omega)]
    rw [this]; exact h

/-- The exceptional part also knows that the file begins with `D`. -/
theorem GEnds.weaken {C' : Bytes → Prop} {m : M α} (h : GEnds σ D C m R) (hc : ∀ B, D <+: B → C B → C' B) : GEnds σ D C' m R := by
  intro w hi
  refine wp_conseq (h w hi) (fun a w' h => h) (fun x w' ⟨h1, h2⟩ => ⟨h1, fun e => ?_⟩)
  obtain ⟨f, hf, hcf⟩ := h2 e
  obtain ⟨g, hg, hd⟩ := h1
  rw [hf] at hg
  cases hg
  exact ⟨f, hf, hc _ hd hcf⟩

theorem gends_splitSpills {cap n1 n2 bk m bs : Nat} (h104 : 104 ≤ bs) : ∀ fuel spill (b1 b2 tmp : Bkt) (w : Writer) (D : Bytes), spill ≠ 0 →
    tmp.bs = bs → GEnds σ D (fun B => Trail B ((bs - 8) / 18) fuel spill) (splitSpills cap n1 n2 bk m fuel spill b1 b2 tmp w)
      (fun x => x.2.2.1.bs = bs) := by
  intro fuel
  induction fuel with
  | zero =>
    intro spill b1 b2 tmp w D _ _ w hi
    obtain ⟨f, hf, hd⟩ := hi
    exact wp_raise ⟨⟨f, hf, hd⟩, fun _ => ⟨f, hf, trivial⟩⟩
  | succ n ih =>
    intro spill b1 b2 tmp w D h0 hb
    have tail : ∀ w : Writer, GEnds σ D (fun B => Trail B ((bs - 8) / 18) (n + 1) spill) (do
        let tmp ← tmp.readFile .dat spill
        let (b1, b2, w) ← splitTmp n1 n2 bk m tmp (tmp.size + 1) 0 b1 b2 w
        if tmp.spill ≠ 0 then splitSpills cap n1 n2 bk m n tmp.spill b1 b2 tmp w
        else M.ret (b1, b2, tmp, w)) (fun x => x.2.2.1.bs = bs) := by
      intro w
      refine gends_link hb h104 fun A b hA hb' hl hlen => ?_
      refine GEnds.bind (gends_splitTmp _ _ _ _ _ (by omega) (by omega)) ?_
      rintro ⟨b1', b2', w'⟩ _
      dsimp only
      split
      · rename_i hs
        refine (ih _ _ _ _ _ A hs hb').weaken fun B hB ht => ?_
        rw [hl] at ht
        exact Trail.grow h0 hlen hB ht
      · exact GEnds.ret hb'
    unfold splitSpills
    dsimp only
    split
    · exact GEnds.bind gends_flushW fun w _ => tail w
    · exact GEnds.bind (R := fun _ => True) (GEnds.ret trivial) fun w _ => tail w

theorem linkAt_lt {A : Bytes} {o : Nat} (h : o + 8 ≤ A.length) : linkAt A o < 2 ^ 48 := by
  unfold linkAt
  have hl : (bytesAt A (o + 2) 6).length = 6 := by unfold bytesAt; rw [List.length_take, List.length_drop]; omega
  rw [← C18_u48.reads _ hl]
  exact getU48_lt hl

theorem Trail.endless48 {B : Bytes} {room o : Nat} (h : Trail B room (2 ^ 48 + 1) o) : Endless B room o := by
  obtain ⟨N, hN⟩ : ∃ N, N = 2 ^ 48 - 1 := ⟨_, rfl⟩
  have hN' : 2 ^ 48 = N + 1 := by omega
  rw [hN'] at h
  obtain ⟨i, j, h1, h2, h3⟩ := pigeon N (fun i => hop B o (i + 1) - 1) (fun i hi => by
    have a := h.at (i := i + 1) (by omega)
    have b := h.at (i := i) (by omega)
    have d : hop B o (i + 1) < 2 ^ 48 := linkAt_lt (A := B) (o := hop B o i) (by omega)
    rw [hN'] at d
    have := a.1
    show hop B o (i + 1) - 1 < N
    omega)
  have a := (h.at (i := i + 1) (by omega)).1
  have b := (h.at (i := j + 1) (by omega)).1
  have h3 : hop B o (i + 1) - 1 = hop B o (j + 1) - 1 := h3
  have cyc : hop B o (i + 1) = hop B o (j + 1) := by omega
  have all : ∀ n, hop B o n ≠ 0 ∧ hop B o n + (8 + 18 * room) ≤ B.length := by
    intro n
    induction n using Nat.strongRecOn with
    | ind n ih =>
      by_cases hn : n < N + 2
      · exact h.at (by omega)
      · have := hop_cycle cyc (n - (j + 1))
        rw [show j + 1 + (n - (j + 1)) = n by omega] at this
        rw [← this]
        exact ih _ (by omega)
  exact ⟨hop B o, rfl, fun i => ⟨(all i).1, (all i).2, rfl⟩⟩

/-- The data file has a chain that does not end. -/
def LoopsIn (bs : Nat) (B : Bytes) : Prop := Loops B bs

theorem gends_split {cap n1 n2 bk m bs : Nat} {b1 b2 tmp : Bkt} {w : Writer} (h104 : 104 ≤ bs) (hb : tmp.bs = bs) :
    GEnds σ D (LoopsIn bs) (split cap n1 n2 bk m b1 b2 tmp w) (fun x => x.2.2.1.bs = bs) := by
  unfold split
  split
  · exact GEnds.ret hb
  · refine GEnds.bind (GEnds.liftT (nh_splitOwn _ _ _ _ (by omega) (by omega))) ?_
    rintro ⟨b1', b2'⟩ _
    dsimp only
    split
    · rename_i hs
      refine GEnds.bind (GEnds.liftT nh_update) fun b _ => ?_
      refine GEnds.weaken (gends_splitSpills h104 _ _ _ _ _ _ D hs hb) fun B _ ht => ?_
      exact ⟨_, Trail.endless48 ht⟩
    · exact GEnds.ret hb

variable {c : Cfg}

theorem nh_cacheInsert {l : Cache} {n : Nat} {b : Bkt} : l.insert c n b ≠ .error .hang := by
  unfold Cache.insert
  refine nh_bind nh_peek fun _ => nh_bind nh_poke fun _ => ?_
  split
  · simp
  · exact nh_bind nh_ofMem fun _ => nh_ok

theorem nh_cacheCreate {l : Cache} {bs n : Nat} : l.create c bs n ≠ .error .hang := by
  unfold Cache.create
  refine nh_bind nh_ofEmpty fun _ => ?_
  split
  · simp
  · exact nh_ok

theorem gends_load {bs n : Nat} {c1 c0 : Cache} : GEnds σ D C (load c bs n c1 c0) (fun _ => True) := by
  unfold load
  split
  · exact GEnds.bind (GEnds.liftT nh_ofMem) fun _ _ => GEnds.ret trivial
  · split
    · refine GEnds.bind (GEnds.liftT nh_ofMem) fun _ _ => ?_
      exact GEnds.bind (GEnds.liftT nh_cacheInsert) fun _ _ => GEnds.ret trivial
    · refine GEnds.bind (GEnds.liftT nh_ofMem) fun _ _ => ?_
      refine GEnds.bind gends_readFile fun _ _ => ?_
      refine GEnds.bind (GEnds.liftT nh_cacheInsert) fun _ _ => ?_
      exact GEnds.bind (GEnds.liftT nh_cacheInsert) fun _ _ => GEnds.ret trivial

theorem gends_appendData : ∀ (p : Pool) (w : Writer), GEnds σ D C (appendData p w) (fun _ => True) := by
  intro p
  induction p with
  | nil => intro w; exact GEnds.ret trivial
  | cons it rest ih =>
    intro w
    unfold appendData
    dsimp only
    refine GEnds.bind (GEnds.liftT nh_assert) fun _ _ => ?_
    refine GEnds.bind gends_append fun w _ => ?_
    refine GEnds.bind (ih w) ?_
    rintro ⟨l, w'⟩ _
    exact GEnds.ret trivial

theorem gends_commitSplit {kh : KeyHeader} {thresh : Nat} {x : Work} (h104 : 104 ≤ kh.blockSize) (hb : x.tmp.bs = kh.blockSize) :
    GEnds σ D (LoopsIn kh.blockSize) (commitSplit c kh thresh x) (fun x' => x'.tmp.bs = kh.blockSize) := by
  unfold commitSplit
  dsimp only
  split
  · refine GEnds.bind gends_load ?_
    rintro ⟨b1, c1, c0⟩ _
    dsimp only
    refine GEnds.bind (GEnds.liftT nh_cacheCreate) ?_
    rintro ⟨c1', b2⟩ _
    dsimp only
    refine GEnds.bind (gends_split h104 hb) ?_
    rintro ⟨b1', b2', tmp', w'⟩ ht
    exact GEnds.ret ht
  · exact GEnds.ret hb

theorem gends_commitInsert {kh : KeyHeader} {thresh off : Nat} {it : Item} {x : Work} (h104 : 104 ≤ kh.blockSize)
    (hb : x.tmp.bs = kh.blockSize) :
    GEnds σ D (LoopsIn kh.blockSize) (commitInsert c kh thresh it off x) (fun x' => x'.tmp.bs = kh.blockSize) := by
  unfold commitInsert
  refine GEnds.bind (gends_commitSplit h104 hb) fun x hx => ?_
  refine GEnds.bind (GEnds.liftT nh_bucketIndexA) fun n _ => ?_
  refine GEnds.bind gends_load ?_
  rintro ⟨b, c1, c0⟩ _
  dsimp only
  refine GEnds.bind gends_maybeSpill ?_
  rintro ⟨b', w'⟩ _
  dsimp only
  refine GEnds.bind (GEnds.liftT nh_insert) fun n _ => ?_
  exact GEnds.ret hx

theorem gends_commitInserts {kh : KeyHeader} {thresh : Nat} (h104 : 104 ≤ kh.blockSize) : ∀ (l : List (Item × Nat)) (x : Work),
    x.tmp.bs = kh.blockSize → GEnds σ D (LoopsIn kh.blockSize) (commitInserts c kh thresh l x) (fun _ => True) := by
  intro l
  induction l with
  | nil => intro x _; exact GEnds.ret trivial
  | cons a rest ih =>
    intro x hb
    obtain ⟨it, off⟩ := a
    unfold commitInserts
    exact GEnds.bind (gends_commitInsert h104 hb) fun x hx => ih x hx

theorem gends_ofMem {bs : Nat} {p : Bytes} : GEnds σ D C (M.lift (Bkt.ofMem bs p)) (fun b => b.bs = bs) := by
  refine GEnds.lift nh_ofMem ?_
  intro a ha
  unfold Bkt.ofMem at ha
  unfold peek at ha
  split at ha
  · split at ha
    · cases ha; rfl
    · cases ha
  · cases ha

theorem gends_commitPrepare {s : Store} (h104 : 104 ≤ s.kh.blockSize) :
    GEnds σ D (LoopsIn s.kh.blockSize) (commitPrepare c s) (fun _ => True) := by
  unfold commitPrepare
  refine GEnds.bind gends_ofMem fun tmp ht => ?_
  refine GEnds.bind gends_fSize fun _ _ => ?_
  split
  · exact GEnds.fail
  · refine GEnds.bind gends_fSize fun _ _ => ?_
    dsimp only
    refine GEnds.bind gends_fAppend fun _ _ => ?_
    refine GEnds.bind gends_fSync fun _ _ => ?_
    refine GEnds.bind gends_fSize fun _ _ => ?_
    refine GEnds.bind (gends_appendData _ _) ?_
    rintro ⟨items, w⟩ _
    dsimp only
    refine GEnds.bind (gends_commitInserts h104 _ _ ht) fun x _ => ?_
    exact GEnds.bind gends_flushW fun _ _ => GEnds.ret trivial

theorem gends_logRecords {bs : Nat} : ∀ (l : List (Nat × Bytes)) (w : Writer), GEnds σ D C (logRecords bs l w) (fun _ => True) := by
  intro l
  induction l with
  | nil => intro w; exact GEnds.ret trivial
  | cons a rest ih =>
    intro w
    obtain ⟨n, p⟩ := a
    unfold logRecords
    refine GEnds.bind (GEnds.liftT nh_ofMem) fun _ _ => ?_
    refine GEnds.bind (GEnds.liftT nh_peek) fun _ _ => ?_
    exact GEnds.bind gends_append fun w _ => ih w

theorem gends_keyBlocks {bs : Nat} : ∀ (l : List (Nat × Bytes)), GEnds σ D C (keyBlocks bs l) (fun _ => True) := by
  intro l
  induction l with
  | nil => exact GEnds.ret trivial
  | cons a rest ih =>
    obtain ⟨n, p⟩ := a
    unfold keyBlocks Bkt.writeFile
    refine GEnds.bind (GEnds.liftT nh_ofMem) fun _ _ => ?_
    refine GEnds.bind (GEnds.bind (GEnds.liftT nh_padded) fun _ _ => gends_fWrite_key) fun _ _ => ih

theorem gends_commitFinish {bs : Nat} {c0 c1 : Cache} : GEnds σ D C (commitFinish c bs c0 c1) (fun _ => True) := by
  unfold commitFinish commitLog
  refine GEnds.bind (R := fun _ => True) ?_ fun _ _ => ?_
  · refine GEnds.bind gends_fSize fun _ _ => ?_
    refine GEnds.bind (gends_logRecords _ _) fun _ _ => ?_
    exact GEnds.bind gends_flushW fun _ _ => gends_fSync
  · refine GEnds.bind (gends_keyBlocks _) fun _ _ => ?_
    refine GEnds.bind gends_fSync fun _ _ => ?_
    refine GEnds.bind gends_fSync fun _ _ => ?_
    exact GEnds.bind gends_fTrunc_log fun _ _ => gends_fSync

theorem gends_flush {s : Store} (h104 : 104 ≤ s.kh.blockSize) : GEnds σ D (LoopsIn s.kh.blockSize) (flush c s) (fun _ => True) := by
  unfold flush
  split
  · exact GEnds.ret trivial
  · refine GEnds.bind (R := fun _ => True) ?_ fun _ _ => GEnds.ret trivial
    unfold commit
    refine GEnds.bind (GEnds.liftT nh_assert) fun _ _ => ?_
    dsimp only
    refine GEnds.bind (gends_commitPrepare (s := { s with p0 := s.p1, p1 := s.p0 }) h104).attempt fun r _ => ?_
    split
    · exact GEnds.ret trivial
    · refine GEnds.bind gends_commitFinish.attempt fun r _ => ?_
      split
      · exact GEnds.ret trivial
      · exact GEnds.ret trivial

theorem gends_close {s : Store} (h104 : 104 ≤ s.kh.blockSize) : GEnds σ D (LoopsIn s.kh.blockSize) (close c s) (fun _ => True) := by
  unfold close
  refine GEnds.bind (gends_flush h104) fun s _ => ?_
  split
  · exact GEnds.ret trivial
  · refine GEnds.bind gends_fErase_log.attempt fun r _ => ?_
    split <;> exact GEnds.ret trivial

end

end NuDB
