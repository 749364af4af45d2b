import Verif.Proof.Ends2
/-
Lookups and `verify` end unless overflow records refer to each other in circles.
-/
namespace NuDB

open Spec

/-- The link of the overflow bucket at `o`. -/
def linkAt (D : Bytes) (o : Nat) : Nat := value (bytesAt D (o + 2) 6)

/-- `n` overflow buckets, each referring to the next one. -/
def Trail (D : Bytes) (room : Nat) : Nat → Nat → Prop
  | 0, _ => True
  | n + 1, o => o ≠ 0 ∧ o + (8 + 18 * room) ≤ D.length ∧ Trail D room n (linkAt D o)

def hop (D : Bytes) (o : Nat) : Nat → Nat
  | 0 => o
  | n + 1 => linkAt D (hop D o n)

theorem hop_succ (D : Bytes) (o n : Nat) : hop D (linkAt D o) n = hop D o (n + 1) := by
  induction n with
  | zero => rfl
  | succ n ih => simp only [hop] at *; rw [ih]

theorem Trail.at {D : Bytes} {room : Nat} : ∀ {n o i}, Trail D room n o → i < n →
    hop D o i ≠ 0 ∧ hop D o i + (8 + 18 * room) ≤ D.length := by
  intro n
  induction n with
  | zero => intro _ _ _ h; omega
  | succ n ih =>
    intro o i h hi
    cases i with
    | zero => exact ⟨h.1, h.2.1⟩
    | succ i => rw [← hop_succ]; exact ih h.2.2 (by omega)

theorem pigeon : ∀ (N : Nat) (f : Nat → Nat), (∀ i, i ≤ N → f i < N) → ∃ i j, i < j ∧ j ≤ N ∧ f i = f j := by
  intro N
  induction N with
  | zero => intro f h; exact absurd (h 0 (Nat.le_refl _)) (by omega)
  | succ N ih =>
    intro f h
    by_cases hx : ∃ i, i ≤ N ∧ f i = f (N + 1)
    · obtain ⟨i, h1, h2⟩ := hx
      exact ⟨i, N + 1, by omega, Nat.le_refl _, h2⟩
    · have hx' : ∀ i, i ≤ N → f i ≠ f (N + 1) := fun i h1 h2 => hx ⟨i, h1, h2⟩
      obtain ⟨i, j, h1, h2, h3⟩ := ih (fun i => if f i > f (N + 1) then f i - 1 else f i) (by
        intro i hi
        have a := h i (by omega)
        have b := hx' i hi
        have e := h (N + 1) (Nat.le_refl _)
        split <;> omega)
      refine ⟨i, j, h1, by omega, ?_⟩
      have a := hx' i (by omega)
      have b := hx' j (by omega)
      split at h3 <;> split at h3 <;> omega

theorem hop_cycle {D : Bytes} {o i j : Nat} (h : hop D o i = hop D o j) (k : Nat) : hop D o (i + k) = hop D o (j + k) := by
  induction k with
  | zero => exact h
  | succ k ih => exact congrArg (linkAt D) ih

theorem Trail.endless {D : Bytes} {room o : Nat} (h : Trail D room (D.length + 1) o) : Endless D room o := by
  obtain ⟨i, j, h1, h2, h3⟩ := pigeon D.length (hop D o) (fun i hi => by
    have := (h.at (i := i) (by omega)).2; omega)
  have all : ∀ n, hop D o n ≠ 0 ∧ hop D o n + (8 + 18 * room) ≤ D.length := by
    intro n
    induction n using Nat.strongRecOn with
    | ind n ih =>
      by_cases hn : n ≤ D.length
      · exact h.at (by omega)
      · have := hop_cycle h3 (n - j)
        rw [show j + (n - j) = n by omega] at this
        rw [← this]
        exact ih _ (by omega)
  exact ⟨hop D o, rfl, fun i => ⟨(all i).1, (all i).2, rfl⟩⟩

section
variable {σ : Schedule} {C : Prop} {α β : Type} {R : α → Prop} {c : Cfg} {fs : Fs} {f : FileSt}

/-- Reading a bucket: link and size are those in the file. -/
theorem ends_readFile {p : Path} {b : Bkt} {o bs : Nat} (hf : fs p = some f) (hb : b.bs = bs) (h104 : 104 ≤ bs) :
    Ends σ (· = fs) C (b.readFile p o) (fun b' => b'.bs = bs ∧ b'.spill = linkAt f.cur o ∧
      o + (8 + 18 * ((bs - 8) / 18)) ≤ f.cur.length) := by
  have hcap : bucketCapacity bs = (bs - 8) / 18 := by
    have e : keyHeaderSize = 104 := rfl
    unfold bucketCapacity
    rw [if_neg (by simp; omega)]
  unfold Bkt.readFile
  dsimp only
  rw [hb, hcap]
  refine Ends.bind (ends_fRead_at hf (by unfold bucketSize; omega)) ?_
  rintro data ⟨hd, hl⟩
  have hl' : o + (8 + 18 * ((bs - 8) / 18)) ≤ f.cur.length := by unfold bucketSize at hl; omega
  have hdl : data.length = bucketSize ((bs - 8) / 18) := by rw [hd]; exact slice_length_of_le hl
  refine Ends.bind (R := fun mem => 0 + data.length ≤ b.p.length ∧ mem = put b.p 0 data) (Ends.lift nh_poke ?_) ?_
  · intro a ha
    unfold poke at ha
    split at ha
    · rename_i h; cases ha; exact ⟨h, rfl⟩
    · cases ha
  rintro mem ⟨hm, hmem⟩
  refine Ends.bind (R := fun b' => b'.bs = bs ∧ b'.spill = getU48 (slice mem 2 6)) (Ends.lift nh_ofMem ?_) ?_
  · intro a ha
    unfold Bkt.ofMem at ha
    unfold peek at ha
    split at ha
    · split at ha
      · cases ha; exact ⟨rfl, rfl⟩
      · cases ha
    · cases ha
  rintro b' ⟨hbs, hsp⟩
  split
  · exact Ends.fail
  · apply Ends.ret
    refine ⟨hbs, ?_, hl'⟩
    rw [hsp]
    have e : slice mem 2 6 = bytesAt f.cur (o + 2) 6 := by
      have e1 : slice mem 0 data.length = data := by rw [hmem]; exact slice_put_same hm
      have e2 : slice mem 2 6 = slice data 2 6 := by
        rw [← e1]
        have : 8 ≤ data.length := by rw [hdl]; unfold bucketSize; omega
        unfold slice
        rw [List.drop_take, List.take_take, List.drop_zero]
        congr 1
        omega
      rw [e2, hd]
      have : 8 ≤ bucketSize ((bs - 8) / 18) := by unfold bucketSize; omega
      unfold slice bytesAt
      rw [List.drop_take, List.take_take, List.drop_drop]
      congr 1
      omega
    rw [e]
    exact C18_u48.reads _ (by unfold bytesAt; rw [List.length_take, List.length_drop]; omega)

theorem ends_ofMem {I : Fs → Prop} {bs : Nat} {p : Bytes} : Ends σ I C (M.lift (Bkt.ofMem bs p)) (fun b => b.bs = bs) := by
  refine Ends.lift nh_ofMem ?_
  intro a ha
  unfold Bkt.ofMem at ha
  unfold peek at ha
  split at ha
  · split at ha
    · cases ha; rfl
    · cases ha
  · cases ha

theorem ends_lookupFuel (hf : fs .dat = some f) : Ends σ (· = fs) C lookupFuel (fun n => n = f.cur.length + 2) := by
  intro w hi
  have hi : w.fs = fs := hi
  unfold wp lookupFuel
  dsimp only
  refine ⟨hi, ?_⟩
  rw [hi, hf]

theorem ends_fetchScan {I : Fs → Prop} {keySize h : Nat} {key : Bytes} {b : Bkt} : ∀ fuel i, b.size < fuel + i → 0 < fuel →
    Ends σ I C (fetchScan keySize h key b fuel i) (fun _ => True) := by
  intro fuel
  induction fuel with
  | zero => intro _ _ h; omega
  | succ n ih =>
    intro i hi _
    unfold fetchScan
    split
    · refine Ends.bind (Ends.liftT nh_get) fun e _ => ?_
      split
      · exact Ends.ret trivial
      · refine Ends.bind ends_fRead fun d _ => ?_
        split
        · exact Ends.ret trivial
        · exact ih _ (by omega) (by omega)
    · exact Ends.ret trivial

theorem ends_existsScan {I : Fs → Prop} {keySize h : Nat} {key : Bytes} {b : Bkt} : ∀ fuel i, b.size < fuel + i → 0 < fuel →
    Ends σ I C (existsScan keySize h key b fuel i) (fun _ => True) := by
  intro fuel
  induction fuel with
  | zero => intro _ _ h; omega
  | succ n ih =>
    intro i hi _
    unfold existsScan
    split
    · refine Ends.bind (Ends.liftT nh_get) fun e _ => ?_
      split
      · exact Ends.ret trivial
      · refine Ends.bind ends_fRead fun d _ => ?_
        split
        · exact Ends.ret trivial
        · exact ih _ (by omega) (by omega)
    · exact Ends.ret trivial

/-- One more bucket. -/
theorem Trail.more {D : Bytes} {room o n : Nat} (h0 : o ≠ 0) (hl : o + (8 + 18 * room) ≤ D.length)
    (h : Trail D room (n - 1) (linkAt D o)) : Trail D room n o := by
  cases n with
  | zero => trivial
  | succ n => exact ⟨h0, hl, h⟩

theorem ends_fetchBucket {kh : KeyHeader} {h : Nat} {key : Bytes} (hf : fs .dat = some f) (h104 : 104 ≤ kh.blockSize) :
    ∀ fuel (b : Bkt), Ends σ (· = fs) (Trail f.cur ((kh.blockSize - 8) / 18) (fuel - 1) b.spill)
      (fetchBucket c kh h key fuel b) (fun _ => True) := by
  intro fuel
  induction fuel with
  | zero => intro b; exact Ends.raise fun _ => trivial
  | succ n ih =>
    intro b
    unfold fetchBucket
    refine Ends.bind (Ends.liftT nh_lowerBound) fun i _ => ?_
    refine Ends.bind (ends_fetchScan _ _ (by omega) (by omega)) fun r _ => ?_
    split
    · exact Ends.ret trivial
    · split
      · exact Ends.fail
      · rename_i hs
        refine Ends.bind ends_ofMem fun nb hnb => ?_
        refine Ends.bind (ends_readFile hf hnb h104) fun nb' ⟨_, h2, h3⟩ => ?_
        refine (ih nb').mono (fun ht => ?_) (fun _ h => h)
        rw [h2] at ht
        exact ht.more hs h3

theorem ends_existsBucket {kh : KeyHeader} {h : Nat} {key : Bytes} (hf : fs .dat = some f) (h104 : 104 ≤ kh.blockSize) :
    ∀ fuel (b : Bkt), Ends σ (· = fs) (Trail f.cur ((kh.blockSize - 8) / 18) (fuel - 1) b.spill)
      (existsBucket c kh h key fuel b) (fun _ => True) := by
  intro fuel
  induction fuel with
  | zero => intro b; exact Ends.raise fun _ => trivial
  | succ n ih =>
    intro b
    unfold existsBucket
    refine Ends.bind (Ends.liftT nh_lowerBound) fun i _ => ?_
    refine Ends.bind (ends_existsScan _ _ (by omega) (by omega)) fun r _ => ?_
    split
    · exact Ends.ret trivial
    · split
      · exact Ends.ret trivial
      · rename_i hs
        refine Ends.bind ends_ofMem fun nb hnb => ?_
        refine Ends.bind (ends_readFile hf hnb h104) fun nb' ⟨_, h2, h3⟩ => ?_
        refine (ih nb').mono (fun ht => ?_) (fun _ h => h)
        rw [h2] at ht
        exact ht.more hs h3

/-- Some chain of overflow records does not end. -/
def Loops (D : Bytes) (bs : Nat) : Prop := ∃ o, Endless D ((bs - 8) / 18) o

theorem ends_fetch {s : Store} {key : Bytes} (hf : fs .dat = some f) (hk : ∃ g, fs .key = some g) (h104 : 104 ≤ s.kh.blockSize) :
    Ends σ (· = fs) (Loops f.cur s.kh.blockSize) (fetch c s key) (fun _ => True) := by
  obtain ⟨g, hg⟩ := hk
  have go : ∀ h n b, n = f.cur.length + 2 → Ends σ (· = fs) (Loops f.cur s.kh.blockSize) (fetchBucket c s.kh h key n b) (fun _ => True) := by
    rintro h n b rfl
    exact (ends_fetchBucket hf h104 _ b).mono (fun ht => ⟨_, Trail.endless ht⟩) (fun _ h => h)
  unfold fetch
  split
  · exact Ends.fail
  · dsimp only
    split
    · exact Ends.ret trivial
    · split
      · exact Ends.ret trivial
      · refine Ends.bind (Ends.liftT nh_bucketIndexA) fun i _ => ?_
        refine Ends.bind (ends_lookupFuel hf) fun n hn => ?_
        split
        · exact Ends.bind ends_ofMem fun b _ => go _ _ _ hn
        · refine Ends.bind ends_ofMem fun b hb => ?_
          exact Ends.bind (ends_readFile hg hb h104) fun b _ => go _ _ _ hn

theorem ends_insert {s : Store} {key data : Bytes} (hf : fs .dat = some f) (hk : ∃ g, fs .key = some g) (h104 : 104 ≤ s.kh.blockSize) :
    Ends σ (· = fs) (Loops f.cur s.kh.blockSize) (insert c s key data) (fun _ => True) := by
  obtain ⟨g, hg⟩ := hk
  have go : ∀ h n b, n = f.cur.length + 2 → Ends σ (· = fs) (Loops f.cur s.kh.blockSize) (existsBucket c s.kh h key n b) (fun _ => True) := by
    rintro h n b rfl
    exact (ends_existsBucket hf h104 _ b).mono (fun ht => ⟨_, Trail.endless ht⟩) (fun _ h => h)
  unfold insert
  split
  · exact Ends.fail
  · refine Ends.bind (Ends.liftT nh_assert) fun _ _ => ?_
    refine Ends.bind (Ends.liftT nh_assert) fun _ _ => ?_
    refine Ends.bind (R := fun _ => True) ?_ fun _ _ => ?_
    · unfold insertCheck
      split
      · exact Ends.fail
      · refine Ends.bind (Ends.liftT nh_bucketIndexA) fun i _ => ?_
        refine Ends.bind (ends_lookupFuel hf) fun n hn => ?_
        split
        · refine Ends.bind ends_ofMem fun b _ => ?_
          refine Ends.bind (go _ _ _ hn) fun r _ => ?_
          cases r
          · exact Ends.ret trivial
          · exact Ends.fail
        · refine Ends.bind ends_ofMem fun b hb => ?_
          refine Ends.bind (ends_readFile hg hb h104) fun b _ => ?_
          refine Ends.bind (go _ _ _ hn) fun r _ => ?_
          cases r
          · exact Ends.ret trivial
          · exact Ends.fail
    · exact Ends.bind (Ends.liftT (nh_bind nh_assert fun _ => nh_pure)) fun _ _ => Ends.ret trivial

/-! verify -/

theorem ends_shortAs {I : Fs → Prop} {e : Err} {m : M α} (h : Ends σ I C m R) (hm : Stays σ I m) :
    Ends σ I C (shortAs e m) R := by
  unfold shortAs
  refine Ends.bind (h.attempt' hm) fun r hr => ?_
  split
  · exact Ends.ret (hr _ rfl)
  · exact Ends.fail
  · exact Ends.fail

theorem stays_readFile {I : Fs → Prop} {b : Bkt} {p : Path} {o : Nat} : Stays σ I (b.readFile p o) := by
  unfold Bkt.readFile
  refine Stays.bind stays_fRead fun _ => Stays.bind Stays.lift fun _ => Stays.bind Stays.lift fun _ => ?_
  split
  · exact Stays.fail
  · exact Stays.ret

theorem stays_readBulk {I : Fs → Prop} {b : Bkt} {r : Reader} : Stays σ I (b.readBulk c r) :=
  Stays.bind (Stays.bind stays_prepare fun _ => Stays.bind Stays.lift fun _ => Stays.ret) fun _ =>
    Stays.bind stays_prepare fun _ => Stays.bind Stays.lift fun _ => Stays.ret

theorem ends_seekValue {h o bs : Nat} (hf : fs .dat = some f) (h104 : 104 ≤ bs) :
    ∀ fuel (b : Bkt) fetches, b.bs = bs → Ends σ (· = fs) (Trail f.cur ((bs - 8) / 18) (fuel - 1) b.spill)
      (seekValue h o fuel b fetches) (fun _ => True) := by
  intro fuel
  induction fuel with
  | zero => intro b _ _; exact Ends.raise fun _ => trivial
  | succ n ih =>
    intro b fetches hb
    unfold seekValue
    refine Ends.bind (Ends.liftT nh_lowerBound) fun i _ => ?_
    refine Ends.bind (Ends.liftT (nh_seekEntry _ _ _ (by omega) (by omega))) ?_
    rintro ⟨found, fetches⟩ _
    dsimp only
    split
    · exact Ends.ret trivial
    · split
      · exact Ends.fail
      · rename_i hs
        refine Ends.bind (ends_shortAs (ends_readFile hf hb h104) stays_readFile) fun nb' ⟨h1, h2, h3⟩ => ?_
        refine (ih nb' _ h1).mono (fun ht => ?_) (fun _ h => h)
        rw [h2] at ht
        exact ht.more hs h3

theorem ends_normalStep {kh : KeyHeader} {nwork last : Nat} {b : Bkt} {r : Reader} {work : Nat} {info : Info}
    (hf : fs .dat = some f) (hk : ∃ g, fs .key = some g) (h104 : 104 ≤ kh.blockSize) (hb : b.bs = kh.blockSize) (h : RGood last r) :
    Ends σ (· = fs) (Loops f.cur kh.blockSize) (normalStep c kh nwork b r work info)
      (fun x => x.1.bs = kh.blockSize ∧ RGood last x.2.1 ∧ r.pos + 6 ≤ x.2.1.pos) := by
  obtain ⟨g, hg⟩ := hk
  unfold normalStep
  dsimp only
  refine Ends.bind h.prepare ?_
  rintro ⟨is, r1⟩ ⟨h1, e1⟩
  dsimp only at h1 e1 ⊢
  refine Ends.bind (Ends.liftT nh_getSize48) fun size _ => ?_
  split
  · refine Ends.bind h1.prepare ?_
    rintro ⟨is, r2⟩ ⟨h2, e2⟩
    dsimp only at h2 e2 ⊢
    refine Ends.bind (Ends.liftT nh_bucketIndexA) fun n _ => ?_
    refine Ends.bind (ends_readFile hg hb h104) fun b' ⟨hb', _, _⟩ => ?_
    refine Ends.bind (ends_lookupFuel hf) fun n hn => ?_
    refine Ends.bind (R := fun _ => True) ?_ fun _ _ => ?_
    · subst hn
      exact (ends_seekValue hf h104 _ _ _ hb').mono (fun ht => ⟨_, Trail.endless ht⟩) (fun _ h => h)
    · refine Ends.bind ends_emit fun _ _ => ?_
      exact Ends.ret ⟨hb', h2, by dsimp only; omega⟩
  · refine Ends.bind (ends_shortAs h1.prepare stays_prepare) ?_
    rintro ⟨is, r2⟩ ⟨h2, e2⟩
    dsimp only at h2 e2 ⊢
    split
    · exact Ends.fail
    · refine Ends.bind (ends_shortAs (ends_readBulk h2) stays_readBulk) ?_
      rintro ⟨b', r3⟩ ⟨h3, e3, hb'⟩
      dsimp only at h3 e3 hb' ⊢
      refine Ends.bind ends_emit fun _ _ => ?_
      exact Ends.ret ⟨hb'.trans hb, h3, by dsimp only; omega⟩

theorem ends_normalScan {kh : KeyHeader} {nwork last : Nat}
    (hf : fs .dat = some f) (hk : ∃ g, fs .key = some g) (h104 : 104 ≤ kh.blockSize) : ∀ fuel (b : Bkt) (r : Reader) work info,
    b.bs = kh.blockSize → RSome last r → last - r.pos < fuel →
    Ends σ (· = fs) (Loops f.cur kh.blockSize) (normalScan c kh nwork fuel b r work info) (fun x => x.1.bs = kh.blockSize) := by
  intro fuel
  induction fuel with
  | zero => intro _ _ _ _ _ _ h; omega
  | succ n ih =>
    intro b r work info hb h hl
    unfold normalScan
    split
    · exact Ends.ret hb
    · rename_i he
      obtain ⟨h, hp⟩ := h.good he
      refine Ends.bind (ends_normalStep hf hk h104 hb h) ?_
      rintro ⟨b', r', work', info'⟩ ⟨h1, h2, h3⟩
      dsimp only at h1 h2 h3
      have := h2.le
      exact ih _ _ _ _ h1 (.inl h2) (by omega)

theorem ends_normalEntries {I : Fs → Prop} {kh : KeyHeader} {b : Bkt} {spill : Bool} : ∀ fuel i work, b.size < fuel + i → 0 < fuel →
    Ends σ I C (normalEntries c kh b spill fuel i work) (fun _ => True) := by
  intro fuel
  induction fuel with
  | zero => intro _ _ _ h; omega
  | succ n ih =>
    intro i work hi _
    unfold normalEntries
    split
    · refine Ends.bind (Ends.liftT nh_get) fun e _ => ?_
      refine Ends.bind (ends_shortAs ends_fRead stays_fRead) fun d _ => ?_
      dsimp only
      generalize (if spill = true then work else work + adjusted kh.blockSize) = work'
      split
      · exact Ends.fail
      · split
        · exact Ends.fail
        · exact ih _ _ (by omega) (by omega)
    · exact Ends.ret trivial

theorem ends_normalChain {kh : KeyHeader} (hf : fs .dat = some f) (h104 : 104 ≤ kh.blockSize) :
    ∀ fuel (b : Bkt) spill work nspill info, b.bs = kh.blockSize →
    Ends σ (· = fs) (Trail f.cur ((kh.blockSize - 8) / 18) (fuel - 1) b.spill)
      (normalChain c kh fuel b spill work nspill info) (fun x => x.1.bs = kh.blockSize) := by
  intro fuel
  induction fuel with
  | zero => intro b _ _ _ _ _; exact Ends.raise fun _ => trivial
  | succ n ih =>
    intro b spill work nspill info hb
    unfold normalChain
    dsimp only
    refine Ends.bind (ends_normalEntries _ _ _ (by omega) (by omega)) fun w _ => ?_
    split
    · exact Ends.ret hb
    · rename_i hs
      refine Ends.bind (ends_readFile hf hb h104) fun nb' ⟨h1, h2, h3⟩ => ?_
      refine (ih nb' _ _ _ _ h1).mono (fun ht => ?_) (fun _ h => h)
      rw [h2] at ht
      exact ht.more hs h3

theorem ends_normalBuckets {kh : KeyHeader} {nwork : Nat} (hf : fs .dat = some f) (hk : ∃ g, fs .key = some g)
    (h104 : 104 ≤ kh.blockSize) : ∀ k n (b : Bkt) work info, b.bs = kh.blockSize →
    Ends σ (· = fs) (Loops f.cur kh.blockSize) (normalBuckets c kh nwork k n b work info) (fun _ => True) := by
  obtain ⟨g, hg⟩ := hk
  intro k
  induction k with
  | zero => intro _ _ _ _ _; exact Ends.ret trivial
  | succ k ih =>
    intro n b work info hb
    unfold normalBuckets
    refine Ends.bind (ends_readFile hg hb h104) fun b' ⟨hb', _, _⟩ => ?_
    refine Ends.bind (ends_lookupFuel hf) fun m hm => ?_
    refine Ends.bind (R := fun x => x.1.bs = kh.blockSize) ?_ ?_
    · subst hm
      exact (ends_normalChain hf h104 _ _ _ _ _ _ hb').mono (fun ht => ⟨_, Trail.endless ht⟩) (fun _ h => h)
    rintro ⟨b2, w2, n2, i2⟩ h2
    refine Ends.bind ends_emit fun _ _ => ?_
    exact ih _ _ _ _ h2

theorem ends_verifyNormal {kh : KeyHeader} {dsize ksize : Nat} (hf : fs .dat = some f) (hk : ∃ g, fs .key = some g)
    (h104 : 104 ≤ kh.blockSize) :
    Ends σ (· = fs) (Loops f.cur kh.blockSize) (verifyNormal c kh dsize ksize) (fun _ => True) := by
  unfold verifyNormal
  dsimp only
  refine Ends.bind ends_emit fun _ _ => ?_
  refine Ends.bind ends_ofMem fun b hb => ?_
  refine Ends.bind (ends_normalScan (last := dsize) hf hk h104 _ _ _ _ _ hb rsome_new (by omega)) fun x hx => ?_
  exact ends_normalBuckets hf hk h104 _ _ _ _ _ hx

theorem ends_fastCount {bs : Nat} (hf : fs .dat = some f) (h104 : 104 ≤ bs) :
    ∀ fuel spill (tmp : Bkt) nkeys nspill info, tmp.bs = bs →
    Ends σ (· = fs) (Trail f.cur ((bs - 8) / 18) fuel spill) (fastCount fuel spill tmp nkeys nspill info)
      (fun x => x.1.bs = bs) := by
  intro fuel
  induction fuel with
  | zero => intro _ _ _ _ _ _; exact Ends.raise fun _ => trivial
  | succ n ih =>
    intro spill tmp nkeys nspill info hb
    unfold fastCount
    split
    · rename_i hs
      refine Ends.bind (ends_shortAs (ends_readFile hf hb h104) stays_readFile) fun nb' ⟨h1, h2, h3⟩ => ?_
      refine (ih _ nb' _ _ _ h1).mono (fun ht => ?_) (fun _ h => h)
      rw [h2] at ht
      exact ⟨hs, h3, ht⟩
    · exact Ends.ret hb

theorem Trail.take {D : Bytes} {room : Nat} : ∀ {m n o}, Trail D room n o → m ≤ n → Trail D room m o := by
  intro m
  induction m with
  | zero => intro _ _ _ _; trivial
  | succ m ih =>
    intro n o h hm
    cases n with
    | zero => omega
    | succ n => exact ⟨h.1, h.2.1, ih h.2.2 (by omega)⟩

theorem ends_fastCounts {bs : Nat} {mem : Bytes} (hf : fs .dat = some f) (h104 : 104 ≤ bs) :
    ∀ k i (tmp : Bkt) info, tmp.bs = bs →
    Ends σ (· = fs) (Loops f.cur bs) (fastCounts bs mem k i tmp info) (fun x => x.1.bs = bs) := by
  intro k
  induction k with
  | zero => intro _ _ _ h; exact Ends.ret h
  | succ k ih =>
    intro i tmp info hb
    unfold fastCounts
    refine Ends.bind ends_ofMem fun b _ => ?_
    refine Ends.bind (ends_lookupFuel hf) fun m hm => ?_
    refine Ends.bind (R := fun x => x.1.bs = bs) ?_ ?_
    · subst hm
      exact (ends_fastCount hf h104 _ _ _ _ _ _ hb).mono (fun ht => ⟨_, Trail.endless (ht.take (by omega))⟩) (fun _ h => h)
    rintro ⟨b2, w2, n2, i2⟩ h2
    refine Ends.bind (ih _ _ _ h2) ?_
    rintro ⟨b3, w3, n3⟩ h3
    exact Ends.ret h3

theorem ends_seekValueFast {h o bs : Nat} (hf : fs .dat = some f) (h104 : 104 ≤ bs) :
    ∀ fuel (b tmp : Bkt) fetches, tmp.bs = bs → Ends σ (· = fs) (Trail f.cur ((bs - 8) / 18) (fuel - 1) b.spill)
      (seekValueFast h o fuel b tmp fetches) (fun x => x.2.bs = bs) := by
  intro fuel
  induction fuel with
  | zero => intro _ _ _ _; exact Ends.raise fun _ => trivial
  | succ n ih =>
    intro b tmp fetches hb
    unfold seekValueFast
    refine Ends.bind (Ends.liftT nh_lowerBound) fun i _ => ?_
    refine Ends.bind (Ends.liftT (nh_seekEntry _ _ _ (by omega) (by omega))) ?_
    rintro ⟨found, fetches⟩ _
    dsimp only
    split
    · exact Ends.ret hb
    · split
      · exact Ends.fail
      · rename_i hs
        refine Ends.bind (ends_shortAs (ends_readFile hf hb h104) stays_readFile) fun nb' ⟨h1, h2, h3⟩ => ?_
        refine (ih nb' { tmp with p := nb'.p } _ hb).mono (fun ht => ?_) (fun _ h => h)
        rw [h2] at ht
        exact ht.more hs h3

theorem ends_fastStep {kh : KeyHeader} {b0 b1 work nwork last : Nat} {mem : Bytes} {tmp : Bkt} {nkeys : List Nat} {r : Reader}
    {info : Info} (hf : fs .dat = some f) (h104 : 104 ≤ kh.blockSize) (hb : tmp.bs = kh.blockSize) (h : RGood last r) :
    Ends σ (· = fs) (Loops f.cur kh.blockSize) (fastStep c kh b0 b1 work nwork mem tmp nkeys r info)
      (fun x => x.1.bs = kh.blockSize ∧ RGood last x.2.2.1 ∧ r.pos + 6 ≤ x.2.2.1.pos) := by
  unfold fastStep
  dsimp only
  refine Ends.bind (ends_shortAs h.prepare stays_prepare) ?_
  rintro ⟨is, r1⟩ ⟨h1, e1⟩
  dsimp only at h1 e1 ⊢
  refine Ends.bind (Ends.liftT nh_getSize48) fun size _ => ?_
  split
  · refine Ends.bind (ends_shortAs h1.prepare stays_prepare) ?_
    rintro ⟨is, r2⟩ ⟨h2, e2⟩
    dsimp only at h2 e2 ⊢
    refine Ends.bind (Ends.liftT nh_bucketIndexA) fun n _ => ?_
    split
    · exact Ends.ret ⟨hb, h2, by dsimp only; omega⟩
    · refine Ends.bind ends_ofMem fun b _ => ?_
      refine Ends.bind (ends_lookupFuel hf) fun n hn => ?_
      refine Ends.bind (R := fun x => x.2.bs = kh.blockSize) ?_ ?_
      · subst hn
        exact (ends_seekValueFast hf h104 _ _ _ _ hb).mono (fun ht => ⟨_, Trail.endless ht⟩) (fun _ h => h)
      rintro ⟨x, tmp'⟩ hb'
      dsimp only at hb' ⊢
      split
      · exact Ends.fail
      · refine Ends.bind ends_emit fun _ _ => ?_
        exact Ends.ret ⟨hb', h2, by dsimp only; omega⟩
  · refine Ends.bind (ends_shortAs h1.prepare stays_prepare) ?_
    rintro ⟨is, r2⟩ ⟨h2, e2⟩
    dsimp only at h2 e2 ⊢
    split
    · exact Ends.fail
    · refine Ends.bind (ends_shortAs h2.prepare stays_prepare) ?_
      rintro ⟨is, r3⟩ ⟨h3, e3⟩
      dsimp only at h3 e3 ⊢
      refine Ends.bind ends_emit fun _ _ => ?_
      exact Ends.ret ⟨hb, h3, by dsimp only; omega⟩

theorem ends_fastScan {kh : KeyHeader} {b0 b1 work nwork last : Nat} {mem : Bytes}
    (hf : fs .dat = some f) (h104 : 104 ≤ kh.blockSize) : ∀ fuel (tmp : Bkt) (nkeys : List Nat) (r : Reader) info,
    tmp.bs = kh.blockSize → RSome last r → last - r.pos < fuel →
    Ends σ (· = fs) (Loops f.cur kh.blockSize) (fastScan c kh b0 b1 work nwork mem fuel tmp nkeys r info)
      (fun x => x.1.bs = kh.blockSize) := by
  intro fuel
  induction fuel with
  | zero => intro _ _ _ _ _ _ h; omega
  | succ n ih =>
    intro tmp nkeys r info hb h hl
    unfold fastScan
    split
    · exact Ends.ret hb
    · rename_i he
      obtain ⟨h, hp⟩ := h.good he
      refine Ends.bind (ends_fastStep hf h104 hb h) ?_
      rintro ⟨b', nk', r', info'⟩ ⟨h1, h2, h3⟩
      dsimp only at h1 h2 h3
      have := h2.le
      exact ih _ _ _ _ h1 (.inl h2) (by omega)

theorem ends_fastChunks {kh : KeyHeader} {dsize chunk nwork : Nat} (hc : 1 ≤ chunk) (hf : fs .dat = some f)
    (h104 : 104 ≤ kh.blockSize) : ∀ fuel b0 work mem (tmp : Bkt) info, tmp.bs = kh.blockSize → kh.buckets - b0 < fuel →
    Ends σ (· = fs) (Loops f.cur kh.blockSize) (fastChunks c kh dsize chunk nwork fuel b0 work mem tmp info) (fun _ => True) := by
  intro fuel
  induction fuel with
  | zero => intro _ _ _ _ _ _ h; omega
  | succ n ih =>
    intro b0 work mem tmp info hb hl
    unfold fastChunks
    split
    · refine Ends.bind ends_fRead fun d _ => ?_
      refine Ends.bind (Ends.liftT nh_poke) fun mem _ => ?_
      dsimp only
      refine Ends.bind ends_emit fun _ _ => ?_
      refine Ends.bind (ends_fastCounts hf h104 _ _ _ _ hb) ?_
      rintro ⟨b1, nk1, info1⟩ h1
      refine Ends.bind (ends_fastScan (last := dsize) hf h104 _ _ _ _ _ h1 rsome_new (by omega)) ?_
      rintro ⟨b2, nk2, info2⟩ h2
      dsimp only
      split
      · exact Ends.fail
      · exact ih _ _ _ _ _ h2 (by omega)
    · exact Ends.ret trivial

theorem ends_verifyFast {kh : KeyHeader} {dsize ksize n : Nat} (hn : 1 ≤ fastChunk kh n) (hf : fs .dat = some f)
    (h104 : 104 ≤ kh.blockSize) :
    Ends σ (· = fs) (Loops f.cur kh.blockSize) (verifyFast c kh dsize ksize n) (fun _ => True) := by
  unfold verifyFast
  split
  · exact Ends.raise (fun h => by cases h)
  · dsimp only
    refine Ends.bind ends_emit fun _ _ => ?_
    refine Ends.bind ends_ofMem fun b hb => ?_
    exact ends_fastChunks hn hf h104 _ _ _ _ _ _ hb (by omega)

end

end NuDB
