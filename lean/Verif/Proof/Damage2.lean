import Verif.Proof.Damage
/- The store on files with arbitrary content. -/
namespace NuDB

open Spec

/-- These files exist. -/
def Has (S : List Path) (fs : Fs) : Prop := ∀ p ∈ S, ∃ f, fs p = some f

/-- Exceptional endings without undefined behaviour. -/
def Tame (σ : Schedule) (P : Fs → Prop) : Exc → World → Prop := fun x w =>
  x ≠ .ub ∧ x ≠ .throw ∧ (x = .crash → Faulty σ) ∧ P w.fs

section basics
variable {σ : Schedule} {S : List Path} {P : Fs → Prop} {w : World}

theorem Has.set {fs : Fs} (h : Has S fs) (p : Path) (f : FileSt) : Has S (fs.set p (some f)) := by
  intro q hq
  unfold Fs.set
  split
  · exact ⟨f, rfl⟩
  · exact h q hq

theorem Tame.fault {x : Exc} (hx : IsFault x) (hf : Faulty σ) (h : P w.fs) : Tame σ P x w := by
  rcases hx with rfl | rfl
  · exact ⟨(fun h => by cases h), (fun h => by cases h), fun _ => hf, h⟩
  · exact ⟨(fun h => by cases h), (fun h => by cases h), (fun h => by cases h), h⟩

theorem Tame.err (e : Err) (h : P w.fs) : Tame σ P (.err e) w :=
  ⟨(fun h => by cases h), (fun h => by cases h), (fun h => by cases h), h⟩

theorem Tame.abort (h : P w.fs) : Tame σ P .abort w :=
  ⟨(fun h => by cases h), (fun h => by cases h), (fun h => by cases h), h⟩

theorem Tame.hang (h : P w.fs) : Tame σ P .hang w :=
  ⟨(fun h => by cases h), (fun h => by cases h), (fun h => by cases h), h⟩

theorem wp_rp {α : Type} {r : Res α} {R : α → Prop} {Q : α → World → Prop} (h : rp r R) (hs : P w.fs) (hq : ∀ a, R a → Q a w) :
    wp σ (M.lift r) Q (Tame σ P) w := by
  cases r with
  | ok a => exact hq a h
  | error x =>
    have h : x = .abort := h
    subst h
    exact Tame.abort hs

theorem dfRead {p : Path} {o n : Nat} {Q : Bytes → World → Prop} (hp : ∃ f, w.fs p = some f) (hs : P w.fs)
    (hq : ∀ bs w', bs.length = n → w'.fs = w.fs → Q bs w') : wp σ (fRead p o n) Q (Tame σ P) w := by
  obtain ⟨f, hf⟩ := hp
  by_cases hl : o + n ≤ f.cur.length
  · exact wp_fRead hf hl (hq _ _ (slice_length_of_le hl) rfl) (fun x hx h => Tame.fault hx h hs)
  · by_cases hn : n = 0
    · subst hn
      unfold fRead
      apply wp_fileOp
      · simp only [hf, true_or, if_true]; exact hq _ _ (by simp) rfl
      · intro k h; exact Tame.fault (.inr rfl) h hs
      · intro k h; exact Tame.fault (.inl rfl) h hs
    · exact wp_fRead_short hf hn (by omega) (Tame.err _ hs) (fun x hx h => Tame.fault hx h hs)

theorem dfSize {p : Path} {Q : Nat → World → Prop} {f : FileSt} (hf : w.fs p = some f) (hs : P w.fs)
    (hq : ∀ w', w'.fs = w.fs → Q f.cur.length w') : wp σ (fSize p) Q (Tame σ P) w :=
  wp_fSize hf (hq _ rfl) (fun _ hx h => Tame.fault hx h hs)

theorem dfSync {p : Path} {f : FileSt} {Q : Unit → World → Prop} (hf : w.fs p = some f) (hs : P w.fs)
    (hq : ∀ w', w'.fs = w.fs.set p (some f.synced) → Q () w') : wp σ (fSync p) Q (Tame σ P) w :=
  wp_fSync hf (hq _ rfl) (fun _ hx h => Tame.fault hx h hs)

theorem dfTrunc {p : Path} {n : Nat} {f : FileSt} {Q : Unit → World → Prop} (hf : w.fs p = some f) (hs : P w.fs)
    (hq : ∀ w', w'.fs = w.fs.set p (some (f.push (.trunc n))) → Q () w') : wp σ (fTrunc p n) Q (Tame σ P) w :=
  wp_fTrunc hf (hq _ rfl) (fun _ hx h => Tame.fault hx h hs)

theorem dfWrite {p : Path} {o : Nat} {bs : Bytes} {f : FileSt} {Q : Unit → World → Prop} (hf : w.fs p = some f) (hs : Has S w.fs)
    (hq : ∀ w', w'.fs = w.fs.set p (some (f.push (.write o bs))) → Q () w') : wp σ (fWrite p o bs) Q (Tame σ (Has S)) w :=
  wp_fWrite hf (hq _ rfl) (fun _ _ hx h => Tame.fault hx h (hs.set _ _))

theorem dfAppend {p : Path} {o : Nat} {bs : Bytes} {f : FileSt} {Q : Unit → World → Prop} (hf : w.fs p = some f) (ho : o = f.cur.length)
    (hs : Has S w.fs)
    (hq : ∀ w', w'.fs = w.fs.set p (some (f.push (.write o bs))) → Q () w') : wp σ (fAppend p o bs) Q (Tame σ (Has S)) w :=
  wp_fAppend hf ho (hq _ rfl) (fun _ _ hx h => Tame.fault hx h (hs.set _ _))

theorem wp_lookupFuel {Q : Nat → World → Prop} {X : Exc → World → Prop} (h : ∀ n, Q n w) : wp σ lookupFuel Q X w := by
  unfold wp lookupFuel
  exact h _

/-- Reading a bucket from a file. -/
theorem dreadFile {bs : Nat} {b : Bkt} {p : Path} {o : Nat} {Q : Bkt → World → Prop} (hp : ∃ f, w.fs p = some f) (hs : P w.fs)
    (hc : 1 ≤ bucketCapacity bs) (hb : b.bs = bs) (hl : bs ≤ b.p.length)
    (hq : ∀ b' w', b'.bs = bs → b'.p.length = b.p.length → b'.size ≤ bucketCapacity bs → getU16 (slice b'.p 0 2) = b'.size →
      w'.fs = w.fs → Q b' w') :
    wp σ (b.readFile p o) Q (Tame σ P) w := by
  have := cap_room hc
  unfold Bkt.readFile
  dsimp only
  apply wp_bind
  apply dfRead hp hs
  intro data w1 hd h1
  have hs1 : P w1.fs := by rw [h1]; exact hs
  rw [hb] at hd
  unfold bucketSize at hd
  apply wp_bind
  apply wp_rp (rp_poke (by omega) rfl) hs1
  rintro _ rfl
  apply wp_bind
  have hl2 : (put b.p 0 data).length = b.p.length := put_length (by omega)
  apply wp_rp (rp_ofMem' (by omega)) hs1
  intro b' ⟨e1, e2, e3⟩
  split
  · exact wp_fail (Tame.err _ hs1)
  · rename_i hz
    refine wp_ret (hq _ _ (by rw [e1, hb]) (by rw [e2]; exact hl2) (by rw [hb] at hz; omega) (by rw [e2, e3]) h1)

end basics


section store
variable {σ : Schedule} {c : Cfg} {P : Fs → Prop} {bs : Nat}

theorem dfetchScan {keySize h : Nat} {key : Bytes} {b : Bkt} (hl : 8 + 18 * b.size ≤ b.p.length) :
    ∀ (fuel i : Nat) (w : World), (∃ f, w.fs .dat = some f) → P w.fs →
    wp σ (fetchScan keySize h key b fuel i) (fun _ w' => w'.fs = w.fs) (Tame σ P) w := by
  intro fuel
  induction fuel with
  | zero => intro i w hd hs; exact wp_raise (Tame.hang hs)
  | succ n ih =>
    intro i w hd hs
    unfold fetchScan
    split
    · apply wp_bind
      apply wp_rp (rp_get (by omega)) hs
      intro e _
      split
      · exact wp_ret rfl
      · apply wp_bind
        apply dfRead hd hs
        intro buf w1 _ h1
        split
        · exact wp_ret h1
        · refine wp_post (ih _ w1 (by rw [h1]; exact hd) (by rw [h1]; exact hs)) fun a w' h' => h'.trans h1
    · exact wp_ret rfl

theorem dexistsScan {keySize h : Nat} {key : Bytes} {b : Bkt} (hl : 8 + 18 * b.size ≤ b.p.length) :
    ∀ (fuel i : Nat) (w : World), (∃ f, w.fs .dat = some f) → P w.fs →
    wp σ (existsScan keySize h key b fuel i) (fun _ w' => w'.fs = w.fs) (Tame σ P) w := by
  intro fuel
  induction fuel with
  | zero => intro i w hd hs; exact wp_raise (Tame.hang hs)
  | succ n ih =>
    intro i w hd hs
    unfold existsScan
    split
    · apply wp_bind
      apply wp_rp (rp_get (by omega)) hs
      intro e _
      split
      · exact wp_ret rfl
      · apply wp_bind
        apply dfRead hd hs
        intro buf w1 _ h1
        split
        · exact wp_ret h1
        · refine wp_post (ih _ w1 (by rw [h1]; exact hd) (by rw [h1]; exact hs)) fun a w' h' => h'.trans h1
    · exact wp_ret rfl

/-- A bucket read into fresh memory. -/
theorem dreadFresh {β : Type} {p : Path} {o : Nat} {k : Bkt → M β} {Q : β → World → Prop} {w : World} (hc : 1 ≤ bucketCapacity bs)
    (hp : ∃ f, w.fs p = some f) (hs : P w.fs)
    (hk : ∀ b w', Fine bs b → w'.fs = w.fs → wp σ (k b) Q (Tame σ P) w') :
    wp σ (M.lift (Bkt.ofMem bs (c.fresh bs)) >>= fun b => b.readFile p o >>= k) Q (Tame σ P) w := by
  have := cap_room hc
  apply wp_bind
  apply wp_rp (rp_ofMem' (by simp; omega)) hs
  intro b ⟨h1, h2, _⟩
  apply wp_bind
  have hl : b.p.length = bs := by rw [h2]; simp
  refine dreadFile hp hs hc h1 (by omega) ?_
  intro b' w' g1 g2 g3 g4 g5
  exact hk b' w' ⟨g1, by omega, g3, g4⟩ g5

theorem dfetchBucket {kh : KeyHeader} {h : Nat} {key : Bytes} (hc : 1 ≤ bucketCapacity kh.blockSize) :
    ∀ (fuel : Nat) (b : Bkt) (w : World), (∃ f, w.fs .dat = some f) → P w.fs → Fine kh.blockSize b →
    wp σ (fetchBucket c kh h key fuel b) (fun _ w' => w'.fs = w.fs) (Tame σ P) w := by
  intro fuel
  induction fuel with
  | zero => intro b w hd hs hb; exact wp_raise (Tame.hang hs)
  | succ n ih =>
    intro b w hd hs hb
    have hr := hb.room hc
    have hl := hb.len
    unfold fetchBucket
    apply wp_bind
    apply wp_rp (rp_lowerBound (by omega)) hs
    intro i _
    apply wp_bind
    refine wp_post (dfetchScan (by omega) _ _ w hd hs) ?_
    intro r w1 h1
    split
    · exact wp_ret h1
    · split
      · exact wp_fail (Tame.err _ (by rw [h1]; exact hs))
      · refine dreadFresh hc (by rw [h1]; exact hd) (by rw [h1]; exact hs) ?_
        intro b2 w2 g2 h2
        refine wp_post (ih b2 w2 (by rw [h2, h1]; exact hd) (by rw [h2, h1]; exact hs) g2) fun a w' h' => h'.trans (h2.trans h1)

theorem dexistsBucket {kh : KeyHeader} {h : Nat} {key : Bytes} (hc : 1 ≤ bucketCapacity kh.blockSize) :
    ∀ (fuel : Nat) (b : Bkt) (w : World), (∃ f, w.fs .dat = some f) → P w.fs → Fine kh.blockSize b →
    wp σ (existsBucket c kh h key fuel b) (fun _ w' => w'.fs = w.fs) (Tame σ P) w := by
  intro fuel
  induction fuel with
  | zero => intro b w hd hs hb; exact wp_raise (Tame.hang hs)
  | succ n ih =>
    intro b w hd hs hb
    have hr := hb.room hc
    have hl := hb.len
    unfold existsBucket
    apply wp_bind
    apply wp_rp (rp_lowerBound (by omega)) hs
    intro i _
    apply wp_bind
    refine wp_post (dexistsScan (by omega) _ _ w hd hs) ?_
    intro r w1 h1
    split
    · exact wp_ret h1
    · split
      · exact wp_ret h1
      · refine dreadFresh hc (by rw [h1]; exact hd) (by rw [h1]; exact hs) ?_
        intro b2 w2 g2 h2
        refine wp_post (ih b2 w2 (by rw [h2, h1]; exact hd) (by rw [h2, h1]; exact hs) g2) fun a w' h' => h'.trans (h2.trans h1)

theorem rp_bucketIndexA {h B m : Nat} : rp (bucketIndexA h B m) (fun n => n = bucketIndex h B m) := by
  unfold bucketIndexA
  apply rp_assert
  intro _
  rfl

/-- The open store with files of arbitrary content. -/
structure Kept' (s : Store) (fs : Fs) : Prop where
  cap : 1 ≤ bucketCapacity s.kh.blockSize
  buckets : 1 ≤ s.buckets
  modulus : IsModulus s.buckets s.modulus
  files : Has [.dat, .key, .log] fs
  calm : s.ec = none → s.c1 = [] ∧ ∃ f, fs .log = some f ∧ f.cur = []

theorem Has.dat {fs : Fs} (h : Has [.dat, .key, .log] fs) : ∃ f, fs .dat = some f := h _ (by simp)
theorem Has.key {fs : Fs} (h : Has [.dat, .key, .log] fs) : ∃ f, fs .key = some f := h _ (by simp)
theorem Has.log {fs : Fs} (h : Has [.dat, .key, .log] fs) : ∃ f, fs .log = some f := h _ (by simp)

theorem dfetch {s : Store} {key : Bytes} {w : World} (h : Kept' s w.fs) :
    wp σ (fetch c s key) (fun _ w' => w'.fs = w.fs) (Tame σ (· = w.fs)) w := by
  unfold fetch
  cases he : s.ec with
  | some e => exact wp_fail (Tame.err _ rfl)
  | none =>
  dsimp only
  split
  · exact wp_ret rfl
  split
  · exact wp_ret rfl
  apply wp_bind
  refine wp_rp (P := fun fs => fs = w.fs) rp_bucketIndexA rfl ?_
  intro n _
  apply wp_bind
  apply wp_lookupFuel
  intro fuel
  have hn : s.c1.find n = none := by rw [(h.calm he).1]; rfl
  rw [hn]
  dsimp only
  refine dreadFresh h.cap h.files.key rfl ?_
  intro b w1 hb h1
  refine wp_post (dfetchBucket h.cap _ _ w1 (by rw [h1]; exact h.files.dat) h1 hb) fun a w' h' => h'.trans h1

theorem dinsert {s : Store} {key data : Bytes} {w : World} (h : Kept' s w.fs) :
    wp σ (insert c s key data) (fun s' w' => w'.fs = w.fs ∧ Kept' s' w'.fs) (Tame σ (· = w.fs)) w := by
  unfold insert
  cases he : s.ec with
  | some e => exact wp_fail (Tame.err _ rfl)
  | none =>
  dsimp only
  apply wp_bind
  refine wp_rp (R := fun _ => True) (by unfold assert; split <;> trivial) rfl fun _ _ => ?_
  apply wp_bind
  refine wp_rp (R := fun _ => True) (by unfold assert; split <;> trivial) rfl fun _ _ => ?_
  apply wp_bind
  refine wp_post (Q := fun _ w' => w'.fs = w.fs) ?_ ?_
  · unfold insertCheck
    split
    · exact wp_fail (Tame.err _ rfl)
    apply wp_bind
    refine wp_rp (P := fun fs => fs = w.fs) rp_bucketIndexA rfl ?_
    intro n _
    apply wp_bind
    apply wp_lookupFuel
    intro fuel
    have hn : s.c1.find n = none := by rw [(h.calm he).1]; rfl
    rw [hn]
    dsimp only
    refine dreadFresh h.cap h.files.key rfl ?_
    intro b w1 hb h1
    apply wp_bind
    refine wp_post (dexistsBucket h.cap _ _ w1 (by rw [h1]; exact h.files.dat) h1 hb) fun a w' h' => ?_
    have h' := h'.trans h1
    split
    · exact wp_fail (Tame.err _ h')
    · exact wp_ret h'
  · intro _ w1 h1
    apply wp_bind
    refine wp_rp (R := fun _ => True) (by unfold Pool.insert; apply rp_assert; intro _; trivial) h1 fun p1 _ => ?_
    refine wp_ret ⟨h1, ?_⟩
    rw [h1]
    exact ⟨h.cap, h.buckets, h.modulus, h.files, fun _ => h.calm he⟩

end store

end NuDB
