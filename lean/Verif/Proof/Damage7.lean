import Verif.Proof.Damage6
import Verif.Spec.Damage
import Verif.Proof.VerifySound4
/- `verify` on files with almost arbitrary content. -/
namespace NuDB

open Spec

section
variable {σ : Schedule} {c : Cfg} {P : Fs → Prop} {w : World} {bs : Nat}

theorem dshortAs {α : Type} {m : M α} {e : Err} {Q : α → World → Prop} (h : wp σ m Q (Tame σ P) w) : wp σ (shortAs e m) Q (Tame σ P) w := by
  unfold shortAs
  apply wp_bind
  apply wp_attempt
  refine wp_conseq h ?_ ?_
  · intro a w1 h1; exact wp_ret h1
  · intro x w1 hx
    cases x with
    | err e' =>
      have := hx.2.2.2
      dsimp only
      split
      · rename_i h'; cases h'
      · exact wp_fail (Tame.err _ this)
      · exact wp_fail (Tame.err _ this)
    | _ => exact hx

/-- A bucket in memory that holds all its entries. -/
structure HeldIn (bs L : Nat) (b : Bkt) : Prop where
  block : b.bs = bs
  len : b.p.length = L
  room : 8 + 18 * b.size ≤ L

theorem rp_seekEntry {h off : Nat} {b : Bkt} (hl : 8 + 18 * b.size ≤ b.p.length) : ∀ (fuel i f : Nat), b.size < fuel + i →
    rp (seekEntry h off b fuel i f) (fun _ => True) ∨ b.size < i := by
  intro fuel
  induction fuel with
  | zero => intro i f hi; right; omega
  | succ fuel ih =>
    intro i f hi
    by_cases hb : b.size < i
    · exact .inr hb
    left
    unfold seekEntry
    split
    · apply rp_bind
      refine rp_post (rp_get (by omega)) fun it _ => ?_
      split
      · trivial
      split
      · trivial
      rcases ih (i + 1) (f + 1) (by omega) with h | h
      · exact h
      · omega
    · trivial

theorem rp_seek {h off : Nat} {b : Bkt} (hl : 8 + 18 * b.size ≤ b.p.length) {i f : Nat} (hi : i ≤ b.size) :
    rp (seekEntry h off b (b.size + 1) i f) (fun _ => True) := by
  rcases rp_seekEntry (h := h) (off := off) hl (b.size + 1) i f (by omega) with h | h
  · exact h
  · omega

theorem dheld {L : Nat} {b : Bkt} {p : Path} {o : Nat} {Q : Bkt → World → Prop} (hc : 1 ≤ bucketCapacity bs) (hp : ∃ f, w.fs p = some f)
    (hs : P w.fs) (hb : b.bs = bs) (hl : b.p.length = L) (hL : bs ≤ L) (hq : ∀ b' w', HeldIn bs L b' → w'.fs = w.fs → Q b' w') :
    wp σ (b.readFile p o) Q (Tame σ P) w := by
  have := cap_room hc
  refine dreadFile hp hs hc hb (by omega) ?_
  intro b' w1 h1 h2 h3 _ h4
  have h5 : 18 * b'.size ≤ 18 * bucketCapacity bs := Nat.mul_le_mul_left _ h3
  exact hq _ _ ⟨h1, by omega, by omega⟩ h4

theorem dseekValue {h off L : Nat} (hc : 1 ≤ bucketCapacity bs) (hL : bs ≤ L) : ∀ (fuel : Nat) (b : Bkt) (f : Nat) (w : World),
    HeldIn bs L b → (∃ f, w.fs .dat = some f) → P w.fs →
    wp σ (seekValue h off fuel b f) (fun _ w' => w'.fs = w.fs) (Tame σ P) w := by
  intro fuel
  induction fuel with
  | zero => intro b f w _ _ hs; exact wp_raise (Tame.hang hs)
  | succ fuel ih =>
    intro b f w hb hd hs
    unfold seekValue
    apply wp_bind
    have hr := hb.room
    rw [← hb.len] at hr
    apply wp_rp (rp_lowerBound hr) hs
    intro i hi
    apply wp_bind
    apply wp_rp (rp_seek hr hi) hs
    intro ⟨found, f'⟩ _
    dsimp only
    split
    · exact wp_ret rfl
    split
    · exact wp_fail (Tame.err _ hs)
    apply wp_bind
    apply dshortAs
    refine dheld hc hd hs hb.block hb.len hL ?_
    intro b' w1 hb' e1
    refine wp_post (ih b' _ w1 hb' (by rw [e1]; exact hd) (by rw [e1]; exact hs)) ?_
    intro _ w2 e2
    exact e2.trans e1

/-- Where the reader of `verify_normal` stands. -/
structure RAt (keySize : Nat) (D : Bytes) (r : Reader) : Prop where
  inv : RInv r D
  path : r.path = .dat
  pos : RecordAt keySize D r.pos

theorem dprepareD {r : Reader} {n : Nat} {f : FileSt} {Q : Bytes × Reader → World → Prop} (hf : w.fs .dat = some f) (hp : r.path = .dat)
    (hr : RInv r f.cur) (hs : P w.fs)
    (hq : ∀ r' w', RInv r' f.cur → r'.path = .dat → r'.pos = r.pos + n → r.pos + n ≤ f.cur.length → w'.fs = w.fs →
      Q (bytesAt f.cur r.pos n, r') w') :
    wp σ (r.prepare c n) Q (Tame σ P) w := by
  refine wp_prepare (by rw [hp]; exact hf) hr ?_ (fun _ => Tame.err _ hs) (fun x hx h _ _ => Tame.fault hx h hs)
  intro r' w' h1 h2 _
  have := hr.last
  have := h1.le
  exact hq r' w' h1.inv (h1.path.trans hp) h1.pos (by omega) h2

theorem dnormalStep {kh : KeyHeader} {nwork work : Nat} {b : Bkt} {r : Reader} {info : Info} {f : FileSt}
    {Q : Bkt × Reader × Nat × Info → World → Prop}
    (hc : 1 ≤ bucketCapacity kh.blockSize) (hcap : kh.capacity = bucketCapacity kh.blockSize)
    (hfit : ∀ o, RecordAt kh.keySize f.cur o → value (bytesAt f.cur o 6) = 0 →
      value (bytesAt f.cur (o + 6) 2) = 8 + 18 * bucketCapacity kh.blockSize → value (bytesAt f.cur (o + 8) 2) ≤ bucketCapacity kh.blockSize)
    (hf : w.fs .dat = some f) (hk : ∃ f, w.fs .key = some f) (hs : P w.fs) (hr : RAt kh.keySize f.cur r)
    (hb : b.bs = kh.blockSize ∧ b.p.length = kh.blockSize + (6 + kh.keySize))
    (hq : ∀ b' r' work' info' w', b'.bs = kh.blockSize ∧ b'.p.length = kh.blockSize + (6 + kh.keySize) → RAt kh.keySize f.cur r' →
      w'.fs = w.fs → Q (b', r', work', info') w') :
    wp σ (normalStep c kh nwork b r work info) Q (Tame σ P) w := by
  have h8 := cap_room hc
  unfold normalStep
  dsimp only
  apply wp_bind
  refine dprepareD hf hr.path hr.inv hs ?_
  intro r1 w1 i1 p1 q1 l1 e1
  have hs1 : P w1.fs := by rw [e1]; exact hs
  have hf1 : w1.fs .dat = some f := by rw [e1]; exact hf
  apply wp_bind
  have hlen : (bytesAt f.cur r.pos 6).length = 6 := bytesAt_len l1
  have hz : getU48 (bytesAt f.cur r.pos 6) = value (bytesAt f.cur r.pos 6) := C18_u48.reads _ hlen
  refine wp_rp (R := fun n => n = value (bytesAt f.cur r.pos 6)) ?_ hs1 ?_
  · unfold getSize48
    dsimp only
    rw [hz]
    apply rp_assert
    intro _
    rfl
  rintro _ rfl
  split
  · rename_i hpos
    apply wp_bind
    refine dprepareD hf1 p1 i1 hs1 ?_
    intro r2 w2 i2 p2 q2 l2 e2
    have e2' := e2.trans e1
    have hs2 : P w2.fs := by rw [e2']; exact hs
    dsimp only
    apply wp_bind
    apply wp_rp rp_bucketIndexA hs2
    intro n _
    apply wp_bind
    refine dheld hc (by rw [e2']; exact hk) hs2 hb.1 hb.2 (by omega) ?_
    intro b' w3 hb' e3
    have e3' := e3.trans e2'
    have hs3 : P w3.fs := by rw [e3']; exact hs
    apply wp_bind
    apply wp_lookupFuel
    intro fuel
    apply wp_bind
    refine wp_post (dseekValue hc (by omega) fuel b' _ w3 hb' ⟨f, by rw [e3']; exact hf⟩ hs3) ?_
    intro fetches w4 e4
    apply wp_bind
    apply wp_emit
    refine wp_ret (hq _ _ _ _ _ ⟨hb'.block, hb'.len⟩ ⟨i2, p2, ?_⟩ (e4.trans e3'))
    rw [q2, q1, show r.pos + 6 + (kh.keySize + value (bytesAt f.cur r.pos 6)) = r.pos + 6 + kh.keySize + value (bytesAt f.cur r.pos 6) by omega]
    exact .value hr.pos (by omega)
  · rename_i hpos
    have hz0 : value (bytesAt f.cur r.pos 6) = 0 := by omega
    apply wp_bind
    apply dshortAs
    refine dprepareD hf1 p1 i1 hs1 ?_
    intro r2 w2 i2 p2 q2 l2 e2
    have e2' := e2.trans e1
    have hs2 : P w2.fs := by rw [e2']; exact hs
    have hf2 : w2.fs .dat = some f := by rw [e2']; exact hf
    dsimp only
    split
    · exact wp_fail (Tame.err _ hs2)
    rename_i hsz
    have hsz : value (bytesAt f.cur (r.pos + 6) 2) = 8 + 18 * bucketCapacity kh.blockSize := by
      rw [q1] at hsz l2
      rw [← C18_u16.reads _ (bytesAt_len l2)]
      have : getU16 (bytesAt f.cur (r.pos + 6) 2) = bucketSize kh.capacity := by simpa using hsz
      rw [this, hcap]
      unfold bucketSize
      omega
    have hcnt := hfit _ hr.pos hz0 hsz
    have hmul : 18 * value (bytesAt f.cur (r.pos + 8) 2) ≤ 18 * bucketCapacity kh.blockSize := Nat.mul_le_mul_left _ hcnt
    apply wp_bind
    apply dshortAs
    unfold Bkt.readBulk Bkt.readHead
    apply wp_bind
    apply wp_bind
    refine dprepareD hf2 p2 i2 hs2 ?_
    intro r3 w3 i3 p3 q3 l3 e3
    have e3' := e3.trans e2'
    have hs3 : P w3.fs := by rw [e3']; exact hs
    have hf3 : w3.fs .dat = some f := by rw [e3']; exact hf
    have q2' : r2.pos = r.pos + 8 := by rw [q2, q1]
    have hn : getU16 (slice (bytesAt f.cur r2.pos 8) 0 2) = value (bytesAt f.cur (r.pos + 8) 2) := by
      have : slice (bytesAt f.cur r2.pos 8) 0 2 = bytesAt f.cur r2.pos 2 := by
        unfold slice bytesAt
        rw [List.drop_zero, List.take_take]
        rfl
      rw [this, C18_u16.reads _ (bytesAt_len (by omega)), q2']
    apply wp_bind
    refine wp_rp (R := fun b' => b'.bs = kh.blockSize ∧ b'.p.length = kh.blockSize + (6 + kh.keySize) ∧
      b'.size = value (bytesAt f.cur (r.pos + 8) 2)) ?_ hs3 ?_
    · unfold Bkt.update
      apply rp_assert
      intro _
      apply rp_assert
      intro _
      apply rp_bind
      have el : ∀ a d, (putU16 a ++ putU48 d).length = 8 := fun _ _ => rfl
      apply rp_poke (by rw [el]; dsimp only; omega)
      refine rp_ok ⟨hb.1, ?_, hn⟩
      show (put b.p 0 _).length = _
      rw [put_length (by rw [el]; omega), hb.2]
    intro b1 ⟨g1, g2, g3⟩
    apply wp_ret
    dsimp only
    unfold Bkt.readBody
    apply wp_bind
    refine dprepareD hf3 p3 i3 hs3 ?_
    intro r4 w4 i4 p4 q4 l4 e4
    have e4' := e4.trans e3'
    have hs4 : P w4.fs := by rw [e4']; exact hs
    have hll : (bytesAt f.cur r3.pos (b1.size * 18)).length = b1.size * 18 := bytesAt_len l4
    dsimp only
    apply wp_bind
    refine wp_rp (R := fun p => p.length = kh.blockSize + (6 + kh.keySize)) ?_ hs4 ?_
    · exact rp_poke (by rw [hll, g2, g3]; omega) (by rw [put_length (by rw [hll, g2, g3]; omega), g2])
    intro p hpl
    apply wp_ret
    apply wp_bind
    apply wp_emit
    refine wp_ret (hq _ _ _ _ _ ⟨g1, hpl⟩ ⟨i4, p4, ?_⟩ e4')
    rw [q4, q3, q2', g3, show r.pos + 8 + 8 + value (bytesAt f.cur (r.pos + 8) 2) * 18
      = r.pos + 8 + (8 + 18 * value (bytesAt f.cur (r.pos + 8) 2)) by omega]
    exact .overflow hr.pos hz0

theorem dnormalScan {kh : KeyHeader} {nwork : Nat} {f : FileSt}
    (hc : 1 ≤ bucketCapacity kh.blockSize) (hcap : kh.capacity = bucketCapacity kh.blockSize)
    (hfit : ∀ o, RecordAt kh.keySize f.cur o → value (bytesAt f.cur o 6) = 0 →
      value (bytesAt f.cur (o + 6) 2) = 8 + 18 * bucketCapacity kh.blockSize → value (bytesAt f.cur (o + 8) 2) ≤ bucketCapacity kh.blockSize) :
    ∀ (fuel : Nat) (b : Bkt) (r : Reader) (work : Nat) (info : Info) (w : World), w.fs .dat = some f → (∃ f, w.fs .key = some f) → P w.fs →
    RAt kh.keySize f.cur r → b.bs = kh.blockSize ∧ b.p.length = kh.blockSize + (6 + kh.keySize) →
    wp σ (normalScan c kh nwork fuel b r work info)
      (fun x w' => (x.1.bs = kh.blockSize ∧ x.1.p.length = kh.blockSize + (6 + kh.keySize)) ∧ w'.fs = w.fs) (Tame σ P) w := by
  intro fuel
  induction fuel with
  | zero => intro b r work info w _ _ hs _ _; exact wp_raise (Tame.hang hs)
  | succ fuel ih =>
    intro b r work info w hf hk hs hr hb
    unfold normalScan
    split
    · exact wp_ret ⟨hb, rfl⟩
    · apply wp_bind
      refine dnormalStep hc hcap hfit hf hk hs hr hb ?_
      intro b' r' work' info' w1 h1 h2 e1
      refine wp_post (ih b' r' work' info' w1 (by rw [e1]; exact hf) (by rw [e1]; exact hk) (by rw [e1]; exact hs) h2 h1) ?_
      intro x w2 ⟨g1, e2⟩
      exact ⟨g1, e2.trans e1⟩

theorem dnormalEntries {kh : KeyHeader} {b : Bkt} {spill : Bool} (hl : 8 + 18 * b.size ≤ b.p.length) :
    ∀ (fuel i work : Nat) (w : World), (∃ f, w.fs .dat = some f) → P w.fs →
    wp σ (normalEntries c kh b spill fuel i work) (fun _ w' => w'.fs = w.fs) (Tame σ P) w := by
  intro fuel
  induction fuel with
  | zero => intro i work w _ hs; exact wp_raise (Tame.hang hs)
  | succ fuel ih =>
    intro i work w hd hs
    unfold normalEntries
    split
    · apply wp_bind
      apply wp_rp (rp_get (by omega)) hs
      intro e _
      apply wp_bind
      apply dshortAs
      refine dfRead hd hs ?_
      intro pd w1 _ e1
      have hs1 : P w1.fs := by rw [e1]; exact hs
      dsimp only
      split
      · exact wp_fail (Tame.err _ hs1)
      split
      · exact wp_fail (Tame.err _ hs1)
      refine wp_post (ih _ _ w1 (by rw [e1]; exact hd) hs1) ?_
      intro _ w2 e2
      exact e2.trans e1
    · exact wp_ret rfl

theorem dnormalChain {kh : KeyHeader} {L : Nat} (hc : 1 ≤ bucketCapacity kh.blockSize) (hL : kh.blockSize ≤ L) :
    ∀ (fuel : Nat) (b : Bkt) (spill : Bool) (work nspill : Nat) (info : Info) (w : World), HeldIn kh.blockSize L b →
    (∃ f, w.fs .dat = some f) → P w.fs →
    wp σ (normalChain c kh fuel b spill work nspill info) (fun x w' => (x.1.bs = kh.blockSize ∧ x.1.p.length = L) ∧ w'.fs = w.fs)
      (Tame σ P) w := by
  intro fuel
  induction fuel with
  | zero => intro b spill work nspill info w _ _ hs; exact wp_raise (Tame.hang hs)
  | succ fuel ih =>
    intro b spill work nspill info w hb hd hs
    unfold normalChain
    dsimp only
    apply wp_bind
    have hr := hb.room
    rw [← hb.len] at hr
    refine wp_post (dnormalEntries hr _ _ _ w hd hs) ?_
    intro work' w1 e1
    have hs1 : P w1.fs := by rw [e1]; exact hs
    have hd1 : ∃ f, w1.fs .dat = some f := by rw [e1]; exact hd
    split
    · exact wp_ret ⟨⟨hb.block, hb.len⟩, e1⟩
    · apply wp_bind
      refine dheld hc hd1 hs1 hb.block hb.len hL ?_
      intro b' w2 hb' e2
      have e2' := e2.trans e1
      refine wp_post (ih _ _ _ _ _ w2 hb' (by rw [e2']; exact hd) (by rw [e2']; exact hs)) ?_
      intro x w3 ⟨g1, e3⟩
      exact ⟨g1, e3.trans e2'⟩

theorem dnormalBuckets {kh : KeyHeader} {L nwork : Nat} (hc : 1 ≤ bucketCapacity kh.blockSize) (hL : kh.blockSize ≤ L) :
    ∀ (k n : Nat) (b : Bkt) (work : Nat) (info : Info) (w : World), b.bs = kh.blockSize ∧ b.p.length = L →
    (∃ f, w.fs .dat = some f) → (∃ f, w.fs .key = some f) → P w.fs →
    wp σ (normalBuckets c kh nwork k n b work info) (fun _ _ => True) (Tame σ P) w := by
  intro k
  induction k with
  | zero => intro n b work info w _ _ _ hs; exact wp_ret trivial
  | succ k ih =>
    intro n b work info w hb hd hk hs
    unfold normalBuckets
    apply wp_bind
    refine dheld hc hk hs hb.1 hb.2 hL ?_
    intro b' w1 hb' e1
    apply wp_bind
    apply wp_lookupFuel
    intro fuel
    apply wp_bind
    refine wp_post (dnormalChain hc hL fuel b' _ _ _ _ w1 hb' (by rw [e1]; exact hd) (by rw [e1]; exact hs)) ?_
    intro ⟨b2, work2, nspill2, info2⟩ w2 ⟨g1, e2⟩
    have e2' := e2.trans e1
    apply wp_bind
    apply wp_emit
    exact ih _ _ _ _ _ g1 (by show ∃ f, w2.fs .dat = some f; rw [e2']; exact hd) (by show ∃ f, w2.fs .key = some f; rw [e2']; exact hk)
      (by show P w2.fs; rw [e2']; exact hs)

theorem dverifyNormal {kh : KeyHeader} {datSize keySize : Nat} {f : FileSt}
    (hc : 1 ≤ bucketCapacity kh.blockSize) (hcap : kh.capacity = bucketCapacity kh.blockSize)
    (hfit : ∀ o, RecordAt kh.keySize f.cur o → value (bytesAt f.cur o 6) = 0 →
      value (bytesAt f.cur (o + 6) 2) = 8 + 18 * bucketCapacity kh.blockSize → value (bytesAt f.cur (o + 8) 2) ≤ bucketCapacity kh.blockSize)
    (hf : w.fs .dat = some f) (hz : datSize = f.cur.length) (h92 : 92 ≤ f.cur.length) (hk : ∃ f, w.fs .key = some f) (hs : P w.fs) :
    wp σ (verifyNormal c kh datSize keySize) (fun _ _ => True) (Tame σ P) w := by
  have h8 := cap_room hc
  subst hz
  unfold verifyNormal
  dsimp only
  apply wp_bind
  apply wp_emit
  apply wp_bind
  apply wp_rp (P := P) (rp_ofMem' (by rw [fresh_length]; omega)) (by exact hs)
  intro b ⟨b1, b2, _⟩
  apply wp_bind
  refine wp_post (dnormalScan (f := f) hc hcap hfit _ b _ _ _ _ (by exact hf) (by exact hk) (by exact hs)
    ⟨rinv_new c .dat (Nat.le_refl _) h92, rfl, .first⟩ ⟨b1, by rw [b2, fresh_length]⟩) ?_
  intro ⟨b', work, info⟩ w1 ⟨g1, e1⟩
  have e1 : w1.fs = w.fs := e1
  exact dnormalBuckets hc (Nat.le_add_right _ _) _ _ _ _ _ w1 g1 ⟨f, by rw [e1]; exact hf⟩ (by rw [e1]; exact hk) (by rw [e1]; exact hs)

end

end NuDB
