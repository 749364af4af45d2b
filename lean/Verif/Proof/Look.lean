import Verif.Proof.Steps
import Verif.Proof.Session
/- The results of the lookups of concurrent readers, as functions of the files. -/
namespace NuDB

open Conc

/-- The result of `fetch` for a given content. -/
def resOf : Option Bytes → Except Exc Bytes
  | some v => .ok v
  | none => .error (.err .key_not_found)

theorem good_resOf (o : Option Bytes) : Good (resOf o) := by
  cases o with
  | none => exact Good.notFound
  | some v => exact Good.ok v

/-- Data file, and one other file. -/
def fsOf (D : Bytes) (kf : FileSt) : Fs
  | .dat => some (FileSt.clean D)
  | .key => some kf
  | .log => none

section
variable {c : Cfg} {cf : Conf} {s : Store} {fs : Fs} {D : Bytes} {recs : List Rec} {view : View}

theorem Ready.only (hr : Ready c cf s fs D recs view) {kf : FileSt} (hk : fs .key = some kf) :
    Ready c cf s (fsOf D kf) D recs view :=
  ⟨hr.conf, hr.kh, hr.b1, hr.mod, hr.mle, hr.dat, ⟨_, rfl, List.prefix_refl _⟩, hr.filed, by
    obtain ⟨f, hf, h⟩ := hr.key
    rw [hk] at hf; cases hf
    exact ⟨kf, rfl, h⟩⟩

theorem eval_wp {R : α → Prop} {B : Option (Nat × Bytes)} {p : Prog α} (hu : Uses (RdOk B) R p)
    {Q : α → Prop} {X : Exc → Prop} {f : FileSt} (hd : fs .dat = some f) (hD : f.cur = D) (hB : BlkAt B fs)
    (h : wp calm p.toM (fun a _ => Q a) (fun x _ => X x) ⟨fs, 0, []⟩) :
    (∃ a, eval B D p = .ok a ∧ Q a) ∨ (∃ x, eval B D p = .error x ∧ X x) := by
  have h1 := eval_toM hu hd hD hB 0 []
  unfold wp at h
  generalize p.toM calm ⟨fs, 0, []⟩ = r at h h1
  obtain ⟨r, w⟩ := r
  simp only at h1
  rw [← h1]
  cases r with
  | ok a => exact .inl ⟨a, rfl, h⟩
  | error x => exact .inr ⟨x, rfl, h⟩

theorem encBlock_length' {bs : Nat} {es : List Entry} {sp : Nat} (h : bucketSize es.length ≤ bs) :
    (encBlock bs es sp).length = bs := by
  simp [encBlock]; omega

/-- The block that a reader finds in the key file. -/
def blkOf (cf : Conf) (view : View) (n : Nat) : Bytes := encBlock cf.blockSize (view n).1 (view n).2

/-- Where a reader finds it. -/
def blkRef (cf : Conf) (n : Nat) (blk : Bytes) : Option (Nat × Bytes) := some ((n + 1) * cf.blockSize, blk)

theorem Ready.blk_length (hr : Ready c cf s fs D recs view) {n : Nat} (hn : n < s.buckets) :
    (blkOf cf view n).length = cf.blockSize := by
  have h1 := hr.filed n hn
  have h2 := hr.conf.cap_le
  have h3 := h1.len
  exact encBlock_length' (by simp only [bucketSize] at *; omega)

theorem Ready.keyBlk (hr : Ready c cf s fs D recs view) {n : Nat} (hn : n < s.buckets)
    (hc : s.c1.find n = none) : KeyBlk cf.blockSize n (blkOf cf view n) fs := by
  obtain ⟨f, hf, h⟩ := hr.key
  rcases h n hn with ⟨p, hp, _⟩ | ⟨_, h1, h2⟩
  · rw [hc] at hp; cases hp
  · exact ⟨f, hf, h1, h2⟩

theorem KeyBlk.blkAt {n : Nat} {blk : Bytes} (h : KeyBlk cf.blockSize n blk fs) :
    BlkAt (blkRef cf n blk) fs := by
  intro b k hb
  cases hb
  obtain ⟨f, hf, h1, h2⟩ := h
  have : blk.length = cf.blockSize := by rw [← h2, slice_length_of_le h1]
  exact ⟨f, hf, by omega, by rw [this]; exact h2⟩

theorem KeyBlk.len {n : Nat} {blk : Bytes} (h : KeyBlk cf.blockSize n blk fs) : blk.length = cf.blockSize := by
  obtain ⟨f, hf, h1, h2⟩ := h
  rw [← h2, slice_length_of_le h1]

theorem Ready.mono {fs' : Fs} (hr : Ready c cf s fs D recs view) (h1 : HasD D fs')
    (h2 : ∀ n blk, s.c1.find n = none → KeyBlk cf.blockSize n blk fs → KeyBlk cf.blockSize n blk fs')
    (h3 : ∃ f, fs' .key = some f) :
    Ready c cf s fs' D recs view := by
  refine ⟨hr.conf, hr.kh, hr.b1, hr.mod, hr.mle, hr.dat, h1, hr.filed, ?_⟩
  obtain ⟨f', hf'⟩ := h3
  refine ⟨f', hf', ?_⟩
  obtain ⟨f, hf, h⟩ := hr.key
  intro n hn
  rcases h n hn with h | ⟨a1, a2, a3⟩
  · exact .inl h
  · obtain ⟨g, hg, b1, b2⟩ := h2 n _ a1 ⟨f, hf, a2, a3⟩
    rw [hf'] at hg; cases hg
    exact .inr ⟨a1, b1, b2⟩

theorem Ready.hash (hr : Ready c cf s fs D recs view) (key : Bytes) :
    hashKey c.H s.kh.salt key = cf.hash c.H key := by
  obtain ⟨B0, hkh⟩ := hr.kh
  rw [hkh]; rfl

theorem Ready.bs (hr : Ready c cf s fs D recs view) : s.kh.blockSize = cf.blockSize := by
  obtain ⟨B0, hkh⟩ := hr.kh
  rw [hkh]; rfl

theorem Ready.ks (hr : Ready c cf s fs D recs view) : s.kh.keySize = cf.keySize := by
  obtain ⟨B0, hkh⟩ := hr.kh
  rw [hkh]; rfl

/-- bucket of a key -/
def bktOf (c : Cfg) (cf : Conf) (s : Store) (key : Bytes) : Nat :=
  bucketIndex (cf.hash c.H key) s.buckets s.modulus

theorem Ready.bkt_lt (hr : Ready c cf s fs D recs view) (key : Bytes) : bktOf c cf s key < s.buckets :=
  bucketIndex_lt hr.b1 hr.mod _

theorem Ready.wp_fetchIn (hr : Ready c cf s fs D recs view) {kf : FileSt} {key : Bytes}
    (hk : key.length = cf.keySize) {fuel : Nat} (hfuel : D.length + 2 ≤ fuel) {w : World}
    (hw : w.fs = fsOf D kf) {b : Bkt} (hb : Rep b (view (bktOf c cf s key)).1 (view (bktOf c cf s key)).2)
    (hbs : b.bs = cf.blockSize) :
    wp calm (fetchBucket c s.kh (cf.hash c.H key) key fuel b)
      (fun v _ => kvOf (pairsOf recs) key = some v)
      (fun x _ => x = .err .key_not_found ∧ kvOf (pairsOf recs) key = none) w := by
  have hlt := hr.bkt_lt key
  have hok := hr.filed _ hlt
  obtain ⟨L, hch, hperm⟩ := hok.chain
  have hf1 : w.fs .dat = some (FileSt.clean D) := by rw [hw]; rfl
  have hle : (view (bktOf c cf s key)).2 < fuel := by
    by_cases h0 : (view (bktOf c cf s key)).2 = 0
    · omega
    · have := hch.le_length h0; omega
  apply wp_fetchBucket hr.conf hr.bs hr.ks hk hf1 _ b _ L _ hle hb hok.sorted hbs hch
    (inRange_of hr.dat (List.prefix_refl _) hperm)
  · intro v w' _ hp
    exact scan_some hr.dat (List.prefix_refl _) hperm hk hp
  · intro w' _ hp
    exact ⟨rfl, scan_none hr.dat (List.prefix_refl _) rfl hperm hp⟩
  · intro x w' _ hf; exact absurd hf not_faulty_calm

theorem Ready.wp_existsIn (hr : Ready c cf s fs D recs view) {kf : FileSt} {key : Bytes}
    (hk : key.length = cf.keySize) {fuel : Nat} (hfuel : D.length + 2 ≤ fuel) {w : World}
    (hw : w.fs = fsOf D kf) {b : Bkt} (hb : Rep b (view (bktOf c cf s key)).1 (view (bktOf c cf s key)).2)
    (hbs : b.bs = cf.blockSize) :
    wp calm (existsBucket c s.kh (cf.hash c.H key) key fuel b)
      (fun r _ => r = (kvOf (pairsOf recs) key).isSome) (fun _ _ => False) w := by
  have hlt := hr.bkt_lt key
  have hok := hr.filed _ hlt
  obtain ⟨L, hch, hperm⟩ := hok.chain
  have hf1 : w.fs .dat = some (FileSt.clean D) := by rw [hw]; rfl
  have hle : (view (bktOf c cf s key)).2 < fuel := by
    by_cases h0 : (view (bktOf c cf s key)).2 = 0
    · omega
    · have := hch.le_length h0; omega
  apply wp_existsBucket hr.conf hr.bs hr.ks hk hf1 _ b _ L _ hle hb hok.sorted hbs hch
    (inRange_of hr.dat (List.prefix_refl _) hperm)
  · intro r w' _ hp
    rw [show (FileSt.clean D).cur = D from rfl, scan_exists hr.dat (List.prefix_refl _) rfl hperm] at hp
    cases r with
    | true => exact (hp.mp rfl).symm
    | false =>
      cases h : (kvOf (pairsOf recs) key).isSome with
      | false => rfl
      | true => exact absurd (hp.mpr h) (by simp)
  · intro x w' _ hf; exact absurd hf not_faulty_calm

theorem eval_resOf {p : Prog Bytes} {B : Option (Nat × Bytes)} {o : Option Bytes}
    (h : (∃ a, eval B D p = .ok a ∧ o = some a) ∨
      (∃ x, eval B D p = .error x ∧ x = .err .key_not_found ∧ o = none)) : eval B D p = resOf o := by
  rcases h with ⟨a, h1, h2⟩ | ⟨x, h1, rfl, h2⟩
  · rw [h1, h2]; rfl
  · rw [h1, h2]; rfl

theorem eval_bool {p : Prog Bool} {B : Option (Nat × Bytes)} {o : Bool}
    (h : (∃ a, eval B D p = .ok a ∧ a = o) ∨ (∃ x, eval B D p = .error x ∧ False)) : eval B D p = .ok o := by
  rcases h with ⟨a, h1, h2⟩ | ⟨x, _, h2⟩
  · rw [h1, h2]
  · exact h2.elim

theorem uses_disk {hr : Ready c cf s fs D recs view} {n : Nat} {blk : Bytes} (hl : blk.length = cf.blockSize)
    {f : Bkt → Prog α} (hf : ∀ b, Uses (RdOk (blkRef cf n blk)) (fun _ => True) (f b)) :
    Uses (RdOk (blkRef cf n blk)) (fun _ => True) (do
      let b ← Prog.lift (Bkt.ofMem s.kh.blockSize (c.fresh s.kh.blockSize))
      let b ← b.readFileP .key ((n + 1) * s.kh.blockSize)
      f b) := by
  refine .bind (.lift (R := fun b => b.bs = cf.blockSize)
    (fun _ hb => by rw [(ofMem_bs hb).1, hr.bs])) fun b hb => ?_
  refine .bind (uses_readFileP ?_) fun b _ => hf b
  refine ⟨_, _, rfl, by rw [hr.bs]; exact Nat.le_refl _, ?_⟩
  have := hr.conf.cap_le
  rw [hb, hr.bs, hl]
  show _ + bucketSize cf.cap ≤ _
  omega

/-- `fetch` from the key file. -/
theorem Ready.fetchDisk (hr : Ready c cf s fs D recs view) {key : Bytes} (hk : key.length = cf.keySize)
    (hc : s.c1.find (bktOf c cf s key) = none) {fuel : Nat} (hfuel : D.length + 2 ≤ fuel) :
    eval (blkRef cf (bktOf c cf s key) (blkOf cf view (bktOf c cf s key))) D
      (fetchDiskP c s key fuel (bktOf c cf s key)) = resOf (kvOf (pairsOf recs) key) := by
  have hlt := hr.bkt_lt key
  obtain ⟨kf, hkf, _⟩ := id hr.key
  have hr' := hr.only hkf
  have hblk := hr'.keyBlk hlt hc
  apply eval_resOf
  refine eval_wp (fs := fsOf D kf) (R := fun _ => True) (uses_disk (hr := hr) (hr.blk_length hlt)
    (fun b => uses_fetchBucketP (by intros; trivial) _ _)) rfl rfl hblk.blkAt ?_
  simp only [toM_bind', toM_lift, readFileP_toM, fetchBucketP_toM]
  have := wp_getBucket (σ := calm) (w := ⟨fsOf D kf, 0, []⟩) (X := fun x _ => x = .err .key_not_found ∧ kvOf (pairsOf recs) key = none)
    (Q := fun v _ => kvOf (pairsOf recs) key = some v) hr' hlt
    (k := fun b => fetchBucket c s.kh (hashKey c.H s.kh.salt key) key fuel b) (by
      intro b w' hq hb hbs
      rw [hr.hash]
      exact hr'.wp_fetchIn hk hfuel hq.fs hb hbs)
    (fun x w' _ hf => absurd hf not_faulty_calm)
  rw [hc] at this
  exact this

/-- `exists` from the key file. -/
theorem Ready.existsDisk (hr : Ready c cf s fs D recs view) {key : Bytes} (hk : key.length = cf.keySize)
    (hc : s.c1.find (bktOf c cf s key) = none) {fuel : Nat} (hfuel : D.length + 2 ≤ fuel) :
    eval (blkRef cf (bktOf c cf s key) (blkOf cf view (bktOf c cf s key))) D
      (existsDiskP c s key fuel (bktOf c cf s key)) = .ok (kvOf (pairsOf recs) key).isSome := by
  have hlt := hr.bkt_lt key
  obtain ⟨kf, hkf, _⟩ := id hr.key
  have hr' := hr.only hkf
  have hblk := hr'.keyBlk hlt hc
  apply eval_bool
  refine eval_wp (fs := fsOf D kf) (R := fun _ => True) (X := fun _ => False) (Q := fun r => r = (kvOf (pairsOf recs) key).isSome)
    (uses_disk (hr := hr) (hr.blk_length hlt)
    (fun b => uses_existsBucketP (by intros; trivial) _ _)) rfl rfl hblk.blkAt ?_
  simp only [toM_bind', toM_lift, readFileP_toM, existsBucketP_toM]
  have := wp_getBucket (σ := calm) (w := ⟨fsOf D kf, 0, []⟩) (X := fun _ _ => False)
    (Q := fun r _ => r = (kvOf (pairsOf recs) key).isSome) hr' hlt
    (k := fun b => existsBucket c s.kh (hashKey c.H s.kh.salt key) key fuel b) (by
      intro b w' hq hb hbs
      rw [hr.hash]
      exact hr'.wp_existsIn hk hfuel hq.fs hb hbs)
    (fun x w' _ hf => absurd hf not_faulty_calm)
  rw [hc] at this
  exact this

theorem Ready.cached (hr : Ready c cf s fs D recs view) {n : Nat} (hn : n < s.buckets) {blob : Bytes}
    (hc : s.c1.find n = some blob) :
    ∃ b, Bkt.ofMem s.kh.blockSize blob = .ok b ∧ Rep b (view n).1 (view n).2 ∧ b.bs = cf.blockSize := by
  obtain ⟨f, hf, h⟩ := hr.key
  rcases h n hn with ⟨p, hp, hb⟩ | ⟨h, _⟩
  · rw [hc] at hp; cases hp
    have hok := hr.filed n hn
    obtain ⟨b, h1, h2, h3, _⟩ := hb.load hr.conf.bs2 hok.fit hok.lt48
    exact ⟨b, by rw [hr.bs]; exact h1, h2, h3⟩
  · rw [hc] at h; cases h

/-- `fetch` from the cache. -/
theorem Ready.fetchCache (hr : Ready c cf s fs D recs view) {key : Bytes} (hk : key.length = cf.keySize) {blob : Bytes}
    (hc : s.c1.find (bktOf c cf s key) = some blob) {fuel : Nat} (hfuel : D.length + 2 ≤ fuel) :
    eval none D (fetchCacheP c s key fuel blob) = resOf (kvOf (pairsOf recs) key) := by
  have hlt := hr.bkt_lt key
  obtain ⟨kf, hkf, _⟩ := id hr.key
  have hr' := hr.only hkf
  obtain ⟨b, h1, h2, h3⟩ := hr.cached hlt hc
  apply eval_resOf
  refine eval_wp (fs := fsOf D kf) (R := fun _ => True) ?_ rfl rfl (blkAt_none _) ?_
  · exact .bind .liftT fun b _ => uses_fetchBucketP (by intros; trivial) _ _
  · unfold fetchCacheP
    simp only [toM_bind', toM_lift, fetchBucketP_toM, hr.hash]
    apply wp_bind
    apply wp_lift_ok h1
    exact hr'.wp_fetchIn hk hfuel rfl h2 h3

/-- `exists` from the cache: the two parts together. -/
theorem Ready.existsCache (hr : Ready c cf s fs D recs view) {key : Bytes} (hk : key.length = cf.keySize) {blob : Bytes}
    (hc : s.c1.find (bktOf c cf s key) = some blob) {fuel : Nat} (hfuel : D.length + 2 ≤ fuel) :
    eval none D (existsCacheP c s key blob >>= fun r => if r then .ret true else existsMoreP c s key fuel blob) =
      .ok (kvOf (pairsOf recs) key).isSome := by
  have hlt := hr.bkt_lt key
  obtain ⟨kf, hkf, _⟩ := id hr.key
  have hr' := hr.only hkf
  obtain ⟨b, h1, h2, h3⟩ := hr.cached hlt hc
  have e : (existsCacheP c s key blob >>= fun r => if r then .ret true else existsMoreP c s key fuel blob) =
      existsBucketP c s.kh (cf.hash c.H key) key fuel b := by
    unfold existsCacheP existsMoreP
    rw [h1, hr.hash]
    obtain ⟨f, rfl⟩ : ∃ f, fuel = f + 1 := ⟨fuel - 1, by omega⟩
    rfl
  rw [e]
  apply eval_bool
  refine eval_wp (fs := fsOf D kf) (R := fun _ => True) (X := fun _ => False) (Q := fun r => r = (kvOf (pairsOf recs) key).isSome)
    ?_ rfl rfl (blkAt_none _) ?_
  · exact uses_existsBucketP (by intros; trivial) _ _
  · rw [existsBucketP_toM]
    exact hr'.wp_existsIn hk hfuel rfl h2 h3

end

end NuDB
