import Verif.Proof.Rekey
import Verif.Proof.Refine
/- `rekey` as a whole, and what `recover` makes of an interrupted `rekey`. -/
namespace NuDB

open Spec

/-- The configuration of the rebuilt key file. -/
def RekeyArgs.conf (a : RekeyArgs) (cf : Conf) (lf : Nat) : Conf :=
  { cf with salt := a.salt, blockSize := a.blockSize, loadFactor := lf, mixed := true }

theorem DatFile.rekey {cf : Conf} {D : Bytes} {recs : List Rec} (h : DatFile cf D recs) (a : RekeyArgs) (lf : Nat) :
    DatFile (a.conf cf lf) D recs :=
  ⟨h.eq, fun r hr => ⟨(h.ok r hr).data, (h.ok r hr).spill, fun _ _ _ => .inr rfl⟩, h.nodup⟩

/-- States from which `recover` restores the data file `D` and removes the key file. If `stuck`, the log file
may exist without key file. -/
inductive Undo (c : Cfg) (cf : Conf) (D : Bytes) (stuck : Prop) (fs : Fs) : Prop
  | gone (df : FileSt) (hd : fs .dat = some df) (sd : Stable df D) (hk : fs .key = none)
      (hl : fs .log = none ∨ stuck)
  | short (df kf : FileSt) (hd : fs .dat = some df) (sd : Stable df D) (hk : fs .key = some kf)
      (len : ∀ v, Version kf v → v.length ≤ 104)
  | logged (df kf : FileSt) (hd : fs .dat = some df) (pd : ∀ v, Version df v → D <+: v) (hk : fs .key = some kf)
      (up : ∀ v, Version kf v → v.length ≤ kf.cur.length)
      (hl : fs .log = some (FileSt.clean (putLogHeader (cf.lh c.H 0 D.length))))
      (alt : Stable df D ∨ ∀ v, Version kf v → 104 < v.length)

/-- The key file before the buckets are built. -/
def blankKey (c : Cfg) (cf : Conf) (B : Nat) : Bytes :=
  putKeyHeader (cf.kh c.H B) ++ zeros ((B + 1) * cf.blockSize - 104)

/-- Nothing has been synced since the key file was allocated. -/
def Unsynced (c : Cfg) (cf : Conf) (D : Bytes) (B : Nat) (df kf : FileSt) : Prop :=
  Version df D ∧ Version kf (blankKey c cf B)

/-- While the buckets are built. -/
def Building (c : Cfg) (cf : Conf) (D : Bytes) (B : Nat) (fs : Fs) : Prop :=
  ∃ df kf, fs .dat = some df ∧ (∀ v, Version df v → D <+: v) ∧ fs .key = some kf ∧
    (∀ v, Version kf v → v.length ≤ kf.cur.length) ∧
    fs .log = some (FileSt.clean (putLogHeader (cf.lh c.H 0 D.length))) ∧ (∀ v, Version kf v → 104 < v.length) ∧
    Unsynced c cf D B df kf

/-- The result of `rekey`: a database with the same pairs. The new overflow records `rs` follow the old
content of the data file. -/
def Rebuilt (c : Cfg) (cf : Conf) (D : Bytes) (recs : List Rec) (B : Nat) (fs : Fs) : Prop :=
  ∃ rs view df kf, Spills cf rs ∧ fs .dat = some df ∧ df.cur = D ++ encRecs rs ∧ (∀ v, Version df v → D <+: v) ∧
    fs .key = some kf ∧ fs .log = none ∧ Db c cf (D ++ encRecs rs) kf.cur (recs ++ rs) B view ∧
    Unsynced c cf D B df kf ∧ (encRecs rs).length ≤ (pairsOf recs).length * cf.recLen

section
variable {σ : Schedule} {c : Cfg} {cf : Conf} {lim nb st : Prop} {D : Bytes} {recs : List Rec} {B : Nat}

theorem Building.undo {fs : Fs} (h : Building c cf D B fs) : Undo c cf D st fs := by
  obtain ⟨df, kf, h1, h2, h3, h4, h5, h6, _⟩ := h
  exact .logged df kf h1 h2 h3 h4 h5 (.inr h6)

theorem Building.datFree : DatFree (Building c cf D B) where
  prefix_closed := fun _ _ _ => trivial
  step := by
    rintro fs f bs ⟨df, kf, h1, h2, h3, h4, h5, h6, h7, h8⟩ hf _
    rw [hf] at h1; cases h1
    refine ⟨_, kf, Fs.set_same _ _ _, ?_, by simpa using h3, h4, by simpa using h5, h6,
      version_push.mpr (.inl h7), h8⟩
    intro v hv
    rcases version_push.mp hv with hv | rfl
    · exact h2 v hv
    · simp only [POp.apply, writeAt_end]
      exact (h2 _ (version_cur f)).trans ⟨_, rfl⟩

theorem Building.dat {fs : Fs} (h : Building c cf D B fs) : ∃ f, fs .dat = some f ∧ D <+: f.cur := by
  obtain ⟨df, kf, h1, h2, _⟩ := h
  exact ⟨df, h1, h2 _ (version_cur df)⟩

theorem Building.key {fs : Fs} {kf : FileSt} {o : Nat} {bs : Bytes} (h : Building c cf D B fs) (hk : fs .key = some kf) :
    Building c cf D B (fs.set .key (some (kf.push (.write o bs)))) := by
  obtain ⟨df, kf', h1, h2, h3, h4, h5, h6, h7, h8⟩ := h
  rw [hk] at h3; cases h3
  have hle := writeAt_le_length kf.cur bs o
  refine ⟨df, _, by simpa using h1, h2, Fs.set_same _ _ _, ?_, by simpa using h5, ?_,
    h7, version_push.mpr (.inl h8)⟩
  · intro v hv
    rw [cur_push]
    rcases version_push.mp hv with hv | rfl
    · exact Nat.le_trans (h4 v hv) hle
    · exact Nat.le_refl _
  · intro v hv
    rcases version_push.mp hv with hv | rfl
    · exact h6 v hv
    · exact Nat.lt_of_lt_of_le (h6 _ (version_cur kf)) hle

theorem tick_set_same (w : World) (fs : Fs) (p : Path) (x : Option FileSt) : (w.tick (fs.set p x)).fs p = x :=
  Fs.set_same _ _ _

theorem wp_rekeyAlloc (hcf : cf.Ok) (hB1 : 1 ≤ B) {df kf : FileSt} {w : World} {Q : Unit → World → Prop}
    (hd : w.fs .dat = some df) (sd : Stable df D) (hk : w.fs .key = some kf)
    (sk : Stable kf (putKeyHeader (cf.kh c.H B)))
    (hl : w.fs .log = some (FileSt.clean (putLogHeader (cf.lh c.H 0 D.length))))
    (hQ : ∀ w' kf', w'.fs .dat = some df → w'.fs .key = some kf' → Building c cf D B w'.fs →
      (∀ T, Built c cf D kf'.cur B 0 T) → Q () w') :
    wp σ (rekeyAlloc (cf.rk c.H B)) Q (XP σ (Undo c cf D False) lim nb) w := by
  have hbs := hcf.bs1
  have h104 : (putKeyHeader (cf.kh c.H B)).length = 104 := rfl
  have hpd : ∀ v, Version df v → D <+: v := fun v hv => by rw [sd v hv]; exact List.prefix_refl _
  -- any write of the key file in this state
  have step : ∀ (fs : Fs) (kf : FileSt) (o : Nat) (bs : Bytes), fs .dat = some df → fs .key = some kf →
      fs .log = some (FileSt.clean (putLogHeader (cf.lh c.H 0 D.length))) → (∀ v, Version kf v → v.length ≤ kf.cur.length) →
      Undo c cf D False (fs.set .key (some (kf.push (.write o bs)))) := by
    intro fs kf o bs h1 h2 h3 h4
    refine .logged df _ (by simpa using h1) hpd (Fs.set_same _ _ _) ?_ (by simpa using h3) (.inl sd)
    intro v hv
    rw [cur_push]
    rcases version_push.mp hv with hv | rfl
    · exact Nat.le_trans (h4 v hv) (writeAt_le_length _ _ _)
    · exact Nat.le_refl _
  have kup : ∀ v, Version kf v → v.length ≤ kf.cur.length := by
    intro v hv; rw [sk v hv, sk.cur]; exact Nat.le_refl _
  unfold rekeyAlloc
  have hblk : keyHeaderBlock (cf.rk c.H B) = .ok (putKeyHeader (cf.kh c.H B) ++ zeros (cf.blockSize - 104)) := by
    unfold keyHeaderBlock
    show poke (zeros cf.blockSize) 0 (putKeyHeader (cf.kh c.H B)) = _
    rw [poke_ok (by rw [h104, zeros_length]; omega)]
    simp [put, h104, zeros_drop]
  apply wp_bind
  apply wp_lift_ok hblk
  generalize hb : putKeyHeader (cf.kh c.H B) ++ zeros (cf.blockSize - 104) = blk
  have hbl : blk.length = cf.blockSize := by rw [← hb]; simp [h104]; omega
  have hbt : blk.take 104 = putKeyHeader (cf.kh c.H B) := by rw [← hb]; exact List.take_left' rfl
  apply wp_bind
  apply wp_fWrite hk
  rotate_left
  · intro x k hx hfa
    exact ⟨step _ _ _ _ hd hk hl kup, .inl ⟨hx, hfa⟩⟩
  have hcur1 : (kf.push (.write 0 blk)).cur = blk := by
    rw [cur_push, sk.cur]
    simp only [POp.apply, writeAt]
    rw [if_neg (by intro h; rw [h] at hbl; simp at hbl; omega)]
    simp only [Nat.zero_sub, zeros_zero, List.append_nil, put, List.take_zero, List.nil_append, Nat.zero_add]
    rw [List.drop_of_length_le (by rw [h104]; omega)]; simp
  apply wp_bind
  apply wp_fSync (f := kf.push (.write 0 blk)) (by simp) _
    (by exact XP.fault (step _ _ _ _ hd hk hl kup))
  rw [synced_eq, hcur1]
  generalize hfs : Fs.set _ .key (some (FileSt.clean blk)) = fs2
  have d2 : fs2 .dat = some df := by rw [← hfs]; simpa using hd
  have k2 : fs2 .key = some (FileSt.clean blk) := by rw [← hfs]; exact Fs.set_same _ _ _
  have l2 : fs2 .log = some (FileSt.clean (putLogHeader (cf.lh c.H 0 D.length))) := by rw [← hfs]; simpa using hl
  have kup2 : ∀ v, Version (FileSt.clean blk) v → v.length ≤ (FileSt.clean blk).cur.length := by
    intro v hv; rw [version_clean.mp hv]; exact Nat.le_refl _
  apply wp_bind
  apply wp_fWrite (by exact k2)
  rotate_left
  · intro x k hx hfa
    exact ⟨step _ _ _ _ d2 k2 l2 kup2, .inl ⟨hx, hfa⟩⟩
  apply wp_fSync (f := (FileSt.clean blk).push (.write ((B + 1) * cf.blockSize - 1) [0])) (by exact tick_set_same _ _ _ _) _
    (by exact XP.fault (step _ _ _ _ d2 k2 l2 kup2))
  have hbig : 2 * cf.blockSize ≤ (B + 1) * cf.blockSize := Nat.mul_le_mul_right _ (by omega)
  generalize hK : ((FileSt.clean blk).push (.write ((B + 1) * cf.blockSize - 1) [0])).cur = K
  have hKb : K = blankKey c cf B := by
    have e : (B + 1) * cf.blockSize - 1 = blk.length + ((B + 1) * cf.blockSize - 1 - cf.blockSize) := by omega
    rw [← hK, cur_push]
    simp only [POp.apply, cur_clean, writeAt, if_neg (List.cons_ne_nil _ _)]
    have e2 : ∀ (p b : Bytes) (o : Nat), o = p.length → put p o b = p ++ b := by
      rintro p b o rfl; exact put_end p b
    rw [e2 _ _ _ (by simp; omega), ← hb, blankKey]
    simp only [List.append_assoc]
    rw [show ([0] : Bytes) = zeros 1 from rfl, ← zeros_add, ← zeros_add]
    refine congrArg (fun n => putKeyHeader (cf.kh c.H B) ++ zeros n) ?_
    simp [h104]; omega
  have hKl : K.length = (B + 1) * cf.blockSize := by
    rw [hKb, blankKey]; simp [h104]; omega
  have hKt : K.take 104 = putKeyHeader (cf.kh c.H B) := by
    rw [hKb, blankKey]; exact List.take_left' rfl
  rw [synced_eq, hK]
  generalize hfs3 : Fs.set _ .key (some (FileSt.clean K)) = fs3
  have d3 : fs3 .dat = some df := by rw [← hfs3]; simpa using d2
  have k3 : fs3 .key = some (FileSt.clean K) := by rw [← hfs3]; exact Fs.set_same _ _ _
  have l3 : fs3 .log = some (FileSt.clean (putLogHeader (cf.lh c.H 0 D.length))) := by rw [← hfs3]; simpa using l2
  refine hQ _ (FileSt.clean K) d3 k3 ⟨df, FileSt.clean K, d3, hpd, k3, ?_, l3, ?_,
    by rw [← sd.cur]; exact version_cur df, by rw [← hKb]; exact version_clean.mpr rfl⟩ ?_
  · intro v hv; rw [version_clean.mp hv]; exact Nat.le_refl _
  · intro v hv; rw [version_clean.mp hv, hKl]; omega
  · intro T
    exact ⟨hKl, hKt, fun n h => absurd h (Nat.not_lt_zero n)⟩

theorem wp_rekeyPrepare (hcf : cf.Ok) {df : FileSt} {w : World} {Q : Unit → World → Prop}
    (hd : w.fs .dat = some df) (sd : Stable df D) (hk : w.fs .key = none) (hl : w.fs .log = none)
    (hQ : ∀ w' kf, w'.fs .dat = some df → w'.fs .key = some kf → Stable kf (putKeyHeader (cf.kh c.H B)) →
      w'.fs .log = some (FileSt.clean (putLogHeader (cf.lh c.H 0 D.length))) → Q () w') :
    wp σ (rekeyPrepare c (cf.rk c.H B) D.length) Q (XP σ (Undo c cf D False) lim nb) w := by
  have hbs := hcf.bs2
  unfold rekeyPrepare
  apply wp_bind
  apply wp_fCreate hk
  rotate_left
  · intro x hx hfa
    refine ⟨⟨.gone df hd sd hk (.inl hl), .inl ⟨hx, hfa⟩⟩, ⟨.short df _ (by simpa using hd) sd (tick_set_same _ _ _ _) ?_, .inl ⟨hx, hfa⟩⟩⟩
    intro v hv; rw [version_clean.mp hv]; simp
  apply wp_bind
  apply wp_lift_ok (assert_ok (by simp only [decide_eq_true_eq]; show cf.blockSize ≤ 0xffff; omega))
  have hw0 : ∀ bs : Bytes, writeAt [] 0 bs = bs := fun bs => writeAt_end [] bs
  have short : ∀ bs : Bytes, bs.length ≤ 104 → ∀ v, Version ((FileSt.clean []).push (.write 0 bs)) v → v.length ≤ 104 := by
    intro bs hb v hv
    rcases version_push.mp hv with hv | rfl
    · rw [version_clean.mp hv]; simp
    · simpa [POp.apply, hw0] using hb
  have h104 : (putKeyHeader (cf.rk c.H B)).length = 104 := rfl
  apply wp_bind
  apply wp_fWrite (f := FileSt.clean []) (by exact tick_set_same _ _ _ _)
  rotate_left
  · intro x k hx hfa
    refine ⟨.short df _ (by simpa using hd) sd (tick_set_same _ _ _ _) (short _ ?_), .inl ⟨hx, hfa⟩⟩
    rw [List.length_take, h104]; omega
  apply wp_bind
  apply wp_fSync (f := (FileSt.clean []).push (.write 0 (putKeyHeader (cf.rk c.H B)))) (by exact tick_set_same _ _ _ _) _
    (by exact XP.fault (.short df _ (by simpa using hd) sd (tick_set_same _ _ _ _) (short _ (by rw [h104]; omega))))
  have hcur : ((FileSt.clean []).push (.write 0 (putKeyHeader (cf.rk c.H B)))).cur = putKeyHeader (cf.kh c.H B) := by
    rw [cur_push]
    show writeAt [] 0 (putKeyHeader (cf.rk c.H B)) = _
    rw [hw0]; rfl
  rw [synced_eq, hcur]
  generalize hfs : Fs.set _ .key (some (FileSt.clean (putKeyHeader (cf.kh c.H B)))) = fs2
  have d2 : fs2 .dat = some df := by rw [← hfs]; simpa using hd
  have k2 : fs2 .key = some (FileSt.clean (putKeyHeader (cf.kh c.H B))) := by rw [← hfs]; exact Fs.set_same _ _ _
  have l2 : fs2 .log = none := by rw [← hfs]; simpa using hl
  have hu : ∀ fs : Fs, fs .dat = some df → fs .key = some (FileSt.clean (putKeyHeader (cf.kh c.H B))) → Undo c cf D False fs := by
    intro fs h1 h2
    refine .short df _ h1 sd h2 ?_
    intro v hv; rw [version_clean.mp hv]; exact Nat.le_of_eq h104
  apply wp_bind
  apply wp_fCreate (by exact l2)
  rotate_left
  · intro x hx hfa
    exact ⟨⟨hu _ d2 k2, .inl ⟨hx, hfa⟩⟩, ⟨hu _ (by simpa using d2) (by simpa using k2), .inl ⟨hx, hfa⟩⟩⟩
  apply wp_bind
  apply wp_fAppend (f := FileSt.clean []) (by exact tick_set_same _ _ _ _) rfl
  rotate_left
  · intro x k hx hfa
    exact ⟨hu _ (by simpa using d2) (by simpa using k2), .inl ⟨hx, hfa⟩⟩
  apply wp_fSync (by exact tick_set_same _ _ _ _) _ (by exact XP.fault (hu _ (by simpa using d2) (by simpa using k2)))
  rw [synced_eq, cur_push]
  refine hQ _ _ (by simpa using d2) (by simpa using k2) (stable_clean _) ?_
  simp only [tick_fs, Fs.set_same]
  show some (FileSt.clean (writeAt [] 0 _)) = _
  rw [hw0]; rfl

theorem Built.view {V K : Bytes} {T : List Entry} (h : Built c cf V K B B T) :
    ∃ view : View, KeyFile c cf K B view ∧ Filed V cf.cap B (ceilPow2 B) view T := by
  have hex : ∀ n, ∃ x : List Entry × Nat, n < B →
      slice K ((n + 1) * cf.blockSize) cf.blockSize = encBlock cf.blockSize x.1 x.2 ∧
        BucketOk V cf.cap x.1 x.2 (T.filter (inBucket B (ceilPow2 B) n)) := by
    intro n
    by_cases hn : n < B
    · obtain ⟨es, s, h1, h2⟩ := h.done n hn hn
      exact ⟨(es, s), fun _ => ⟨h1, h2⟩⟩
    · exact ⟨([], 0), fun h => absurd h hn⟩
  refine ⟨fun n => Classical.choose (hex n), ⟨h.len, h.head, ?_⟩, ?_⟩
  · intro n hn; exact (Classical.choose_spec (hex n) hn).1
  · intro n hn; exact (Classical.choose_spec (hex n) hn).2

theorem entriesOf_length (c : Cfg) (cf : Conf) (o : Nat) (rs : List Rec) :
    (entriesOf c cf o rs).length = (pairsOf rs).length := by
  rw [← itemsOf_pairs (cf.hash c.H) o rs]; simp [entriesOf]

/-- `rekey` on a closed database whose key file is missing. -/
theorem wp_rekey {cf0 : Conf} {a : RekeyArgs} {lf : Nat} {df : FileSt} {w : World} (hlf : a.load.fixed = .ok lf)
    (hcf : (a.conf cf0 lf).Ok) (hB1 : 1 ≤ a.buckets) (hB : a.buckets ≤ 2 ^ 32)
    (hdat : DatFile cf0 D recs) (hdl : D.length ≤ 2 ^ 49)
    (hd : w.fs .dat = some df) (sd : Stable df D) (hk : w.fs .key = none) (hl : w.fs .log = none)
    (hlim : lim → D.length + (pairsOf recs).length * (a.conf cf0 lf).recLen + 8 < 2 ^ 48) :
    wp σ (rekey c a) (fun _ w' => Rebuilt c (a.conf cf0 lf) D recs a.buckets w'.fs)
      (XP σ (Undo c (a.conf cf0 lf) D False) lim nb) w := by
  have hdat' := hdat.rekey a lf
  generalize hc : a.conf cf0 lf = cf at *
  have hu : Undo c cf D False w.fs := .gone df hd sd hk (.inl hl)
  have hX : ∀ (w' : World) x, w'.fs = w.fs → IsFault x → Faulty σ → XP σ (Undo c cf D False) lim nb x (w'.tick w'.fs) := by
    intro w' x h1 h2 h3
    exact ⟨by simp only [tick_fs, h1]; exact hu, .inl ⟨h2, h3⟩⟩
  have h92 : 92 ≤ D.length := by rw [hdat'.eq]; simp
  unfold rekey
  apply wp_bind
  apply wp_fOpen hd _ (fun x => hX w x rfl)
  apply wp_bind
  unfold readDatHeader
  apply wp_bind
  apply wp_fRead (by exact hd) (by rw [sd.cur]; simpa [datHeaderSize] using h92) _ (by exact fun x => hX (w.tick w.fs) x rfl)
  apply wp_ret
  simp only [datHeaderSize, sd.cur, get_dh hdat' hcf (List.prefix_refl _)]
  apply wp_bind
  apply wp_check_ok (verifyDat_ok hcf)
  apply wp_bind
  apply wp_fSize (by exact hd) _ (by exact fun x => hX (w.tick w.fs) x rfl)
  apply wp_bind
  apply wp_attempt
  apply wp_fOpen_none (by exact hl)
  rotate_left
  · intro x hx hfa
    rcases hx with rfl | rfl
    · exact hX (w.tick w.fs) _ rfl (.inl rfl) hfa
    · simp only
      exact wp_fail (hX (w.tick w.fs) _ rfl (.inr rfl) hfa)
  simp only
  apply wp_bind
  apply wp_lift_ok hlf
  have hrk : rekeyHeader c.H cf.dh a lf = cf.rk c.H a.buckets := by rw [← hc]; rfl
  rw [hrk, sd.cur]
  apply wp_bind
  apply wp_rekeyPrepare hcf (by exact hd) sd (by exact hk) (by exact hl)
  intro w1 kf1 d1 k1 sk1 l1
  apply wp_bind
  apply wp_rekeyAlloc hcf hB1 d1 sd k1 sk1 l1
  intro w2 kf2 d2 k2 hbu hb
  apply wp_bind
  apply wp_emit
  apply wp_bind
  have hDc : D = df.cur := sd.cur.symm
  have hwr : WInv (Writer.new .dat D.length (16 * 4096)) .dat w2.fs D := by
    have := winv_new (n := 16 * 4096) d2 (by omega)
    rwa [sd.cur] at this
  refine wp_conseq (Q := _) (X := XP σ (Building c cf D a.buckets) lim nb) ?_ (fun _ _ h => h)
    (fun x w' h => h.mono (fun _ h => h.undo) id id)
  apply wp_rekeyChunks (N := (pairsOf recs).length * cf.recLen) hcf hB1 hB Building.datFree (fun _ h => h.dat) (fun _ _ _ _ h1 h2 => h1.key h2)
    hdat'.eq hdat'.ok (by omega) (cf.rk c.H a.buckets).buckets.succ 0 _ _ [] kf2
  · show a.buckets - 0 < a.buckets + 1; omega
  · simpa using hwr
  · exact hbu
  · exact Spills.nil cf
  · simp
  · exact k2
  · simpa using hb _
  · intro h
    have h1 := hlim h
    have h2 : ((entriesOf c cf 92 recs).filter (inRange a.buckets 0 a.buckets)).length ≤ (pairsOf recs).length := by
      rw [← entriesOf_length c cf 92 recs]; exact List.length_filter_le _ _
    have h3 := Nat.mul_le_mul_right cf.recLen h2
    simp only [encRecs_nil, List.append_nil]; omega
  · have h2 : ((entriesOf c cf 92 recs).filter (inRange a.buckets 0 a.buckets)).length ≤ (pairsOf recs).length := by
      rw [← entriesOf_length c cf 92 recs]; exact List.length_filter_le _ _
    have h3 := Nat.mul_le_mul_right cf.recLen h2
    simp only [encRecs_nil, List.length_nil, Nat.zero_add]; omega
  · intro wr' w' rs' kf' q1 q2 q3 q4 q5 q6 q7 q8
    apply wp_bind
    refine wp_conseq (Q := _) (X := XP σ (Building c cf D a.buckets) lim nb) ?_ (fun _ _ h => h)
      (fun x w' h => h.mono (fun _ h => h.undo) id id)
    apply wp_wflush q1 q2 Building.datFree trivial
    intro wr3 w3 g1 g2 g3 g4 g5
    obtain ⟨df3, kf3, e1, e2, e3, e4, e5, e6, e7⟩ := id g3
    have hk3 : w3.fs .key = some kf' := by rw [g4 .key (by decide)]; exact q5
    rw [hk3] at e3; cases e3
    apply wp_fErase e5
    · obtain ⟨f, f1, f2, f3⟩ := g1.file
      rw [e1] at f1; cases f1
      rw [g2, List.append_nil] at f2
      obtain ⟨view, v1, v2⟩ := q7.view
      refine ⟨rs', view, df3, kf', q3, by simpa using e1, f2, e2, by simpa using hk3, tick_set_same _ _ _ _, ?_, e7, q8⟩
      refine ⟨hcf, ⟨?_, ?_, ?_⟩, ?_, hB1, hB, v1, ?_⟩
      · rw [hdat'.eq, encRecs_append, List.append_assoc]
      · intro r hr
        rcases List.mem_append.mp hr with hr | hr
        · exact hdat'.ok r hr
        · exact (q3 r hr).1
      · rw [pairsOf_append, pairsOf_spills q3, List.append_nil]; exact hdat'.nodup
      · by_cases h : rs' = []
        · subst h; simpa using hdl
        · have := q4 h; omega
      · have : (items c cf (recs ++ rs')).map (·.1) = entriesOf c cf 92 recs := by
          rw [items, itemsOf_append, itemsOf_spills q3, List.append_nil]; rfl
        rw [this]; exact v2
    · exact XP.fault g3.undo

/-- The invariant survives a restart. -/
theorem Undo.restart {fs fs' : Fs} (h : Undo c cf D st fs) (hr : Restart fs fs') : Undo c cf D st fs' := by
  rcases hr with rfl | hr
  · exact h
  have file : ∀ {p : Path} {f : FileSt}, p ≠ .log → fs p = some f →
      ∃ img, fs' p = some (FileSt.clean img) ∧ Unordered f img := by
    intro p f hp hf
    have := hr p
    rw [hf] at this
    simp only [if_neg hp] at this
    exact this
  have none' : fs .key = none → fs' .key = none := by
    intro h
    have := hr .key
    rw [h] at this
    rcases this with h | ⟨h, _⟩
    · exact h
    · cases h
  have stab : ∀ {f : FileSt} {v img : Bytes}, Stable f v → Unordered f img → Stable (FileSt.clean img) v := by
    intro f v img h1 h2
    rw [unordered_stable h1 h2]; exact stable_clean _
  cases h with
  | gone df hd sd hk hl =>
    obtain ⟨img, h1, h2⟩ := file (by decide) hd
    refine .gone _ h1 (stab sd h2) (none' hk) (hl.imp_left fun e => ?_)
    have := hr .log
    rw [e] at this
    rcases this with h | ⟨_, h, _⟩
    · exact h
    · exact absurd hk h
  | short df kf hd sd hk len =>
    obtain ⟨img, h1, h2⟩ := file (by decide) hd
    obtain ⟨ki, h3, h4⟩ := file (by decide) hk
    refine .short _ _ h1 (stab sd h2) h3 ?_
    intro v hv
    rw [version_clean.mp hv]
    obtain ⟨u, hu, h5⟩ := h4.upper
    exact Nat.le_trans h5 (len u hu)
  | logged df kf hd pd hk up hl alt =>
    obtain ⟨img, h1, h2⟩ := file (by decide) hd
    obtain ⟨ki, h3, h4⟩ := file (by decide) hk
    have hlog := hr .log
    rw [hl] at hlog
    simp only [if_true] at hlog
    obtain ⟨l, h5, h6⟩ := hlog
    rw [ordered_clean.mp h6] at h5
    refine .logged _ _ h1 ?_ h3 ?_ h5 ?_
    · intro v hv; rw [version_clean.mp hv]; exact unordered_prefix pd h2
    · intro v hv; rw [version_clean.mp hv]; exact Nat.le_refl _
    · rcases alt with sd | hlen
      · exact .inl (stab sd h2)
      · right
        intro v hv
        rw [version_clean.mp hv]
        obtain ⟨u, hu, h7⟩ := h4.lower
        exact Nat.lt_of_lt_of_le (hlen u hu) h7

/-- The data file is as before, the key file is gone. -/
def Undone (D : Bytes) (fs : Fs) : Prop := ∃ df, fs .dat = some df ∧ Stable df D ∧ fs .key = none

theorem Undone.undo {fs : Fs} (h : Undone D fs) : Undo c cf D True fs := by
  obtain ⟨df, h1, h2, h3⟩ := h; exact .gone df h1 h2 h3 (.inr trivial)

theorem Undo.mono {fs : Fs} (h : Undo c cf D st fs) : Undo c cf D True fs := by
  cases h with
  | gone df hd sd hk hl => exact .gone df hd sd hk (.inr trivial)
  | short df kf hd sd hk len => exact .short df kf hd sd hk len
  | logged df kf hd pd hk up hl alt => exact .logged df kf hd pd hk up hl alt

/-- How `recover` ends when it undoes a `rekey`. -/
def UndoX (σ : Schedule) (c : Cfg) (cf : Conf) (D : Bytes) (st : Prop) (x : Exc) (w : World) : Prop :=
  (Undo c cf D True w.fs ∧ IsFault x ∧ Faulty σ) ∨
    ((x = .err .no_key_file ∧ w.fs .log = none ∨ x = .err .no_such_file ∧ (w.fs .log = none ∨ st)) ∧ Undone D w.fs)

theorem wp_recover_undo (hcf : cf.Ok) (hdat : DatFile cf D recs) (hdl : D.length ≤ 2 ^ 49) {w : World}
    (h : Undo c cf D st w.fs) :
    wp σ (recover c) (fun _ w' => Undone D w'.fs ∧ w'.fs .log = none) (UndoX σ c cf D st) w := by
  obtain ⟨df, hd, pd⟩ : ∃ df, w.fs .dat = some df ∧ ∀ v, Version df v → D <+: v := by
    have st : ∀ df, Stable df D → ∀ v, Version df v → D <+: v := fun df s v hv => by
      rw [s v hv]; exact List.prefix_refl _
    cases h with
    | gone df hd sd hk hl => exact ⟨df, hd, st df sd⟩
    | short df kf hd sd hk len => exact ⟨df, hd, st df sd⟩
    | logged df kf hd pd hk up hl alt => exact ⟨df, hd, pd⟩
  have hpd := pd _ (version_cur df)
  have hf : ∀ (w' : World) (x : Exc), w'.fs = w.fs → IsFault x → Faulty σ →
      UndoX σ c cf D st x (w'.tick w'.fs) := by
    intro w' x h1 hx hfa
    exact .inl ⟨by simp only [tick_fs]; rw [h1]; exact h.mono, hx, hfa⟩
  have hdl2 : 92 ≤ df.cur.length := by
    have := hpd.length_le
    rw [hdat.eq] at this
    simp at this; omega
  unfold recover
  apply wp_bind
  apply wp_fOpen hd _ (fun x hx hfa => hf w x rfl hx hfa)
  apply wp_bind
  apply wp_fSize (by exact hd) _ (by exact fun x hx hfa => hf (w.tick w.fs) x rfl hx hfa)
  apply wp_bind
  unfold readDatHeader
  apply wp_bind
  apply wp_fRead (by exact hd) (by simpa [datHeaderSize] using hdl2) _ (by exact fun x hx hfa => hf (w.tick w.fs) x rfl hx hfa)
  apply wp_ret
  simp only [datHeaderSize, get_dh hdat hcf hpd]
  apply wp_bind
  apply wp_check_ok (verifyDat_ok hcf)
  apply wp_bind
  -- a short key file
  have hshort : ∀ (w1 : World) (kf : FileSt) (k : Unit → M Unit) (Q : Unit → World → Prop), w1.fs = w.fs →
      w1.fs .key = some kf → Stable df D → (∀ v, Version kf v → v.length ≤ 104) →
      wp σ (do eraseFile .log; fErase .key; M.fail .no_key_file) Q (UndoX σ c cf D st) w1 := by
    intro w1 kf k Q e1 hk sd len
    have hd1 : w1.fs .dat = some df := by rw [e1]; exact hd
    have hcont : ∀ w2 : World, w2.fs .dat = some df → w2.fs .key = some kf → w2.fs .log = none →
        wp σ (do fErase .key; M.fail .no_key_file) Q (UndoX σ c cf D st) w2 := by
      intro w2 a1 a2 a3
      apply wp_bind
      apply wp_fErase a2
      · apply wp_fail
        exact .inr ⟨.inl ⟨rfl, by simpa using a3⟩, df, by simpa using a1, sd, tick_set_same _ _ _ _⟩
      · intro x hx hfa
        exact .inl ⟨.short df kf a1 sd a2 len, hx, hfa⟩
    apply wp_bind
    unfold eraseFile
    apply wp_bind
    apply wp_attempt
    cases hl : w1.fs .log with
    | none =>
      apply wp_fErase_none hl
      · simp only
        apply wp_ret
        exact hcont _ hd1 hk hl
      · intro x hx hfa
        rcases hx with rfl | rfl
        · exact .inl ⟨.short df kf hd1 sd hk len, .inl rfl, hfa⟩
        · simp only
          apply wp_fail
          exact .inl ⟨.short df kf hd1 sd hk len, .inr rfl, hfa⟩
    | some lf =>
      apply wp_fErase hl
      · simp only
        apply wp_ret
        exact hcont _ (by simpa using hd1) (by simpa using hk) (tick_set_same _ _ _ _)
      · intro x hx hfa
        rcases hx with rfl | rfl
        · exact .inl ⟨.short df kf hd1 sd hk len, .inl rfl, hfa⟩
        · simp only
          apply wp_fail
          exact .inl ⟨.short df kf hd1 sd hk len, .inr rfl, hfa⟩
  cases h with
  | gone df1 hd1 sd hk hl =>
    rw [hd] at hd1; cases hd1
    apply wp_fOpen_none (by exact hk)
    · exact .inr ⟨.inr ⟨rfl, hl⟩, df, hd, sd, hk⟩
    · exact fun x hx hfa => hf (w.tick w.fs) x rfl hx hfa
  | short df1 kf hd1 sd hk len =>
    rw [hd] at hd1; cases hd1
    apply wp_fOpen (by exact hk) _ (by exact fun x hx hfa => hf (w.tick w.fs) x rfl hx hfa)
    apply wp_bind
    apply wp_fSize (by exact hk) _ (by exact fun x hx hfa => hf (w.tick w.fs) x rfl hx hfa)
    rw [if_pos (by simpa [keyHeaderSize] using len _ (version_cur kf))]
    exact hshort _ kf (fun _ => M.ret ()) _ rfl hk sd len
  | logged df1 kf hd1 pd1 hk up hl alt =>
    rw [hd] at hd1; cases hd1
    apply wp_fOpen (by exact hk) _ (by exact fun x hx hfa => hf (w.tick w.fs) x rfl hx hfa)
    apply wp_bind
    apply wp_fSize (by exact hk) _ (by exact fun x hx hfa => hf (w.tick w.fs) x rfl hx hfa)
    by_cases h104 : kf.cur.length ≤ keyHeaderSize
    · rw [if_pos h104]
      have sd : Stable df D := by
        rcases alt with sd | h
        · exact sd
        · have := h _ (version_cur kf); simp only [keyHeaderSize] at h104; omega
      exact hshort _ kf (fun _ => M.ret ()) _ rfl hk sd (fun v hv => Nat.le_trans (up v hv) h104)
    rw [if_neg h104]
    apply wp_bind
    apply wp_attempt
    apply wp_fOpen (by exact hl)
    rotate_left
    · intro x hx hfa
      rcases hx with rfl | rfl
      · exact hf (w.tick w.fs) _ rfl (.inl rfl) hfa
      · simp only
        exact wp_fail (hf (w.tick w.fs) _ rfl (.inr rfl) hfa)
    simp only
    apply wp_bind
    apply wp_fSize (by exact hl) _ (by exact fun x hx hfa => hf (w.tick w.fs) x rfl hx hfa)
    apply wp_bind
    apply wp_attempt
    unfold readLogHeader
    apply wp_bind
    apply wp_fRead (by exact hl) (by simp [logHeaderSize])
    rotate_left
    · intro x hx hfa
      rcases hx with rfl | rfl
      · exact hf (w.tick w.fs) _ rfl (.inl rfl) hfa
      · simp only
        exact wp_fail (hf (w.tick w.fs) _ rfl (.inr rfl) hfa)
    apply wp_ret
    have hlh : getLogHeader (slice (putLogHeader (cf.lh c.H 0 D.length)) 0 62) = cf.lh c.H 0 D.length :=
      get_lh hcf (rest := []) (by simp) (by omega) (by omega)
    simp only [logHeaderSize, cur_clean, hlh]
    apply wp_bind
    apply wp_check_ok (verifyLog_ok hcf)
    rw [if_pos (show (cf.lh c.H 0 D.length).keyFileSize = 0 from rfl)]
    unfold truncFiles
    have htr : truncAt df.cur D.length = D := by
      obtain ⟨t, ht⟩ := hpd; rw [← ht]; exact truncAt_prefix
    apply wp_bind
    apply wp_fTrunc (by exact hd) _ (by exact fun x hx hfa => hf (w.tick w.fs) x rfl hx hfa)
    have hpush : ∀ v, Version (df.push (.trunc D.length)) v → D <+: v := by
      intro v hv
      rcases version_push.mp hv with hv | rfl
      · exact pd v hv
      · simp only [POp.apply]; rw [htr]; exact List.prefix_refl _
    have halt : Stable (df.push (.trunc D.length)) D ∨ ∀ v, Version kf v → 104 < v.length := by
      rcases alt with sd | h
      · left; exact sd.push (by simp only [POp.apply]; exact truncAt_self D)
      · exact .inr h
    have hscur : (df.push (.trunc D.length)).cur = D := by rw [cur_push]; simp only [POp.apply]; exact htr
    apply wp_bind
    apply wp_fSync (f := df.push (.trunc D.length)) (by exact tick_set_same _ _ _ _)
    rotate_left
    · intro x hx hfa
      exact .inl ⟨.logged _ kf (tick_set_same _ _ _ _) hpush (by simpa using hk) up (by simpa using hl) halt, hx, hfa⟩
    rw [synced_eq, hscur]
    generalize hfs : Fs.set _ .dat (some (FileSt.clean D)) = fs2
    have d2 : fs2 .dat = some (FileSt.clean D) := by rw [← hfs]; exact Fs.set_same _ _ _
    have k2 : fs2 .key = some kf := by rw [← hfs]; simpa using hk
    have l2 : fs2 .log = some (FileSt.clean (putLogHeader (cf.lh c.H 0 D.length))) := by rw [← hfs]; simpa using hl
    rw [if_neg (by simp [Conf.lh])]
    apply wp_bind
    apply wp_fErase (by exact k2)
    rotate_left
    · intro x hx hfa
      refine .inl ⟨.logged _ kf d2 ?_ k2 up l2 (.inl (stable_clean D)), hx, hfa⟩
      intro v hv; rw [version_clean.mp hv]; exact List.prefix_refl _
    have hg : ∀ fs : Fs, fs .dat = some (FileSt.clean D) → fs .key = none → Undone D fs :=
      fun fs h1 h2 => ⟨_, h1, stable_clean D, h2⟩
    unfold clearLog
    apply wp_bind
    apply wp_fTrunc (f := FileSt.clean (putLogHeader (cf.lh c.H 0 D.length))) (by simpa using l2)
    rotate_left
    · intro x hx hfa
      exact .inl ⟨(hg _ (by simpa using d2) (by simp)).undo, hx, hfa⟩
    apply wp_bind
    apply wp_fSync (by exact tick_set_same _ _ _ _)
    rotate_left
    · intro x hx hfa
      exact .inl ⟨(hg _ (by simpa using d2) (by simp)).undo, hx, hfa⟩
    apply wp_fErase (by exact tick_set_same _ _ _ _)
    · exact ⟨hg _ (by simpa using d2) (by simp), tick_set_same _ _ _ _⟩
    · intro x hx hfa
      exact .inl ⟨(hg _ (by simpa using d2) (by simp)).undo, hx, hfa⟩

/-- Lookups when the files are in good order, except that the data file may go on. -/
theorem answers_prefix {fs : Fs} {D' K : Bytes} {recs' : List Rec} {view : View} {df kf : FileSt}
    (hdb : Db c cf D' K recs' B view) (hd : fs .dat = some df) (hp : D' <+: df.cur)
    (hk : fs .key = some kf) (hK : kf.cur = K) (hl : fs .log = none) :
    Answers c cf.keySize fs (kvOf (pairsOf recs')) := by
  have hcf := hdb.conf
  have hkn := hdb.klen
  have h1B := hdb.b1
  have hdl : 92 ≤ df.cur.length := by
    have := hp.length_le
    rw [hdb.dat.eq] at this
    simp at this; omega
  have hno : ∀ {α : Type} {X : α → Prop}, (x : α) → Faulty calm → X x := fun _ h => absurd h not_faulty_calm
  -- recover
  have hrec : ∀ (w : World) (Q : Unit → World → Prop), w.fs = fs → (∀ w', w'.fs = fs → Q () w') →
      wp calm (recover c) Q (fun _ _ => False) w := by
    intro w Q hw hQ
    subst hw
    unfold recover
    apply wp_bind
    apply wp_fOpen hd _ (fun _ _ h => not_faulty_calm h)
    apply wp_bind
    apply wp_fSize (by exact hd) _ (by exact fun _ _ h => not_faulty_calm h)
    apply wp_bind
    unfold readDatHeader
    apply wp_bind
    apply wp_fRead (by exact hd) (by simpa [datHeaderSize] using hdl) _ (by exact fun _ _ h => not_faulty_calm h)
    apply wp_ret
    simp only [datHeaderSize, get_dh hdb.dat hcf hp]
    apply wp_bind
    apply wp_check_ok (verifyDat_ok hcf)
    apply wp_bind
    apply wp_fOpen (by exact hk) _ (by exact fun _ _ h => not_faulty_calm h)
    apply wp_bind
    apply wp_fSize (by exact hk) _ (by exact fun _ _ h => not_faulty_calm h)
    rw [if_neg (by simp only [keyHeaderSize, hK]; omega)]
    apply wp_bind
    apply wp_attempt
    apply wp_fOpen_none (by exact hl)
    · simp only
      exact wp_ret (hQ _ rfl)
    · intro x _ hf; exact absurd hf not_faulty_calm
  have hopen : ∀ (w : World), w.fs = fs →
      wp calm (openStore c) (fun s w' => Ready c cf s w'.fs D' recs' view ∧ s.ec = none ∧ s.p0 = [] ∧ s.p1 = [])
        (fun _ _ => False) w := by
    intro w hw
    unfold openStore
    apply wp_bind
    apply hrec w _ hw
    rintro w1 rfl
    apply wp_bind
    apply wp_fOpen hd _ (by exact fun _ _ h => not_faulty_calm h)
    apply wp_bind
    apply wp_fOpen (by exact hk) _ (by exact fun _ _ h => not_faulty_calm h)
    apply wp_bind
    apply wp_fCreate (by exact hl)
    rotate_left
    · intro x _ hf; exact absurd hf not_faulty_calm
    generalize hfs : Fs.set _ .log (some (FileSt.clean [])) = fs2
    have hd2 : fs2 .dat = some df := by rw [← hfs]; simpa using hd
    have hk2 : fs2 .key = some kf := by rw [← hfs]; simpa using hk
    apply wp_bind
    unfold readDatHeader
    apply wp_bind
    apply wp_fRead (by exact hd2) (by simpa [datHeaderSize] using hdl) _ (by exact fun _ _ h => not_faulty_calm h)
    apply wp_ret
    simp only [datHeaderSize, get_dh hdb.dat hcf hp]
    apply wp_bind
    apply wp_check_ok (verifyDat_ok hcf)
    apply wp_bind
    unfold readKeyHeader
    apply wp_bind
    apply wp_fRead (by exact hk2) (by simp only [keyHeaderSize, hK]; omega) _ (by exact fun _ _ h => not_faulty_calm h)
    apply wp_bind
    apply wp_fSize (by exact hk2) _ (by exact fun _ _ h => not_faulty_calm h)
    apply wp_ret
    have hkh : getKeyHeader (slice kf.cur 0 keyHeaderSize) kf.cur.length = cf.kh c.H B := by
      show getKeyHeader (slice kf.cur 0 104) _ = _
      rw [hK, get_kh (c := c) (v := K) hcf hdb.key.head, hkn.2.2]
    simp only [hkh]
    apply wp_bind
    apply wp_check_ok (verifyKey_ok hcf hdb.b1)
    apply wp_bind
    apply wp_check_ok (verifyDatKey_ok hcf hdb.b1)
    rw [if_neg (by simp only [Conf.kh]; omega)]
    apply wp_ret
    have hB2 := hdb.b2
    have hm := ceilPow2_isModulus hdb.b1 (by omega)
    refine ⟨⟨hcf, ⟨B, rfl⟩, hdb.b1, hm, modulus_le hm hB2, hdb.dat, ⟨df, hd2, hp⟩, hdb.filed, kf, hk2, ?_⟩, rfl, rfl, rfl⟩
    intro n hn
    right
    rw [hK]
    refine ⟨rfl, ?_, hdb.key.blocks n hn⟩
    rw [hdb.key.len]
    have : (n + 2) * cf.blockSize ≤ (B + 1) * cf.blockSize := Nat.mul_le_mul_right _ (by
      have : n < B := hn
      omega)
    have e := mul_succ_add n cf.blockSize
    omega
  have total : ∀ {α : Type} {m : M α} {Q : α → World → Prop} {w : World}, wp calm m Q (fun _ _ => False) w →
      ∃ a w', m calm w = (.ok a, w') ∧ Q a w' := by
    intro α m Q w h
    unfold wp at h
    split at h
    · rename_i a w' e; exact ⟨a, w', e, h⟩
    · exact h.elim
  obtain ⟨_, w₁, e1, h1⟩ := total (hrec ⟨fs, 0, []⟩ (fun _ w' => w'.fs = fs) rfl (fun _ h => h))
  obtain ⟨s, w₂, e2, h2, h3, h4, h5⟩ := total (hopen w₁ h1)
  refine ⟨w₁, s, w₂, e1, e2, ?_⟩
  intro w hw k hkl
  have ha : answer s recs' k = kvOf (pairsOf recs') k := by simp [answer, h4, h5, Pool.find]
  have key : wp calm (fetch c s k) (fun v _ => kvOf (pairsOf recs') k = some v)
      (fun x _ => x = .err .key_not_found ∧ kvOf (pairsOf recs') k = none) w := by
    apply wp_fetch (hw ▸ h2) h3 hkl
    · intro v w' _ hv; rw [ha] at hv; exact hv
    · intro w' _ hv; rw [ha] at hv; exact ⟨rfl, hv⟩
    · intro x w' _ hf; exact absurd hf not_faulty_calm
  unfold wp at key
  split at key
  · rename_i v w' e; rw [e, key]
  · rename_i x w' e; rw [e, key.2, key.1]

/-- A key file with empty buckets. -/
theorem db_blank (hcf : cf.Ok) (hB1 : 1 ≤ B) (hB : B ≤ 2 ^ 32) :
    Db c cf (putDatHeader cf.dh) (blankKey c cf B) [] B (fun _ => ([], 0)) := by
  have h104 := hcf.bs1
  have hlen : (putKeyHeader (cf.kh c.H B)).length = 104 := rfl
  have hbig : 2 * cf.blockSize ≤ (B + 1) * cf.blockSize := Nat.mul_le_mul_right _ (by omega)
  refine ⟨hcf, ⟨by simp, by simp, by simp [pairsOf]⟩, by simp, hB1, hB, ⟨?_, ?_, ?_⟩, ?_⟩
  · rw [blankKey]; simp [hlen]; omega
  · rw [blankKey]; exact List.take_left' rfl
  · intro n hn
    rw [encBlock_empty (by omega), blankKey]
    have h1 : (n + 2) * cf.blockSize ≤ (B + 1) * cf.blockSize := Nat.mul_le_mul_right _ (by omega)
    have h2 := mul_succ_add n cf.blockSize
    have h3 : cf.blockSize ≤ (n + 1) * cf.blockSize := Nat.le_mul_of_pos_left _ (by omega)
    rw [show (B + 1) * cf.blockSize - 104 = ((n + 1) * cf.blockSize - 104) + (cf.blockSize + ((B + 1) * cf.blockSize - (n + 2) * cf.blockSize)) by omega,
      zeros_add, zeros_add, ← List.append_assoc]
    apply slice_mid'
    · simp [hlen]; omega
    · simp
  · intro n hn
    simpa [items, itemsOf] using bucketOk_empty _ cf.cap

end

end NuDB
