import Verif.Proof.Prepare
/- Second part of `commit`: log records, key file, syncs. -/
namespace NuDB

open Spec

section
variable {c : Cfg} {cf : Conf} {σ : Schedule} {lim nb : Prop}

/-- Files while the log records are written. -/
structure LogP (df kf : FileSt) (full : Bytes) (fs : Fs) : Prop where
  dat : fs .dat = some df
  key : fs .key = some kf
  log : ∃ f, fs .log = some f ∧ ∀ l, Ordered f l → 62 ≤ l.length ∧ l <+: full

theorem logP_append (df kf : FileSt) (full : Bytes) :
    Appendable .log (fun v => v <+: full) (LogP df kf full) where
  prefix_closed := fun a b h => (List.prefix_append a b).trans h
  step := by
    intro fs f bs hP hf hA
    refine ⟨by simpa using hP.dat, by simpa using hP.key, ⟨_, Fs.set_same _ _ _, ?_⟩⟩
    obtain ⟨f', e, h⟩ := hP.log
    rw [hf] at e; cases e
    intro l hl
    rcases ordered_push_write hl with hl | ⟨j, rfl⟩
    · exact h l hl
    · simp only [POp.apply, writeAt_end]
      have h0 := h _ (ordered_cur f)
      refine ⟨by rw [List.length_append]; omega, ?_⟩
      refine List.IsPrefix.trans ?_ hA
      rw [List.prefix_append_right_inj]
      exact List.take_prefix _ _

theorem logP_safe {L : Nat} {G : Bytes → Bytes → Prop} {D0 K0 : Bytes} {recs : List Rec} {B : Nat}
    {view : View} (hdb : Db c cf D0 K0 recs B view) (hG : G D0 K0) {ns : List Nat}
    (hns : ∀ n ∈ ns, n < B) {df kf : FileSt}
    (hL : (logBytes c cf K0.length D0.length view ns).length ≤ L)
    (sd : ∀ v, Version df v → D0 <+: v) (sk : Stable kf K0) {fs : Fs}
    (h : LogP df kf (logBytes c cf K0.length D0.length view ns) fs) : Safe c cf L G fs := by
  obtain ⟨lf, hl, hi⟩ := h.log
  refine .long df kf lf D0 K0 h.dat h.key hl (hi _ (ordered_cur lf)).1 hG ?_ ?_
  · intro l ho h62
    obtain ⟨_, hpre⟩ := hi l ho
    obtain ⟨ns', rest, h1, h2, h3⟩ := log_split hns hpre h62
    exact ⟨recs, B, view, ns', rest, hdb, fun n hn => hns n (h1 n hn), h2, h3,
      Nat.le_trans hpre.length_le hL, sd, fun v hv => by rw [sk v hv]; exact agree_self _ _ _⟩
  · intro l ho h62
    have := (hi l ho).1
    omega

theorem wp_logRecords {P : Fs → Prop} {full : Bytes} {view0 : View}
    (hA : Appendable .log (fun v => v <+: full) P) {Q : Writer → World → Prop} (hcf : cf.Ok) :
    ∀ (l : List (Nat × Bytes)) (wr : Writer) (w : World) (V : Bytes),
    (∀ n p, (n, p) ∈ l → Blob cf.blockSize p (view0 n).1 (view0 n).2 ∧
      (∀ e ∈ (view0 n).1, e.Fit) ∧ (view0 n).2 < 2 ^ 48) →
    WInv wr .log w.fs V → P w.fs → V ++ (l.map (·.1)).flatMap (logRec view0) <+: full →
    (∀ wr' w', WInv wr' .log w'.fs (V ++ (l.map (·.1)).flatMap (logRec view0)) → P w'.fs →
      SameExcept .log w.fs w'.fs → w'.out = w.out → Q wr' w') →
    wp σ (logRecords cf.blockSize l wr) Q (XP σ P lim nb) w := by
  intro l
  induction l with
  | nil =>
    intro wr w V _ hw hP _ hQ
    apply wp_ret
    exact hQ wr w (by simpa using hw) hP (SameExcept.refl _ _) rfl
  | cons x l ih =>
    obtain ⟨n, p⟩ := x
    intro wr w V hb hw hP hpre hQ
    unfold logRecords
    obtain ⟨h1, h2, h3⟩ := hb n p (by simp)
    obtain ⟨b, e1, e2, e3, e4⟩ := h1.load hcf.bs2 h2 h3
    simp only [List.map_cons, List.flatMap_cons, ← List.append_assoc] at hpre hQ
    apply wp_bind
    apply wp_lift_ok e1
    apply wp_bind
    apply wp_lift_ok e2.compact
    apply wp_bind
    apply wp_wappend hw hP hA ((List.prefix_append _ _).trans ((List.prefix_append _ _).trans hpre)) (by
      have := e2.room
      have := hcf.bs2
      rw [e3] at *
      simp only [List.length_append, putU64_length, encBkt_length]
      omega)
    intro wr1 w1 g1 g2 g3 g4
    apply ih wr1 w1 (V ++ logRec view0 n) (fun m q hm => hb m q (by simp [hm])) g1 g2 hpre
    intro wr2 w2 k1 k2 k3 k4
    exact hQ wr2 w2 k1 k2 (g3.trans k3) (k4.trans g4)

/-- `commitLog`. -/
theorem wp_commitLog {w : World} {df kf lf : FileSt} {D0 K0 : Bytes} {view0 : View} {c0 : Cache}
    (hcf : cf.Ok)
    (hb : ∀ n p, (n, p) ∈ c0 → Blob cf.blockSize p (view0 n).1 (view0 n).2 ∧
      (∀ e ∈ (view0 n).1, e.Fit) ∧ (view0 n).2 < 2 ^ 48)
    (hd : w.fs .dat = some df) (hk : w.fs .key = some kf)
    (hl : w.fs .log = some (FileSt.clean (putLogHeader (cf.lh c.H K0.length D0.length))))
    {Q : Unit → World → Prop}
    (hQ : ∀ w', w'.fs .dat = some df → w'.fs .key = some kf →
      w'.fs .log = some (FileSt.clean (logBytes c cf K0.length D0.length view0 ((c.order c0).map (·.1)))) →
      w'.out = w.out → Q () w') :
    wp σ (commitLog c cf.blockSize c0) Q
      (XP σ (LogP df kf (logBytes c cf K0.length D0.length view0 ((c.order c0).map (·.1)))) lim nb) w := by
  unfold commitLog
  have hP : LogP df kf (logBytes c cf K0.length D0.length view0 ((c.order c0).map (·.1))) w.fs := by
    refine ⟨hd, hk, _, hl, ?_⟩
    intro l ho
    rw [ordered_clean.mp ho]
    exact ⟨by simp, List.prefix_append _ _⟩
  apply wp_bind
  apply wp_fSize (by exact hl) _ (by exact XP.fault hP)
  apply wp_bind
  apply wp_logRecords (logP_append df kf _) hcf
    (c.order c0) _ _ (putLogHeader (cf.lh c.H K0.length D0.length)) (view0 := view0)
  · exact fun n p hm => hb n p ((c.order_perm c0).mem_iff.mp hm)
  · exact winv_new hl (by decide)
  · exact hP
  · exact List.prefix_refl _
  · intro wr1 w1 h1 h2 h3 h4
    apply wp_bind
    apply wp_wflush h1 h2 (logP_append df kf _) (List.prefix_refl _)
    intro wr2 w2 g1 g2 g3 g4 g5
    obtain ⟨f, hf, hfc, _⟩ := g1.file
    rw [g2, List.append_nil] at hfc
    apply wp_fSync hf _ (by exact XP.fault g3)
    apply hQ
    · simpa using g3.dat
    · simpa using g3.key
    · simp only [tick_fs, Fs.set_same, synced_eq, hfc]; rfl
    · simp only [tick_out]; rw [g5, h4]; rfl

/-- The current key file while the new buckets are written; `rest` are still missing. -/
structure KeyCur (c : Cfg) (cf : Conf) (B1 : Nat) (view : View) (rest : List Nat) (v : Bytes) : Prop where
  le : v.length ≤ (B1 + 1) * cf.blockSize
  head : v.take 104 = putKeyHeader (cf.kh c.H B1)
  pos : cf.blockSize ≤ v.length
  blocks : ∀ n, n < B1 → n ∉ rest → (n + 2) * cf.blockSize ≤ v.length ∧
    slice v ((n + 1) * cf.blockSize) cf.blockSize = encBlock cf.blockSize (view n).1 (view n).2

theorem writeAt_slice_other {f bs : Bytes} {o o' n : Nat} (h : o' + n ≤ o ∨ o + bs.length ≤ o')
    (hi : o' + n ≤ f.length) : slice (writeAt f o bs) o' n = slice f o' n := by
  apply List.ext_getElem?
  intro i
  rw [slice_getElem?, slice_getElem?]
  split
  · exact writeAt_getElem? (by omega) (by omega)
  · rfl

theorem writeAt_slice_same {f bs : Bytes} {o : Nat} : slice (writeAt f o bs) o bs.length = bs := by
  apply List.ext_getElem?
  intro i
  rw [slice_getElem?]
  split
  · rw [writeAt_getElem?_in (by omega) (by omega)]; congr 1; omega
  · rw [List.getElem?_eq_none (by omega)]

theorem Agree.write {bs : Nat} {K v b : Bytes} {ns : List Nat} {n o : Nat} (h : Agree bs K ns v)
    (ho : o = (n + 1) * bs) (hb : b.length ≤ bs) (hn : n ∈ ns ∨ K.length ≤ (n + 1) * bs) :
    Agree bs K ns (writeAt v o b) := by
  refine ⟨Nat.le_trans h.le (writeAt_le_length _ _ _), ?_⟩
  intro i hi
  have hv := h.le
  by_cases hin : o ≤ i ∧ i < o + b.length
  · rcases hn with hn | hn
    · right
      refine ⟨n, hn, by omega, ?_⟩
      have : (n + 2) * bs = (n + 1) * bs + bs := by rw [Nat.add_mul n 2, Nat.add_mul n 1]; omega
      omega
    · omega
  · rw [writeAt_getElem? (by omega) (by omega)]
    exact h.same i hi

theorem mul_succ_add (n bs : Nat) : (n + 2) * bs = (n + 1) * bs + bs := by
  rw [Nat.add_mul n 2, Nat.add_mul n 1]; omega

theorem KeyCur.write {B1 n : Nat} {view : View} {rest : List Nat} {v b : Bytes} (hcf : cf.Ok)
    (h : KeyCur c cf B1 view (n :: rest) v) (hn : n < B1) (hb : b = encBlock cf.blockSize (view n).1 (view n).2)
    (hl : b.length = cf.blockSize) :
    KeyCur c cf B1 view rest (writeAt v ((n + 1) * cf.blockSize) b) := by
  have h104 := hcf.bs1
  have hne : b ≠ [] := by intro e; rw [e] at hl; simp at hl; omega
  have hpos := h.pos
  have hle : cf.blockSize ≤ (n + 1) * cf.blockSize := Nat.le_mul_of_pos_left _ (by omega)
  have hlen : (writeAt v ((n + 1) * cf.blockSize) b).length = max v.length ((n + 2) * cf.blockSize) := by
    rw [writeAt_length hne, hl, mul_succ_add]
  refine ⟨?_, ?_, by omega, ?_⟩
  · rw [hlen]
    have : (n + 2) * cf.blockSize ≤ (B1 + 1) * cf.blockSize := Nat.mul_le_mul_right _ (by omega)
    have := h.le
    omega
  · rw [take_eq_slice, writeAt_slice_other (by omega) (by omega), ← take_eq_slice]; exact h.head
  · intro m hm hmr
    by_cases hmn : m = n
    · subst hmn
      refine ⟨by omega, ?_⟩
      have := writeAt_slice_same (f := v) (bs := b) (o := (m + 1) * cf.blockSize)
      rw [hl] at this
      rw [this, hb]
    · obtain ⟨h1, h2⟩ := h.blocks m hm (by simp [hmn, hmr])
      refine ⟨by omega, ?_⟩
      rw [writeAt_slice_other _ (by rw [mul_succ_add] at h1; omega), h2]
      rcases Nat.lt_or_gt_of_ne hmn with hlt | hlt
      · left
        have : (m + 2) * cf.blockSize ≤ (n + 1) * cf.blockSize := Nat.mul_le_mul_right _ (by omega)
        rw [mul_succ_add] at this; exact this
      · right
        have : (n + 2) * cf.blockSize ≤ (m + 1) * cf.blockSize := Nat.mul_le_mul_right _ (by omega)
        rw [mul_succ_add] at this; rw [hl]; exact this

theorem KeyCur.done {B1 : Nat} {view : View} {v : Bytes} (h : KeyCur c cf B1 view [] v) (hB : 1 ≤ B1) :
    KeyFile c cf v B1 view where
  len := by
    have h1 := h.le
    have h2 := (h.blocks (B1 - 1) (by omega) (by simp)).1
    rw [show B1 - 1 + 2 = B1 + 1 by omega] at h2
    omega
  head := h.head
  blocks := fun n hn => (h.blocks n hn (by simp)).2

/-- Files while the key file is written. -/
structure KeyP (df : FileSt) (full : Bytes) (bs : Nat) (K0 : Bytes) (ns : List Nat) (fs : Fs) : Prop where
  dat : fs .dat = some df
  log : fs .log = some (FileSt.clean full)
  key : ∃ f, fs .key = some f ∧ ∀ v, Version f v → Agree bs K0 ns v

theorem keyP_safe {L : Nat} {G : Bytes → Bytes → Prop} {D0 K0 : Bytes} {recs : List Rec} {B : Nat}
    {view : View} (hdb : Db c cf D0 K0 recs B view) (hG : G D0 K0) {ns : List Nat}
    (hns : ∀ n ∈ ns, n < B) {df : FileSt}
    (hL : (logBytes c cf K0.length D0.length view ns).length ≤ L)
    (sd : ∀ v, Version df v → D0 <+: v) {fs : Fs}
    (h : KeyP df (logBytes c cf K0.length D0.length view ns) cf.blockSize K0 ns fs) : Safe c cf L G fs := by
  obtain ⟨kf, hk, hv⟩ := h.key
  refine .long df kf _ D0 K0 h.dat hk h.log ?_ hG ?_ ?_
  · simp [logBytes]
  · intro l ho _
    rw [ordered_clean.mp ho]
    exact ⟨recs, B, view, ns, [], hdb, hns, by simp, .inl rfl, hL, sd, hv⟩
  · intro l ho h62
    rw [ordered_clean.mp ho] at h62
    simp [logBytes] at h62
    omega

theorem wp_keyBlocks {df : FileSt} {full K0 : Bytes} {ns : List Nat} {B1 : Nat} {view : View}
    (hcf : cf.Ok) {Q : Unit → World → Prop} :
    ∀ (l : List (Nat × Bytes)) (w : World) (f : FileSt),
    (∀ n p, (n, p) ∈ l → n < B1 ∧ Blob cf.blockSize p (view n).1 (view n).2 ∧
      (∀ e ∈ (view n).1, e.Fit) ∧ (view n).2 < 2 ^ 48 ∧ (n ∈ ns ∨ K0.length ≤ (n + 1) * cf.blockSize)) →
    KeyP df full cf.blockSize K0 ns w.fs → w.fs .key = some f →
    KeyCur c cf B1 view (l.map (·.1)) f.cur →
    (∀ w' f', KeyP df full cf.blockSize K0 ns w'.fs → w'.fs .key = some f' →
      KeyCur c cf B1 view [] f'.cur → w'.out = w.out → Q () w') →
    wp σ (keyBlocks cf.blockSize l) Q (XP σ (KeyP df full cf.blockSize K0 ns) lim nb) w := by
  intro l
  induction l with
  | nil =>
    intro w f _ hP hf hcur hQ
    apply wp_ret
    exact hQ w f hP hf hcur rfl
  | cons x l ih =>
    obtain ⟨n, p⟩ := x
    intro w f hb hP hf hcur hQ
    obtain ⟨hn, h1, h2, h3, h4⟩ := hb n p (by simp)
    obtain ⟨b, e1, e2, e3, e4⟩ := h1.load hcf.bs2 h2 h3
    have hroom := e2.room
    have hpad := e2.padded
    rw [e3] at hpad hroom
    have hlen : (encBkt (view n).1 (view n).2 ++ zeros (cf.blockSize - bucketSize (view n).1.length)).length
        = cf.blockSize := by simp; omega
    unfold keyBlocks
    apply wp_bind
    apply wp_lift_ok e1
    unfold Bkt.writeFile
    apply wp_bind
    apply wp_bind
    apply wp_lift_ok hpad
    have hstep : ∀ bs : Bytes, bs.length ≤ cf.blockSize →
        KeyP df full cf.blockSize K0 ns
          (w.fs.set .key (some (f.push (.write ((n + 1) * cf.blockSize) bs)))) := by
      intro bs hbs
      refine ⟨by simpa using hP.dat, by simpa using hP.log, ⟨_, Fs.set_same _ _ _, ?_⟩⟩
      obtain ⟨f', ef, hv⟩ := hP.key
      rw [hf] at ef; cases ef
      intro v hver
      rcases version_push.mp hver with hver | rfl
      · exact hv v hver
      · exact (hv _ (version_cur f)).write rfl hbs h4
    apply wp_fWrite hf
    · apply ih _ _ (fun m q hm => hb m q (by simp [hm])) (hstep _ (by omega)) (by simp only [tick_fs]; exact Fs.set_same _ _ _)
      · rw [cur_push]
        simp only [List.map_cons] at hcur
        exact hcur.write hcf hn rfl hlen
      · intro w' f' q1 q2 q3 q4
        exact hQ w' f' q1 q2 q3 (by rw [q4]; rfl)
    · intro x k hx hfa
      refine ⟨hstep _ ?_, .inl ⟨hx, hfa⟩⟩
      rw [List.length_take]; omega

/-- The part of `commitFinish` after the log is written. -/
def keysPart (c : Cfg) (bs : Nat) (c1 : Cache) : M Unit := do
  keyBlocks bs (c.order c1)
  fSync .dat
  fSync .key
  fTrunc .log 0
  fSync .log

theorem commitFinish_eq (c : Cfg) (bs : Nat) (c0 c1 : Cache) :
    commitFinish c bs c0 c1 = (commitLog c bs c0 >>= fun _ => keysPart c bs c1) := rfl

/-- Files after the log has been written. -/
structure Logged (c : Cfg) (cf : Conf) (D0 K0 : Bytes) (view0 : View) (c0 : Cache) (df kf : FileSt) (fs : Fs) :
    Prop where
  dat : fs .dat = some df
  key : fs .key = some kf
  log : fs .log = some (FileSt.clean (logBytes c cf K0.length D0.length view0 ((c.order c0).map (·.1))))

theorem wp_logPart {w : World} {L : Nat} {G : Bytes → Bytes → Prop} {D0 K0 : Bytes}
    {recs0 : List Rec} {B0 B1 : Nat} {view0 view : View} {c0 c1 : Cache} {df kf : FileSt}
    (hdb : Db c cf D0 K0 recs0 B0 view0) (hG : G D0 K0)
    (hC : Caches cf B0 B1 view0 view c0 c1)
    (hfit0 : ∀ n, n < B0 → (∀ e ∈ (view0 n).1, e.Fit) ∧ (view0 n).2 < 2 ^ 48)
    (hL : (logBytes c cf K0.length D0.length view0 ((c.order c0).map (·.1))).length ≤ L)
    (hd : w.fs .dat = some df) (sd : ∀ v, Version df v → D0 <+: v)
    (hk : w.fs .key = some kf) (sk : Stable kf K0)
    (hl : w.fs .log = some (FileSt.clean (putLogHeader (cf.lh c.H K0.length D0.length))))
    {Q : Unit → World → Prop}
    (hQ : ∀ w', Logged c cf D0 K0 view0 c0 df kf w'.fs → w'.out = w.out → Q () w') :
    wp σ (commitLog c cf.blockSize c0) Q (XP σ (Safe c cf L G) lim nb) w := by
  have hcf := hdb.conf
  have hns : ∀ n ∈ (c.order c0).map (·.1), n < B0 := by
    intro n hn
    obtain ⟨x, hx, rfl⟩ := List.mem_map.mp hn
    exact (hC.blob0 x.1 x.2 ((c.order_perm c0).mem_iff.mp hx)).1
  have hlogsafe : ∀ fs, LogP df kf (logBytes c cf K0.length D0.length view0 ((c.order c0).map (·.1))) fs →
      Safe c cf L G fs := by
    intro fs h; exact logP_safe hdb hG hns hL sd sk h
  refine wp_conseq (X := XP σ (LogP df kf (logBytes c cf K0.length D0.length view0 ((c.order c0).map (·.1)))) lim nb)
    ?_ (fun _ _ h => h) (fun _ _ h => h.mono hlogsafe id id)
  exact wp_commitLog (σ := σ) (lim := lim) (nb := nb) (c := c) (cf := cf) (w := w) (df := df) (kf := kf)
    (lf := kf) (D0 := D0) (K0 := K0) (view0 := view0) (c0 := c0) hcf
    (fun n p hm => ⟨(hC.blob0 n p hm).2, hfit0 n (hC.blob0 n p hm).1⟩) hd hk hl
    (fun w' a b d e => hQ w' ⟨a, b, d⟩ e)

theorem Logged.safe {L : Nat} {G : Bytes → Bytes → Prop} {D0 K0 : Bytes}
    {recs0 : List Rec} {B0 B1 : Nat} {view0 view : View} {c0 c1 : Cache} {df kf : FileSt}
    (hdb : Db c cf D0 K0 recs0 B0 view0) (hG : G D0 K0) (hC : Caches cf B0 B1 view0 view c0 c1)
    (hL : (logBytes c cf K0.length D0.length view0 ((c.order c0).map (·.1))).length ≤ L)
    (sd : ∀ v, Version df v → D0 <+: v) (sk : Stable kf K0) {fs : Fs}
    (h : Logged c cf D0 K0 view0 c0 df kf fs) : Safe c cf L G fs := by
  have hns : ∀ n ∈ (c.order c0).map (·.1), n < B0 := by
    intro n hn
    obtain ⟨x, hx, rfl⟩ := List.mem_map.mp hn
    exact (hC.blob0 x.1 x.2 ((c.order_perm c0).mem_iff.mp hx)).1
  refine keyP_safe hdb hG hns hL sd ⟨h.dat, h.log, kf, h.key, fun v hv => ?_⟩
  rw [sk v hv]; exact agree_self _ _ _

theorem wp_keysPart {w : World} {L : Nat} {G : Bytes → Bytes → Prop} {D0 K0 D1 : Bytes}
    {recs0 recs1 : List Rec} {B0 B1 : Nat} {view0 view : View} {c0 c1 : Cache} {df kf : FileSt}
    (hdb : Db c cf D0 K0 recs0 B0 view0) (hG : G D0 K0)
    (hnew : ∀ K1, KeyFile c cf K1 B1 view → Db c cf D1 K1 recs1 B1 view ∧ G D1 K1)
    (hC : Caches cf B0 B1 view0 view c0 c1) (hB1 : 1 ≤ B1)
    (hfit : ∀ n, n < B1 → (∀ e ∈ (view n).1, e.Fit) ∧ (view n).2 < 2 ^ 48)
    (hL : (logBytes c cf K0.length D0.length view0 ((c.order c0).map (·.1))).length ≤ L)
    (sd : ∀ v, Version df v → D0 <+: v) (hdc : df.cur = D1) (sk : Stable kf K0)
    (hlg : Logged c cf D0 K0 view0 c0 df kf w.fs)
    {Q : Unit → World → Prop}
    (hQ : ∀ w' K1, Idle D1 K1 w'.fs → KeyFile c cf K1 B1 view → w'.out = w.out → Q () w') :
    wp σ (keysPart c cf.blockSize c1) Q (XP σ (Safe c cf L G) lim nb) w := by
  obtain ⟨a1, a2, a3⟩ := hlg
  have hcf := hdb.conf
  have h104 := hcf.bs1
  have hns : ∀ n ∈ (c.order c0).map (·.1), n < B0 := by
    intro n hn
    obtain ⟨x, hx, rfl⟩ := List.mem_map.mp hn
    exact (hC.blob0 x.1 x.2 ((c.order_perm c0).mem_iff.mp hx)).1
  have hns1 : ∀ n, n < B0 → n ∈ c1.idx → n ∈ (c.order c0).map (·.1) := by
    intro n h1 h2
    have := hC.logged n h1 h2
    exact ((c.order_perm c0).map (·.1)).mem_iff.mpr this
  generalize hnsd : (c.order c0).map (·.1) = ns at *
  generalize hfull : logBytes c cf K0.length D0.length view0 ns = full at *
  have hkeysafe : ∀ fs, KeyP df full cf.blockSize K0 ns fs → Safe c cf L G fs := by
    intro fs h; subst hfull; exact keyP_safe hdb hG hns hL sd h
  unfold keysPart
  have hP1 : KeyP df full cf.blockSize K0 ns w.fs :=
    ⟨a1, a3, kf, a2, fun v hv => by rw [sk v hv]; exact agree_self _ _ _⟩
  apply wp_bind
  refine wp_conseq (X := XP σ (KeyP df full cf.blockSize K0 ns) lim nb) ?_ (fun _ _ h => h)
    (fun _ _ h => h.mono hkeysafe id id)
  apply wp_keyBlocks (c := c) (B1 := B1) (view := view) hcf (c.order c1) w kf
  · intro n p hm
    have hm1 := (c.order_perm c1).mem_iff.mp hm
    obtain ⟨hn, hbl⟩ := hC.blob1 n p hm1
    refine ⟨hn, hbl, (hfit n hn).1, (hfit n hn).2, ?_⟩
    by_cases hnB : n < B0
    · left; exact hns1 n hnB (List.mem_map.mpr ⟨_, hm1, rfl⟩)
    · right; rw [hdb.key.len]; exact Nat.mul_le_mul_right _ (by omega)
  · exact hP1
  · exact a2
  · rw [sk.cur]
    have hlen := hdb.key.len
    refine ⟨?_, ?_, ?_, ?_⟩
    · rw [hlen]; exact Nat.mul_le_mul_right _ (by have := hC.le; omega)
    · rw [hdb.key.head]; exact Conf.putKeyHeader_kh _ _ _ _
    · rw [hlen]; exact Nat.le_mul_of_pos_left _ (by omega)
    · intro n hn hnr
      have hni : n ∉ c1.idx := fun h => hnr (((c.order_perm c1).map (·.1)).mem_iff.mpr h)
      have hnB : n < B0 := by
        by_cases h : n < B0
        · exact h
        · exact absurd (hC.fresh n (by omega) hn) hni
      rw [hC.old n hnB hni]
      refine ⟨?_, hdb.key.blocks n hnB⟩
      rw [hlen]; exact Nat.mul_le_mul_right _ (by omega)
  · intro w2 kf2 b1 b2 b3 b4
    have hK1 := b3.done hB1
    obtain ⟨_, hG1⟩ := hnew _ hK1
    refine wp_conseq (X := XP σ (Safe c cf L G) lim nb) ?_ (fun _ _ h => h) (fun _ _ h => h)
    have hP := hkeysafe _ b1
    obtain ⟨kf2', e2, hv2⟩ := b1.key
    rw [b2] at e2; cases e2
    have hpre : D0 <+: D1 := hdc ▸ sd _ (version_cur df)
    have hag : Agree cf.blockSize K0 ns kf2.cur := hv2 _ (version_cur kf2)
    have hroll : Roll c cf L D0 K0 full (FileSt.clean D1) (FileSt.clean kf2.cur) := by
      refine ⟨recs0, B0, view0, ns, [], hdb, hns, by simp [hfull], .inl rfl, hL, ?_, ?_⟩
      · intro v hv; rw [version_clean.mp hv]; exact hpre
      · intro v hv; rw [version_clean.mp hv]; exact hag
    have hf62 : 62 ≤ full.length := by rw [← hfull]; simp [logBytes]
    apply wp_bind
    apply wp_fSync (by exact b1.dat) _ (by exact XP.fault hP)
    have hP3 : KeyP df.synced full cf.blockSize K0 ns (w2.fs.set .dat (some df.synced)) :=
      ⟨by simp, by simpa using b1.log, kf2, by simpa using b2, hv2⟩
    have hP3' : Safe c cf L G (w2.fs.set .dat (some df.synced)) := by
      subst hfull
      refine keyP_safe hdb hG hns hL ?_ hP3
      intro v hv
      rw [synced_eq, version_clean] at hv
      rw [hv, hdc]; exact hpre
    apply wp_bind
    apply wp_fSync (f := kf2) (by simpa using b2) _ (by exact XP.fault hP3')
    generalize hfs4 : Fs.set _ .key (some kf2.synced) = fs4
    have d4 : fs4 .dat = some (FileSt.clean D1) := by rw [← hfs4]; simp [synced_eq, hdc]
    have k4 : fs4 .key = some (FileSt.clean kf2.cur) := by rw [← hfs4]; simp [synced_eq]
    have l4 : fs4 .log = some (FileSt.clean full) := by rw [← hfs4]; simpa using b1.log
    have hP4 : Safe c cf L G fs4 := by
      refine .long _ _ _ D0 K0 d4 k4 l4 hf62 hG ?_ ?_
      · intro l ho _; rw [ordered_clean.mp ho]; exact hroll
      · intro l ho h; rw [ordered_clean.mp ho] at h; omega
    apply wp_bind
    apply wp_fTrunc (by exact l4) _ (by exact XP.fault hP4)
    have hP5 : Safe c cf L G (fs4.set .log (some ((FileSt.clean full).push (.trunc 0)))) := by
      refine .short _ _ _ D1 kf2.cur (by simpa using d4) (by simpa using k4) (Fs.set_same _ _ _) ?_ hG1
        (stable_clean _) (stable_clean _) ?_
      · rw [cur_push]; simp [POp.apply, truncAt_zero]
      · refine ⟨D0, K0, hG, ?_⟩
        intro l ho h62
        rcases ordered_push_trunc ho with ho | rfl
        · rw [ordered_clean.mp ho]; exact hroll
        · simp [truncAt_zero] at h62
    apply wp_fSync (f := (FileSt.clean full).push (.trunc 0)) (by simp) _ (by exact XP.fault hP5)
    apply hQ _ kf2.cur _ hK1
    · simp only [tick_out]; rw [b4]
    · refine ⟨⟨_, by simpa using d4, stable_clean _⟩, ⟨_, by simpa using k4, stable_clean _⟩, ?_⟩
      simp only [tick_fs, Fs.set_same, synced_eq, cur_push]
      simp [POp.apply, truncAt_zero]

/-- `commitFinish`. -/
theorem wp_commitFinish {w : World} {L : Nat} {G : Bytes → Bytes → Prop} {D0 K0 D1 : Bytes}
    {recs0 recs1 : List Rec} {B0 B1 : Nat} {view0 view : View} {c0 c1 : Cache} {df kf : FileSt}
    (hdb : Db c cf D0 K0 recs0 B0 view0) (hG : G D0 K0)
    (hnew : ∀ K1, KeyFile c cf K1 B1 view → Db c cf D1 K1 recs1 B1 view ∧ G D1 K1)
    (hC : Caches cf B0 B1 view0 view c0 c1) (hB1 : 1 ≤ B1)
    (hfit0 : ∀ n, n < B0 → (∀ e ∈ (view0 n).1, e.Fit) ∧ (view0 n).2 < 2 ^ 48)
    (hfit : ∀ n, n < B1 → (∀ e ∈ (view n).1, e.Fit) ∧ (view n).2 < 2 ^ 48)
    (hL : (logBytes c cf K0.length D0.length view0 ((c.order c0).map (·.1))).length ≤ L)
    (hd : w.fs .dat = some df) (sd : ∀ v, Version df v → D0 <+: v) (hdc : df.cur = D1)
    (hk : w.fs .key = some kf) (sk : Stable kf K0)
    (hl : w.fs .log = some (FileSt.clean (putLogHeader (cf.lh c.H K0.length D0.length))))
    {Q : Unit → World → Prop}
    (hQ : ∀ w' K1, Idle D1 K1 w'.fs → KeyFile c cf K1 B1 view → w'.out = w.out → Q () w') :
    wp σ (commitFinish c cf.blockSize c0 c1) Q (XP σ (Safe c cf L G) lim nb) w := by
  rw [commitFinish_eq]
  apply wp_bind
  apply wp_logPart hdb hG hC hfit0 hL hd sd hk sk hl
  intro w' hlg ho
  apply wp_keysPart hdb hG hnew hC hB1 hfit hL sd hdc sk hlg
  intro w2 K1 h1 h2 h3
  exact hQ w2 K1 h1 h2 (by rw [h3, ho])

end

end NuDB
