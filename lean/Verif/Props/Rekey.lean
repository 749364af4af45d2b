import Verif.Proof.Undo
import Verif.Proof.Visit
import Verif.Proof.Silent
import Verif.Proof.Settled
import Verif.Spec.Lifetime
import Verif.Props.Demo
/-
C29, C30, C31, C32 and C46 (second part): `rekey`.
-/
namespace NuDB

open Spec

variable {c : Cfg} {a : CreateArgs} {lf lf' : Nat} {short : Prop} {t : List Label} {fs : Fs} {ra : RekeyArgs}

theorem rekeyable_ok (hra : Rekeyable ra lf') {cf : Conf} (hcf : cf.Ok) :
    ra.load.fixed = .ok lf' ∧ (ra.conf cf lf').Ok := by
  obtain ⟨num, den, h1, h2, h3, h4⟩ := hra.load
  have hpos : (0 : Int) < den := by omega
  have hlt : lf' < 65536 := by
    rw [h4]
    apply Nat.div_lt_of_lt_mul
    have : num.toNat < den := by omega
    omega
  constructor
  · rw [h1, Load.fixed, if_neg (by omega), ← h4, Nat.min_eq_left (by omega)]
  · exact ⟨hcf.uid, hcf.appnum, hra.salt, hcf.key1, hcf.key2, hra.block.1, hra.block.2, hra.lf, by
      show lf' < 2 ^ 16; omega⟩

/-- The situation before `rekey`: a closed database whose key file has been removed. -/
theorem before_rekey (hc : Creatable a lf) (hr : Reachable c a short t (none, fs)) (hl : fs .log = none) :
    ∃ df D K recs B view, fs .dat = some df ∧ Stable df D ∧ Settled c (a.conf lf) fs D K recs B view ∧
      (pairsOf recs).length ≤ (inserted t).length := by
  obtain ⟨D, K, recs, B, view, hS, hf⟩ := settled hc hr hl
  obtain ⟨df, hd, sd⟩ := hS.closed.dat
  exact ⟨df, D, K, recs, B, view, hd, sd, hS, hf⟩

theorem rekey_wp (hra : Rekeyable ra lf') {cf : Conf} {D K : Bytes} {recs : List Rec} {B : Nat} {view : View}
    {df : FileSt} {w : World} {σ : Schedule} (hdb : Db c cf D K recs B view) (hd : fs .dat = some df) (sd : Stable df D)
    (hl : fs .log = none) (hw : w.fs = fs.set .key none) :
    wp σ (rekey c ra) (fun _ w' => Rebuilt c (ra.conf cf lf') D recs ra.buckets w'.fs)
      (XP σ (Undo c (ra.conf cf lf') D False)
        (D.length + (pairsOf recs).length * (ra.conf cf lf').recLen + 8 < 2 ^ 48) False) w := by
  obtain ⟨h1, h2⟩ := rekeyable_ok hra hdb.conf
  exact wp_rekey h1 h2 hra.buckets.1 hra.buckets.2 hdb.dat hdb.dlen (df := df) (by rw [hw]; simpa using hd) sd
    (by rw [hw]; exact Fs.set_same _ _ _) (by rw [hw]; simpa using hl) id

private theorem rebuilt_answers {cf : Conf} {D : Bytes} {recs : List Rec} {B : Nat} (h : Rebuilt c cf D recs B fs) :
    Answers c cf.keySize fs (kvOf (pairsOf recs)) := by
  obtain ⟨rs, view, df, kf, h1, h2, h3, h4, h5, h6, h7, h8⟩ := h
  have := answers_prefix h7 h2 (by rw [h3]; exact List.prefix_refl _) h5 rfl h6
  rwa [pairsOf_append, pairsOf_spills h1, List.append_nil] at this

theorem answers_congr {n : Nat} {m m' : Map} (h : Answers c n fs m) (e : ∀ k, k.length = n → m k = m' k) :
    Answers c n fs m' := by
  obtain ⟨w₁, s, w₂, h1, h2, h3⟩ := h
  refine ⟨w₁, s, w₂, h1, h2, ?_⟩
  intro w hw k hk
  rw [← e k hk]; exact h3 w hw k hk

/-- C29: after `rekey` lookups answer as before, the previous content of the data file is
unchanged (records may follow it), and the key file has the new parameters. `fs` is a closed
database without log file, `m` what lookups answer. `rekey` gets the data file only. The
schedule and the buffer size are arbitrary. -/
theorem C29_rekey {m : Map} {σ : Schedule} {w w' : World} (hc : Creatable a lf) (hr : Reachable c a short t (none, fs))
    (hl : fs .log = none) (hm : Answers c a.keySize fs m) (hra : Rekeyable ra lf') (hw : w.fs = fs.set .key none)
    (hrun : rekey c ra σ w = (.ok (), w')) :
    Answers c a.keySize w'.fs m ∧ w'.fs .log = none ∧
    (∃ D x, bytesOf fs .dat = some D ∧ bytesOf w'.fs .dat = some (D ++ x)) ∧
    ∃ K, bytesOf w'.fs .key = some K ∧ K.length = (ra.buckets + 1) * ra.blockSize ∧
      let h := getKeyHeader (K.take 104) K.length
      h.salt = ra.salt ∧ h.blockSize = ra.blockSize ∧ h.loadFactor = lf' ∧ h.buckets = ra.buckets ∧
        h.uid = a.uid ∧ h.appnum = a.appnum ∧ h.keySize = a.keySize := by
  obtain ⟨df, D, K, recs, B, view, hd, sd, hS, _⟩ := before_rekey hc hr hl
  have key := wp_elim (rekey_wp hra hS.db hd sd hl hw) hrun
  have ha := rebuilt_answers key
  refine ⟨answers_congr ha fun k hk => (hS.map.unique hm hk), ?_⟩
  obtain ⟨rs, view', df', kf, h1, h2, h3, h4, h5, h6, h7, h8⟩ := key
  refine ⟨h6, ⟨D, encRecs rs, by rw [bytesOf, hd]; simp [sd.cur], by rw [bytesOf, h2]; simp [h3]⟩, kf.cur,
    by rw [bytesOf, h5]; rfl, h7.key.len, ?_⟩
  have e : getKeyHeader (kf.cur.take 104) kf.cur.length = (ra.conf (a.conf lf) lf').kh c.H ra.buckets := by
    have := get_kh h7.conf h7.key.head kf.cur.length
    rw [take_eq_slice', h7.klen.2.2] at this
    exact this
  rw [e]
  exact ⟨rfl, rfl, rfl, rfl, rfl, rfl, rfl⟩

/-- C29: `rekey` succeeds if nothing disturbs it and the overflow records fit into the 48-bit
offsets of the file format (there is at most one for each value). -/
theorem C29_succeeds {w : World} {D : Bytes} (hc : Creatable a lf) (hr : Reachable c a short t (none, fs))
    (hl : fs .log = none) (hra : Rekeyable ra lf') (hw : w.fs = fs.set .key none) (hD : bytesOf fs .dat = some D)
    (hfit : D.length + (inserted t).length * (ra.blockSize + 8) + 8 < 2 ^ 48) :
    ∃ w', rekey c ra calm w = (.ok (), w') := by
  obtain ⟨df, D', K, recs, B, view, hd, sd, hS, hf⟩ := before_rekey hc hr hl
  have e : D' = D := by
    rw [bytesOf, hd] at hD; simpa [sd.cur] using hD
  subst e
  have key := rekey_wp (σ := calm) hra hS.db hd sd hl hw
  have hcf := (rekeyable_ok hra hS.db.conf).2
  have hrl : (ra.conf (a.conf lf) lf').recLen ≤ ra.blockSize + 8 := by
    have : bucketSize (ra.conf (a.conf lf) lf').cap ≤ ra.blockSize := hcf.cap_le
    unfold Conf.recLen; omega
  have hm := Nat.mul_le_mul hf hrl
  unfold wp at key
  split at key
  · rename_i u w' e; exact ⟨w', e⟩
  · rename_i x w' e
    rcases key.2 with ⟨_, h⟩ | ⟨_, h, _⟩
    · exact absurd h not_faulty_calm
    · exact absurd (by omega) h

/-- C29: the buffer size makes no difference to lookups. (The order of the overflow records does
depend on it.) -/
theorem C29_buffer_size {n : Nat} {m : Map} {σ σ' : Schedule} {w w' v v' : World} (hc : Creatable a lf)
    (hr : Reachable c a short t (none, fs)) (hl : fs .log = none) (hra : Rekeyable ra lf')
    (hw : w.fs = fs.set .key none) (hrun : rekey c ra σ w = (.ok (), w'))
    (hv : v.fs = fs.set .key none) (hrun' : rekey c { ra with bufferSize := n } σ' v = (.ok (), v'))
    (hm : Answers c a.keySize w'.fs m) : Answers c a.keySize v'.fs m := by
  obtain ⟨df, D, K, recs, B, view, hd, sd, hS, _⟩ := before_rekey hc hr hl
  have h1 := (C29_rekey hc hr hl hS.map hra hw hrun).1
  have h2 := (C29_rekey hc hr hl hS.map (ra := { ra with bufferSize := n })
    ⟨hra.salt, hra.block, hra.load, hra.lf, hra.buckets⟩ hv hrun').1
  exact answers_congr h2 fun k hk => h1.unique hm hk

/-- Undoing, with any number of attempts. -/
theorem undo_attempts {cf : Conf} {D : Bytes} {recs : List Rec} {st : Prop} (hcf : cf.Ok) (hdat : DatFile cf D recs)
    (hdl : D.length ≤ 2 ^ 49) {fs fs' : Fs} (h : Undo c cf D st fs) (hA : Attempts c True fs fs') : Undo c cf D True fs' := by
  induction hA with
  | none => exact h.mono
  | more _ σ _ hw hr hs ih =>
    rename_i w w' r _ _
    have key := wp_recover_undo (σ := σ) hcf hdat hdl (w := w) (hw ▸ ih)
    unfold wp at key
    rw [hr] at key
    cases r with
    | ok u => exact key.1.undo.restart hs
    | error x =>
      rcases key with ⟨h, _⟩ | ⟨_, h⟩
      · exact h.restart hs
      · exact h.undo.restart hs

theorem recover_undo {cf : Conf} {D : Bytes} {recs : List Rec} {st : Prop} (hcf : cf.Ok) (hdat : DatFile cf D recs)
    (hdl : D.length ≤ 2 ^ 49) {fs : Fs} (h : Undo c cf D st fs) :
    Undone D (recover c calm ⟨fs, 0, []⟩).2.fs ∧
      (((recover c calm ⟨fs, 0, []⟩).1 = .ok () ∨ (recover c calm ⟨fs, 0, []⟩).1 = .error (.err .no_key_file) ∨
        (recover c calm ⟨fs, 0, []⟩).1 = .error (.err .no_such_file)) ∧
      ((recover c calm ⟨fs, 0, []⟩).2.fs .log = none ∨ st)) := by
  have key := wp_recover_undo (σ := calm) hcf hdat hdl (w := ⟨fs, 0, []⟩) h
  unfold wp at key
  split at key
  · rename_i u w' e; rw [e]; exact ⟨key.1, .inl rfl, .inl key.2⟩
  · rename_i x w' e
    rw [e]
    rcases key with ⟨_, _, h⟩ | ⟨⟨rfl, h'⟩ | ⟨rfl, h'⟩, h⟩
    · exact absurd h not_faulty_calm
    · exact ⟨h, .inr (.inl rfl), .inl h'⟩
    · exact ⟨h, .inr (.inr rfl), h'⟩

theorem undone_restart {D : Bytes} {fs fs' : Fs} (h : Undone D fs) (hr : Restart fs fs') :
    bytesOf fs' .dat = some D ∧ fs' .key = none := by
  obtain ⟨df, h1, h2, h3⟩ := h
  rcases hr with rfl | hr
  · exact ⟨by rw [bytesOf, h1]; simp [h2.cur], h3⟩
  · have e1 := hr .dat
    rw [h1] at e1
    simp only [reduceCtorEq, if_false] at e1
    obtain ⟨img, e1, e2⟩ := e1
    have e3 := hr .key
    rw [h3] at e3
    exact ⟨by rw [bytesOf, e1, unordered_stable h2 e2]; simp, e3.elim id (fun h => by cases h.1)⟩

/-- C30: however `rekey` is interrupted (a crash, a failing file operation, too many overflow
records), whatever a power failure does then, and however many attempts to recover are
themselves interrupted: `recover` restores the data file and removes the key file, durably. It
says `no_key_file` or `no_such_file` if the key file was not started or is already removed. -/
theorem C30_interrupted {D : Bytes} {σ : Schedule} {w w' : World} {x : Exc} {fs₁ fs₂ fs₃ : Fs} (hc : Creatable a lf)
    (hr : Reachable c a short t (none, fs)) (hl : fs .log = none) (hD : bytesOf fs .dat = some D)
    (hra : Rekeyable ra lf') (hw : w.fs = fs.set .key none) (hrun : rekey c ra σ w = (.error x, w'))
    (hs : Restart w'.fs fs₁) (ha : Attempts c True fs₁ fs₂) :
    ((recover c calm ⟨fs₂, 0, []⟩).1 = .ok () ∨ (recover c calm ⟨fs₂, 0, []⟩).1 = .error (.err .no_key_file) ∨
      (recover c calm ⟨fs₂, 0, []⟩).1 = .error (.err .no_such_file)) ∧
    (Restart (recover c calm ⟨fs₂, 0, []⟩).2.fs fs₃ → bytesOf fs₃ .dat = some D ∧ fs₃ .key = none) := by
  obtain ⟨df, D', K, recs, B, view, hd, sd, hS, hf⟩ := before_rekey hc hr hl
  have e : D' = D := by
    rw [bytesOf, hd] at hD; simpa [sd.cur] using hD
  subst e
  have key := wp_elim_error (rekey_wp hra hS.db hd sd hl hw) hrun
  have hcf := (rekeyable_ok hra hS.db.conf).2
  have hdat := hS.db.dat.rekey ra lf'
  have h2 := undo_attempts hcf hdat hS.db.dlen (key.1.restart hs) ha
  obtain ⟨h3, h4, _⟩ := recover_undo hcf hdat hS.db.dlen h2
  exact ⟨h4, fun h => undone_restart h3 h⟩

/-- C30: if no attempt to recover is interrupted, the log file is removed, too, and everything
is as before `rekey`. -/
theorem C30_undone {D : Bytes} {σ : Schedule} {w w' : World} {x : Exc} {fs₁ : Fs} (hc : Creatable a lf)
    (hr : Reachable c a short t (none, fs)) (hl : fs .log = none) (hD : bytesOf fs .dat = some D)
    (hra : Rekeyable ra lf') (hw : w.fs = fs.set .key none) (hrun : rekey c ra σ w = (.error x, w'))
    (hs : Restart w'.fs fs₁) :
    bytesOf (recover c calm ⟨fs₁, 0, []⟩).2.fs .dat = some D ∧
      (recover c calm ⟨fs₁, 0, []⟩).2.fs .key = none ∧ (recover c calm ⟨fs₁, 0, []⟩).2.fs .log = none := by
  obtain ⟨df, D', K, recs, B, view, hd, sd, hS, hf⟩ := before_rekey hc hr hl
  have e : D' = D := by
    rw [bytesOf, hd] at hD; simpa [sd.cur] using hD
  subst e
  have key := wp_elim_error (rekey_wp hra hS.db hd sd hl hw) hrun
  have hcf := (rekeyable_ok hra hS.db.conf).2
  have hdat := hS.db.dat.rekey ra lf'
  obtain ⟨h3, _, h5⟩ := recover_undo hcf hdat hS.db.dlen (key.1.restart hs)
  obtain ⟨h6, h7⟩ := undone_restart h3 (.inl rfl)
  exact ⟨h6, h7, h5.elim id False.elim⟩

/-- `rekey` up to the creation of the key file, when there is a log file or a key file. -/
private theorem wp_refuses {w : World} {σ : Schedule} {X : Exc → World → Prop} (hlf : ra.load.fixed = .ok lf')
    (h : w.fs .log ≠ none ∨ w.fs .key ≠ none)
    (hF : ∀ x w', IsFault x → Faulty σ → w'.fs = w.fs → X x w')
    (hI : ∀ e w', w'.fs = w.fs → (∀ ks h D rest, bytesOf w.fs .dat = some D → DataHeader ks h → D = h ++ rest → False) →
      X (.err e) w')
    (hL : w.fs .log ≠ none → ∀ w', w'.fs = w.fs → X (.err .log_file_exists) w')
    (hK : w.fs .log = none → ∀ w', w'.fs = w.fs → X (.err .file_exists) w') :
    wp σ (rekey c ra) (fun _ _ => False) X w := by
  unfold rekey
  apply wp_bind
  cases hf : w.fs .dat with
  | none =>
    apply wp_fOpen_none hf
    · exact hI _ _ rfl (fun ks h D rest hD _ _ => by simp [bytesOf, hf] at hD)
    · intro x hx hy; exact hF _ _ hx hy rfl
  | some f =>
  apply wp_fOpen (by exact hf) _ (fun x hx hy => hF _ _ hx hy rfl)
  apply wp_bind
  unfold readDatHeader
  apply wp_bind
  by_cases h92 : f.cur.length < 92
  · refine wp_fRead_short (f := f) (by exact hf) (by decide) (by simp only [datHeaderSize]; omega)
      (hI _ _ rfl ?_) (fun x hx hy => hF _ _ hx hy rfl)
    intro ks h D rest hD hh e
    simp only [bytesOf, hf, Option.map_some, Option.some.injEq] at hD
    have := hh.length
    rw [hD, e, List.length_append] at h92
    omega
  apply wp_fRead (f := f) (by exact hf) (by simp only [datHeaderSize]; omega) _ (by exact fun x hx hy => hF _ _ hx hy rfl)
  apply wp_ret
  apply wp_bind
  cases hv : verifyDat (getDatHeader (slice f.cur 0 datHeaderSize)) with
  | error e =>
    refine wp_fail (e := e) (hI _ _ rfl ?_)
    intro ks h D rest hD hh he
    simp only [bytesOf, hf, Option.map_some, Option.some.injEq] at hD
    have := (verifyDat_header hh (hD.trans he)).2
    exact absurd (hv.symm.trans this) (by simp)
  | ok u =>
  apply wp_check_ok rfl
  apply wp_bind
  apply wp_fSize (by exact hf) _ (by exact fun x hx hy => hF _ _ hx hy rfl)
  apply wp_bind
  apply wp_attempt
  cases hl : w.fs .log with
  | some lg =>
    apply wp_fOpen (by exact hl)
    · exact wp_fail (hL (by simp [hl]) _ rfl)
    · intro x hx hy
      rcases hx with rfl | rfl
      · exact hF _ _ (.inl rfl) hy rfl
      · exact wp_fail (hF _ _ (.inr rfl) hy rfl)
  | none =>
    apply wp_fOpen_none (by exact hl)
    · dsimp only
      apply wp_bind
      apply wp_lift_ok hlf
      unfold rekeyPrepare
      apply wp_bind
      apply wp_bind
      have hk : w.fs .key ≠ none := h.resolve_left (fun h => h hl)
      cases hkf : w.fs .key with
      | none => exact absurd hkf hk
      | some kf =>
      apply wp_fCreate_some (by exact hkf)
      · exact hK hl _ rfl
      · intro x hx hy; exact hF _ _ hx hy rfl
    · intro x hx hy
      rcases hx with rfl | rfl
      · exact hF _ _ (.inl rfl) hy rfl
      · exact wp_fail (hF _ _ (.inr rfl) hy rfl)

/-- C31: if there is a log file or a key file, `rekey` fails and changes nothing, whatever the
files contain and whatever happens. -/
theorem C31_refuses (σ : Schedule) (w : World) (hlf : ra.load.fixed = .ok lf')
    (h : w.fs .log ≠ none ∨ w.fs .key ≠ none) :
    ∃ x w', rekey c ra σ w = (.error x, w') ∧ w'.fs = w.fs ∧ (x = .crash ∨ ∃ e, x = .err e) := by
  have key : wp σ (rekey c ra) (fun _ _ => False)
      (fun x w' => w'.fs = w.fs ∧ (x = .crash ∨ ∃ e, x = .err e)) w := by
    refine wp_refuses hlf h ?_ ?_ ?_ ?_
    · rintro x w' (rfl | rfl) _ h
      · exact ⟨h, .inl rfl⟩
      · exact ⟨h, .inr ⟨_, rfl⟩⟩
    · intro e w' h _; exact ⟨h, .inr ⟨_, rfl⟩⟩
    · intro _ w' h; exact ⟨h, .inr ⟨_, rfl⟩⟩
    · intro _ w' h; exact ⟨h, .inr ⟨_, rfl⟩⟩
  unfold wp at key
  split at key
  · exact key.elim
  · rename_i x w' e; exact ⟨x, w', e, key⟩

/-- C31: the error codes, if nothing else goes wrong and the data file has a valid header. -/
theorem C31_codes {w : World} {ks : Nat} {h rest : Bytes} (hlf : ra.load.fixed = .ok lf')
    (hd : bytesOf w.fs .dat = some (h ++ rest)) (hh : DataHeader ks h) :
    (w.fs .log ≠ none → (rekey c ra calm w).1 = .error (.err .log_file_exists)) ∧
    (w.fs .log = none → w.fs .key ≠ none → (rekey c ra calm w).1 = .error (.err .file_exists)) := by
  have key : w.fs .log ≠ none ∨ w.fs .key ≠ none → wp calm (rekey c ra) (fun _ _ => False)
      (fun x _ => (w.fs .log ≠ none → x = .err .log_file_exists) ∧ (w.fs .log = none → x = .err .file_exists)) w := by
    intro hx
    refine wp_refuses hlf hx ?_ ?_ ?_ ?_
    · intro x w' _ h; exact absurd h not_faulty_calm
    · intro e w' _ h; exact (h _ _ _ _ hd hh rfl).elim
    · intro h w' _; exact ⟨fun _ => rfl, fun h' => absurd h' h⟩
    · intro h w' _; exact ⟨fun h' => absurd h h', fun _ => rfl⟩
  constructor
  · intro hl
    have := key (.inl hl)
    unfold wp at this
    split at this
    · exact this.elim
    · rename_i x w' e; rw [e, this.1 hl]
  · intro hl hk
    have := key (.inr hk)
    unfold wp at this
    split at this
    · exact this.elim
    · rename_i x w' e; rw [e, this.2 hl]

/-- Without a key file `recover` fails and changes nothing. -/
private theorem recover_no_key (σ : Schedule) (w : World) (hk : w.fs .key = none) :
    ∃ x w', recover c σ w = (.error x, w') ∧ w'.fs = w.fs := by
  have key : wp σ (recover c) (fun _ _ => False) (fun _ w' => w'.fs = w.fs) w := by
    unfold recover
    apply wp_bind
    cases hf : w.fs .dat with
    | none =>
      apply wp_fOpen_none hf
      · rfl
      · intro x _ _; rfl
    | some f =>
    apply wp_fOpen (by exact hf) _ (by exact fun x _ _ => rfl)
    apply wp_bind
    apply wp_fSize (by exact hf) _ (by exact fun x _ _ => rfl)
    apply wp_bind
    unfold readDatHeader
    apply wp_bind
    by_cases h92 : f.cur.length < 92
    · exact wp_fRead_short (f := f) (by exact hf) (by decide) (by simp only [datHeaderSize]; omega) rfl (by exact fun x _ _ => rfl)
    apply wp_fRead (f := f) (by exact hf) (by simp only [datHeaderSize]; omega) _ (by exact fun x _ _ => rfl)
    apply wp_ret
    apply wp_bind
    cases hv : verifyDat (getDatHeader (slice f.cur 0 datHeaderSize)) with
    | error e =>
      exact wp_fail (e := e) rfl
    | ok u =>
    apply wp_check_ok rfl
    apply wp_bind
    apply wp_fOpen_none (by exact hk)
    · rfl
    · intro x _ _; rfl
  unfold wp at key
  split at key
  · exact key.elim
  · rename_i x w' e; exact ⟨x, w', e, key⟩

/-- The full claim of C30 is false in one point: if `recover` dies between the removal of the
key file and the removal of the log file, the log file stays for ever. `recover`, `open` and
`rekey` refuse to work from then on and change nothing; the data file is intact, but cannot be
used until the log file is removed by hand. -/
theorem C30_stuck {fs : Fs} (hk : fs .key = none) (hl : fs .log ≠ none) (c : Cfg) (σ : Schedule) (w : World) (hw : w.fs = fs) :
    (∃ x w', recover c σ w = (.error x, w') ∧ w'.fs = fs) ∧ (∃ x w', openStore c σ w = (.error x, w') ∧ w'.fs = fs) ∧
    ∀ ra lf, ra.load.fixed = .ok lf → ∃ x w', rekey c ra σ w = (.error x, w') ∧ w'.fs = fs := by
  obtain ⟨x, w', h1, h2⟩ := recover_no_key (c := c) σ w (by rw [hw, hk])
  refine ⟨⟨x, w', h1, h2.trans hw⟩, ⟨x, w', ?_, h2.trans hw⟩, ?_⟩
  · unfold openStore
    simp only [bind, M.bind, h1]
  · intro ra lf hlf
    obtain ⟨x, w', h1, h2, _⟩ := C31_refuses (c := c) σ w hlf (.inl (by rw [hw]; exact hl))
    exact ⟨x, w', h1, h2.trans hw⟩

theorem unordered_version {f : FileSt} {v : Bytes} (h : Version f v) : Unordered f v where
  bytes := fun i hi => .inl ⟨v, h, by simp [hi]⟩
  lower := ⟨v, h, Nat.le_refl _⟩
  upper := ⟨v, h, Nat.le_refl _⟩

/-- C32 is false: `rekey` does not sync what it writes at the end. After any completed `rekey`,
whatever the database contains, a power failure can leave files that `open` accepts and that
contain nothing. -/
theorem C32_lost {σ : Schedule} {w w' : World} (hc : Creatable a lf) (hr : Reachable c a short t (none, fs))
    (hl : fs .log = none) (hra : Rekeyable ra lf') (hw : w.fs = fs.set .key none)
    (hrun : rekey c ra σ w = (.ok (), w')) :
    ∃ fs₁, PowerLoss w'.fs fs₁ ∧ Answers c a.keySize fs₁ (fun _ => none) := by
  obtain ⟨df, D, K, recs, B, view, hd, sd, hS, _⟩ := before_rekey hc hr hl
  obtain ⟨rs, view', df', kf, h1, h2, h3, h4, h5, h6, h7, ⟨h8, h9⟩, _⟩ := wp_elim (rekey_wp hra hS.db hd sd hl hw) hrun
  have hcf := (rekeyable_ok hra hS.db.conf).2
  have hb := db_blank (c := c) hcf hra.buckets.1 hra.buckets.2
  refine ⟨fun p => match p with
    | .dat => some (FileSt.clean D)
    | .key => some (FileSt.clean (blankKey c (ra.conf (a.conf lf) lf') ra.buckets))
    | .log => none, ?_, ?_⟩
  · intro p
    cases p with
    | dat => rw [h2]; exact ⟨D, rfl, unordered_version h8⟩
    | key => rw [h5]; exact ⟨_, rfl, unordered_version h9⟩
    | log => rw [h6]; exact .inl rfl
  · have := answers_prefix hb (fs := fun p => match p with
      | .dat => some (FileSt.clean D)
      | .key => some (FileSt.clean (blankKey c (ra.conf (a.conf lf) lf') ra.buckets))
      | .log => none) rfl (by
        rw [show (FileSt.clean D).cur = D from rfl, (hS.db.dat.rekey ra lf').eq]
        exact List.prefix_append _ _) rfl rfl rfl
    exact answers_congr this fun k _ => rfl

/-- C32, what is true: the previous content of the data file survives. Missing: the new key file
and the overflow records. -/
theorem C32_old_data_partial {σ : Schedule} {w w' : World} {fs₁ : Fs} {D : Bytes} (hc : Creatable a lf)
    (hr : Reachable c a short t (none, fs)) (hl : fs .log = none) (hD : bytesOf fs .dat = some D)
    (hra : Rekeyable ra lf') (hw : w.fs = fs.set .key none) (hrun : rekey c ra σ w = (.ok (), w'))
    (hs : Restart w'.fs fs₁) : ∃ x, bytesOf fs₁ .dat = some (D ++ x) := by
  obtain ⟨df, D', K, recs, B, view, hd, sd, hS, _⟩ := before_rekey hc hr hl
  have e : D' = D := by
    rw [bytesOf, hd] at hD; simpa [sd.cur] using hD
  subst e
  obtain ⟨rs, view', df', kf, h1, h2, h3, h4, h5, h6, h7, h8, h9⟩ := wp_elim (rekey_wp hra hS.db hd sd hl hw) hrun
  rcases hs with rfl | hs
  · exact ⟨encRecs rs, by rw [bytesOf, h2]; simp [h3]⟩
  · have e1 := hs .dat
    rw [h2] at e1
    simp only [reduceCtorEq, if_false] at e1
    obtain ⟨img, e1, e2⟩ := e1
    obtain ⟨x, hx⟩ := unordered_prefix h4 e2
    exact ⟨x, by rw [bytesOf, e1, ← hx]; rfl⟩

/-- C32, what is true: once data file and key file are synced, by whomever, the database survives
power failures. Missing: `rekey` does not do this itself. The removal of the log file has to be durable
here (`PowerLoss` lets at most an empty log come back; see `C67_rekey_violated`). -/
theorem C32_synced_partial {m : Map} {σ : Schedule} {w w' : World} {fs₁ : Fs}
    (hc : Creatable a lf) (hr : Reachable c a short t (none, fs)) (hl : fs .log = none) (hm : Answers c a.keySize fs m)
    (hra : Rekeyable ra lf') (hw : w.fs = fs.set .key none)
    (hrun : (do rekey c ra; fSync .dat; fSync .key : M Unit) σ w = (.ok (), w')) (hs : Restart w'.fs fs₁) :
    Answers c a.keySize fs₁ m := by
  obtain ⟨df, D, K, recs, B, view, hd, sd, hS, _⟩ := before_rekey hc hr hl
  have key : wp σ (do rekey c ra; fSync .dat; fSync .key : M Unit) (fun _ w' => ∃ rs view df kf, Spills (ra.conf (a.conf lf) lf') rs ∧
      w'.fs .dat = some (FileSt.clean df) ∧ w'.fs .key = some (FileSt.clean kf) ∧ w'.fs .log = none ∧ df = D ++ encRecs rs ∧
      Db c (ra.conf (a.conf lf) lf') (D ++ encRecs rs) kf (recs ++ rs) ra.buckets view) (fun _ _ => True) w := by
    apply wp_bind
    refine wp_conseq (rekey_wp hra hS.db hd sd hl hw) ?_ (fun _ _ _ => trivial)
    rintro _ w1 ⟨rs, view', df', kf, h1, h2, h3, h4, h5, h6, h7, h8, h9⟩
    apply wp_bind
    apply wp_fSync h2 _ (fun _ _ _ => trivial)
    apply wp_fSync (f := kf) (by simpa using h5) _ (fun _ _ _ => trivial)
    refine ⟨rs, view', df'.cur, kf.cur, h1, ?_, tick_set_same _ _ _ _, ?_, h3, h7⟩
    · rw [tick_fs, Fs.set_other _ _ (by decide), tick_set_same, synced_eq]
    · simpa using h6
  obtain ⟨rs, view', D', K', h1, h2, h3, h4, rfl, h5⟩ := wp_elim key hrun
  have hs0 : Safe c (ra.conf (a.conf lf) lf') 0 (fun D' K'' => D' = D ++ encRecs rs ∧ K'' = K') w'.fs :=
    .clear _ _ _ _ h2 h3 h4 ⟨rfl, rfl⟩ (stable_clean _) (stable_clean _)
  obtain ⟨_, _, ⟨rfl, rfl⟩, h6⟩ := (hs0.restart hs).answers (by rintro _ _ ⟨rfl, rfl⟩; exact ⟨_, _, _, h5⟩)
  have := h6 _ _ _ h5
  rw [pairsOf_append, pairsOf_spills h1, List.append_nil] at this
  exact answers_congr this fun k hk => hS.map.unique hm hk

/-- C46 for `rekey`, on arbitrary files, with arbitrary arguments and faults. -/
theorem C46_rekey (ra : RekeyArgs) (σ : Schedule) (w : World) :
    ∃ evs, (rekey c ra σ w).2.out = w.out ++ evs ∧ Steady evs := by
  have h := wp_rekey_any (σ := σ) (c := c) (a := ra) (w := w)
  unfold wp at h
  split at h
  · rename_i e; rw [e]; exact h
  · rename_i e; rw [e]; exact h

/-! ### The premises are satisfiable -/

/-- New parameters: larger blocks, three buckets, two of them at a time. -/
def demoRekey : RekeyArgs := { blockSize := 120, load := .rat 3 4, buckets := 3, salt := 5, bufferSize := 250 }

theorem demo_rekeyable : Rekeyable demoRekey 49152 where
  salt := by decide
  block := by decide
  load := ⟨3, 4, rfl, by decide, by decide, by decide⟩
  lf := by decide
  buckets := by decide

theorem inserted_labels (ops : List Op) : ∀ rets, (inserted (labels ops rets)).length ≤ ops.length := by
  intro rets
  refine Nat.le_trans (List.length_filterMap_le _ _) ?_
  simp [labels]; omega

/-- A database, and how far from the limit its data file is. -/
theorem demo_small : ∃ t fs D, Reachable demoCfg demoArgs False t (none, fs) ∧ fs .log = none ∧
    bytesOf fs .dat = some D ∧ D.length + (inserted t).length * (demoRekey.blockSize + 8) + 8 < 2 ^ 48 := by
  have h : demoTestClosed demoCfg demoArgs (demoOps.take 16) (fun w => (w.fs .log).isNone &&
      match bytesOf w.fs .dat with | some D => decide (D.length < 10000) | none => false) = true := by
    decide +kernel
  obtain ⟨rets, w, h1, h2⟩ := demo_test_closed (demoOps_sound 16) h
  simp only [Bool.and_eq_true, Option.isNone_iff_eq_none] at h2
  obtain ⟨h2, h3⟩ := h2
  split at h3
  · rename_i D e
    refine ⟨_, w.fs, D, h1, h2, e, ?_⟩
    have := inserted_labels (demoOps.take 16) rets
    have : (demoOps.take 16).length = 16 := rfl
    have : D.length < 10000 := by simpa using h3
    rw [show demoRekey.blockSize = 120 from rfl]
    omega
  · cases h3

/-- The premises of C29 and C32: a database with overflow records is rebuilt. -/
example : ∃ t fs m w w', Creatable demoArgs 32768 ∧ Reachable demoCfg demoArgs False t (none, fs) ∧ fs .log = none ∧
    Answers demoCfg demoArgs.keySize fs m ∧ Rekeyable demoRekey 49152 ∧ w.fs = fs.set .key none ∧
    rekey demoCfg demoRekey calm w = (.ok (), w') := by
  obtain ⟨t, fs, D, h1, h2, h3, h4⟩ := demo_small
  obtain ⟨df, D, K, recs, B, view, hd, sd, hS, _⟩ := before_rekey demo_creatable h1 h2
  obtain ⟨w', h⟩ := C29_succeeds demo_creatable h1 h2 demo_rekeyable (w := ⟨fs.set .key none, 0, []⟩) rfl h3 h4
  exact ⟨t, fs, _, _, w', demo_creatable, h1, h2, hS.map, demo_rekeyable, rfl, h⟩

/-- The premises of `C32_synced_partial`. -/
example : ∃ t fs w w', Reachable demoCfg demoArgs False t (none, fs) ∧ fs .log = none ∧ w.fs = fs.set .key none ∧
    (do rekey demoCfg demoRekey; fSync .dat; fSync .key : M Unit) calm w = (.ok (), w') := by
  obtain ⟨t, fs, D, h1, h2, h3, h4⟩ := demo_small
  obtain ⟨w', h⟩ := C29_succeeds demo_creatable h1 h2 demo_rekeyable (w := ⟨fs.set .key none, 0, []⟩) rfl h3 h4
  obtain ⟨K, hK, _⟩ := (C29_rekey demo_creatable h1 h2 (settled demo_creatable h1 h2).choose_spec.choose_spec.choose_spec.choose_spec.choose_spec.1.map
    demo_rekeyable (w := ⟨fs.set .key none, 0, []⟩) rfl h).2.2.2
  obtain ⟨_, x, _, hx⟩ := (C29_rekey demo_creatable h1 h2 (settled demo_creatable h1 h2).choose_spec.choose_spec.choose_spec.choose_spec.choose_spec.1.map
    demo_rekeyable (w := ⟨fs.set .key none, 0, []⟩) rfl h).2.2.1
  cases hdf : w'.fs .dat with
  | none => simp [bytesOf, hdf] at hx
  | some df =>
  cases hkf : w'.fs .key with
  | none => simp [bytesOf, hkf] at hK
  | some kf =>
  refine ⟨t, fs, ⟨fs.set .key none, 0, []⟩, ?_, h1, h2, rfl, ?_⟩
  rotate_left
  · simp only [bind, M.bind, h]
    simp [fSync, fileOp, calm, hdf, hkf]
    rfl

/-- The premises of C30: `rekey` dies while it allocates the key file, `recover` dies as well (while
it truncates the log file), and the result is the state of `C30_stuck`. -/
theorem C30_stuck_witness : ∃ t fs w₁ w₂, Reachable demoCfg demoArgs False t (none, fs) ∧ fs .log = none ∧
    rekey demoCfg demoRekey (faultAt 11 (.crash 0) ⟨fs.set .key none, 0, []⟩) ⟨fs.set .key none, 0, []⟩ = (.error .crash, w₁) ∧
    recover demoCfg (faultAt 11 (.crash 0) w₁) w₁ = (.error .crash, w₂) ∧ w₂.fs .key = none ∧ w₂.fs .log ≠ none ∧
    Attempts demoCfg True w₁.fs w₂.fs := by
  have h : demoTestClosed demoCfg demoArgs (demoOps.take 16) (fun w => (w.fs .log).isNone &&
      let v : World := ⟨w.fs.set .key none, 0, []⟩
      let r := rekey demoCfg demoRekey (faultAt 11 (.crash 0) v) v
      let q := recover demoCfg (faultAt 11 (.crash 0) r.2) r.2
      crashed r && crashed q && (q.2.fs .key).isNone && (q.2.fs .log).isSome) = true := by
    decide +kernel
  obtain ⟨rets, w, h1, h2⟩ := demo_test_closed (demoOps_sound 16) h
  simp only [Bool.and_eq_true, Option.isNone_iff_eq_none] at h2
  obtain ⟨h2, ⟨⟨h3, h4⟩, h5⟩, h6⟩ := h2
  obtain ⟨w₁, h3⟩ := crashed_iff h3
  rw [h3] at h4 h5 h6
  obtain ⟨w₂, h4⟩ := crashed_iff h4
  rw [h4] at h5 h6
  refine ⟨_, w.fs, w₁, w₂, h1, h2, h3, h4, h5, ?_, ?_⟩
  · intro h; rw [h] at h6; cases h6
  · exact .more (.none _) _ (.inr trivial) rfl h4 (.inl rfl)

/-- The premises of C31: a log file and a data file with a valid header. -/
example : bytesOf (Fs.set (Fs.set (fun _ => none) .dat (some (FileSt.clean (putDatHeader (demoArgs.conf 1).dh)))) .log
      (some (FileSt.clean []))) .dat = some (putDatHeader (demoArgs.conf 1).dh ++ []) ∧
    DataHeader 2 (putDatHeader (demoArgs.conf 1).dh) ∧ demoRekey.load.fixed = .ok 49152 :=
  ⟨by decide +kernel, ⟨by decide +kernel, by decide +kernel, by decide +kernel, by decide +kernel, by decide⟩, rfl⟩

end NuDB
